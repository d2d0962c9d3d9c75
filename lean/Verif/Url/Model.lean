/-
  Model of coda/url.cpp, lines 70-399 (URL coding).  The parameter and header parsers
  (lines 9-68) are in Verif/Params.

  A forward-only read pointer is the rest of the object from it on (see Verif/Str/Model).
  Pointer comparison `psrc < esrc - 2` is modelled on the distance
  `esrc - psrc` (the pointer `esrc - 2` may lie before the object for `sz_src < 2`;
  that pointer arithmetic is not modelled).
-/
import Verif.Mem

namespace Verif.Url

/-- coda/url.cpp:70 `table_hexval` (string literal with its NUL). -/
def table_hexval : Buf := [48, 49, 50, 51, 52, 53, 54, 55, 56, 57, 65, 66, 67, 68, 69, 70, 0]

/-- coda/url.cpp:72-90 `table_urldec`. -/
def table_urldec : List UInt8 := [
  0,  0,  0,  0,  0,  0,  0,  0,  0,  0,  0,  0,  0,  0,  0,  0,
  0,  0,  0,  0,  0,  0,  0,  0,  0,  0,  0,  0,  0,  0,  0,  0,
  0,  0,  0,  0,  0,  0,  0,  0,  0,  0,  0,  0,  0,  0,  0,  0,
  0,  1,  2,  3,  4,  5,  6,  7,  8,  9,  0,  0,  0,  0,  0,  0,
  0, 10, 11, 12, 13, 14, 15,  0,  0,  0,  0,  0,  0,  0,  0,  0,
  0,  0,  0,  0,  0,  0,  0,  0,  0,  0,  0,  0,  0,  0,  0,  0,
  0, 10, 11, 12, 13, 14, 15,  0,  0,  0,  0,  0,  0,  0,  0,  0,
  0,  0,  0,  0,  0,  0,  0,  0,  0,  0,  0,  0,  0,  0,  0,  0,
  0,  0,  0,  0,  0,  0,  0,  0,  0,  0,  0,  0,  0,  0,  0,  0,
  0,  0,  0,  0,  0,  0,  0,  0,  0,  0,  0,  0,  0,  0,  0,  0,
  0,  0,  0,  0,  0,  0,  0,  0,  0,  0,  0,  0,  0,  0,  0,  0,
  0,  0,  0,  0,  0,  0,  0,  0,  0,  0,  0,  0,  0,  0,  0,  0,
  0,  0,  0,  0,  0,  0,  0,  0,  0,  0,  0,  0,  0,  0,  0,  0,
  0,  0,  0,  0,  0,  0,  0,  0,  0,  0,  0,  0,  0,  0,  0,  0,
  0,  0,  0,  0,  0,  0,  0,  0,  0,  0,  0,  0,  0,  0,  0,  0,
  0,  0,  0,  0,  0,  0,  0,  0,  0,  0,  0,  0,  0,  0,  0,  0]

/-- coda/url.cpp:92-105 `table_urlenc`. -/
def table_urlenc : List UInt32 :=
  [0xffffffff, 0xfc009ffe, 0x78000001, 0xb8000001, 0xffffffff, 0xffffffff, 0xffffffff, 0xffffffff]

/-- `table_urlenc[c >> 5] & (1 << (c & 0x1f))` for an unsigned char `c`,
coda/url.cpp:115, 176, 206.  (`1 << 31` is taken to be the sign bit.) -/
def mustEnc (c : UInt8) : Res Bool :=
  match table_urlenc[(c >>> 5).toNat]? with
  | some w => .ok (decide (w &&& ((1 : UInt32) <<< (c &&& 0x1f).toUInt32) ≠ 0))
  | none => .ub

/-- `table_urldec[c]`.  `table_urldec[…]` of the two digits: coda/url.cpp:144-160, 229-245. -/
def dec1 (c : UInt8) : Res UInt8 :=
  match table_urldec[c.toNat]? with
  | some v => .ok v
  | none => .ub

/-- `table_urldec[a] * 0x10 + table_urldec[b] * 0x01` stored in an unsigned char.  `table_urldec[…]` of the two digits: coda/url.cpp:144-160, 229-245. -/
def dec2 (a b : UInt8) : Res UInt8 := do
  let x ← dec1 a
  let y ← dec1 b
  .ok (UInt8.ofNat (x.toNat * 16 + y.toNat * 1))

/-- Loop of `coda_urlenc(char *, …)`, coda/url.cpp:113-131; `n = esrc - psrc`, `o` is the index of `pdst`. -/
def urlencBufLoop : Buf → Nat → Buf → Nat → Res (Buf × Nat)
  | _, 0, out, o => .ok (out, o)
  | [], _ + 1, _, _ => .ub
  | c :: s, n + 1, out, o => do
    let e ← mustEnc c
    if e then do
      let out ← wr out o 37
      let h ← rd table_hexval (c >>> 4).toNat
      let out ← wr out (o + 1) h
      let l ← rd table_hexval (c &&& 0xf).toNat
      let out ← wr out (o + 2) l
      urlencBufLoop s n out (o + 3)
    else if c = 32 then do
      let out ← wr out o 43
      urlencBufLoop s n out (o + 1)
    else do
      let out ← wr out o c
      urlencBufLoop s n out (o + 1)

/-- `coda_urlenc(char *dst, const char *src, size_t sz_src)`, coda/url.cpp:107-136.
Returns the destination object and the return value. -/
def coda_urlenc_buf (dst src : Buf) (sz : Nat) : Res (Buf × Nat) := do
  let (out, o) ← urlencBufLoop src sz dst 0
  let out ← wr out o 0
  .ok (out, o)

/-- Loop of `coda_urldec(char *, …)`, coda/url.cpp:144-160, source and destination disjoint. -/
def urldecBufLoop (src : Buf) (n : Nat) (out : Buf) (o : Nat) : Res (Buf × Nat) :=
  match n, src with
  | 0, _ => .ok (out, o)
  | _ + 1, [] => .ub
  | n + 1, c :: s =>
    if c = 37 ∧ n + 1 > 2 then
      match s with
      | a :: b :: s' => do
        let v ← dec2 a b
        let out ← wr out o v
        urldecBufLoop s' (n - 2) out (o + 1)
      | _ => .ub
    else if c = 43 then do
      let out ← wr out o 32
      urldecBufLoop s n out (o + 1)
    else do
      let out ← wr out o c
      urldecBufLoop s n out (o + 1)

/-- `coda_urldec(char *dst, const char *src, size_t sz_src)`, coda/url.cpp:138-165, disjoint objects. -/
def coda_urldec_buf (dst src : Buf) (sz : Nat) : Res (Buf × Nat) := do
  let (out, o) ← urldecBufLoop src sz dst 0
  let out ← wr out o 0
  .ok (out, o)

/-- The same loop (coda/url.cpp:144-160) when `dst == src`: one object `m`, read at `i`, written at `o`;
`n = esrc - psrc`. -/
def urldecAliasLoop (m : Buf) (i n o : Nat) : Res (Buf × Nat) :=
  match n with
  | 0 => .ok (m, o)
  | n + 1 => do
    let c ← rd m i
    if c = 37 ∧ n + 1 > 2 then
      match n with
      | n' + 2 => do
        let a ← rd m (i + 1)
        let b ← rd m (i + 2)
        let v ← dec2 a b
        let m ← wr m o v
        urldecAliasLoop m (i + 3) n' (o + 1)
      | _ => .ub
    else if c = 43 then do
      let m ← wr m o 32
      urldecAliasLoop m (i + 1) n (o + 1)
    else do
      let m ← wr m o c
      urldecAliasLoop m (i + 1) n (o + 1)

/-- `coda_urldec(p, p, sz_src)`, coda/url.cpp:138-165. -/
def coda_urldec_alias (m : Buf) (sz : Nat) : Res (Buf × Nat) := do
  let (m, o) ← urldecAliasLoop m 0 sz 0
  let m ← wr m o 0
  .ok (m, o)

/-- Loop of `coda_urlenc(const char *, size_t)`, coda/url.cpp:174-192; `dst` is the std::string built so far. -/
def urlencLoop : Buf → Nat → Buf → Res Buf
  | _, 0, dst => .ok dst
  | [], _ + 1, _ => .ub
  | c :: s, n + 1, dst => do
    let e ← mustEnc c
    if e then do
      let h ← rd table_hexval (c >>> 4).toNat
      let l ← rd table_hexval (c &&& 0xf).toNat
      urlencLoop s n (dst ++ [37] ++ [h] ++ [l])
    else if c = 32 then urlencLoop s n (dst ++ [43])
    else urlencLoop s n (dst ++ [c])

/-- `std::string coda_urlenc(const char *src, size_t sz_src)`, coda/url.cpp:167-195 (and 250-253). -/
def coda_urlenc (src : Buf) (sz : Nat) : Res Buf := urlencLoop src sz []

/-- Loop of `coda_urlenc_noplus`, coda/url.cpp:204-217. -/
def urlencNoplusLoop : Buf → Nat → Buf → Res Buf
  | _, 0, dst => .ok dst
  | [], _ + 1, _ => .ub
  | c :: s, n + 1, dst => do
    let e ← (if c = 32 then .ok true else mustEnc c : Res Bool)
    if e then do
      let h ← rd table_hexval (c >>> 4).toNat
      let l ← rd table_hexval (c &&& 0xf).toNat
      urlencNoplusLoop s n (dst ++ [37] ++ [h] ++ [l])
    else urlencNoplusLoop s n (dst ++ [c])

/-- `coda_urlenc_noplus`, coda/url.cpp:197-220 (and 255-258). -/
def coda_urlenc_noplus (src : Buf) (sz : Nat) : Res Buf := urlencNoplusLoop src sz []

/-- Loop of `std::string coda_urldec`, coda/url.cpp:229-245. -/
def urldecLoop (src : Buf) (n : Nat) (dst : Buf) : Res Buf :=
  match n, src with
  | 0, _ => .ok dst
  | _ + 1, [] => .ub
  | n + 1, c :: s =>
    if c = 37 ∧ n + 1 > 2 then
      match s with
      | a :: b :: s' => do
        let v ← dec2 a b
        urldecLoop s' (n - 2) (dst ++ [v])
      | _ => .ub
    else if c = 43 then urldecLoop s n (dst ++ [32])
    else urldecLoop s n (dst ++ [c])

/-- `std::string coda_urldec(const char *src, size_t sz_src)`, coda/url.cpp:222-248 (and 260-263). -/
def coda_urldec (src : Buf) (sz : Nat) : Res Buf := urldecLoop src sz []

/-! ### NUL terminated variants -/

/-- Consecutive writes `b[i], b[i+1], … = vs` (memset, memcpy, the output part of snprintf).  Several stores `*pdst++ = …`: coda/url.cpp:113-131. -/
def wrs (b : Buf) (i : Nat) : List UInt8 → Res Buf
  | [] => .ok b
  | v :: vs => do
    let b ← wr b i v
    wrs b (i + 1) vs

/-- `snprintf(dest + ptr, size, …)` for a formatted text `t`: writes at most `size - 1` characters
of it and a NUL if `size > 0`; returns the length of `t`. -/
def snprintf (dest : Buf) (ptr size : Nat) (t : List UInt8) : Res (Buf × Nat) := do
  if size = 0 then .ok (dest, t.length) else do
  let dest ← wrs dest ptr (t.take (size - 1) ++ [0])
  .ok (dest, t.length)

/-- size_t subtraction (`b` small): wraps around below zero.  The subtraction of size_t: coda/url.cpp:265-294. -/
def subZ (a b : Nat) : Nat := if b ≤ a then a - b else 2 ^ 64 - (b - a)

/-- Loop of `coda_url_escape`, coda/url.cpp:270-287; `sz` has already been decremented by 3.
`*s` is a signed char: for values ≥ 0x80 the table index `*s >> 5` is negative. -/
def escLoop : Buf → Buf → Nat → Nat → Res Buf
  | [], _, _, _ => .ub
  | c :: s, dest, ptr, sz =>
    if c = 0 ∨ ¬ ptr < sz then .ok dest else
    if c ≥ 128 then .ub else do
    let e ← mustEnc c
    if e then do
      let h ← rd table_hexval (c >>> 4).toNat
      let l ← rd table_hexval (c &&& 0xf).toNat
      let (dest, k) ← snprintf dest ptr (subZ sz ptr) [37, h, l]
      escLoop s dest (ptr + k) sz
    else if c = 32 then do
      let dest ← wr dest ptr 43
      escLoop s dest (ptr + 1) sz
    else do
      let dest ← wr dest ptr c
      escLoop s dest (ptr + 1) sz

/-- `coda_url_escape`, coda/url.cpp:265-288.  (The digits printed by "%02X" are taken
from `table_hexval`, which holds the upper case hexadecimal digits.) -/
def coda_url_escape (s dest : Buf) (sz : Nat) : Res Buf := do
  let dest ← wrs dest 0 (List.replicate sz 0)
  escLoop s dest 0 (subZ sz 3)

/-- `isxdigit` in the C locale.  isxdigit(3) and strtol(3) with base 16, called at coda/url.cpp:294-397. -/
def isxdigit (c : UInt8) : Bool := (48 ≤ c && c ≤ 57) || (65 ≤ c && c ≤ 70) || (97 ≤ c && c ≤ 102)

/-- Value of a hexadecimal digit.  isxdigit(3) and strtol(3) with base 16, called at coda/url.cpp:294-397. -/
def xval (c : UInt8) : Nat := if c ≤ 57 then c.toNat - 48 else if c ≤ 70 then c.toNat - 55 else c.toNat - 87

/-- The digit loop of `strtol(…, 16)`: accumulated value and the rest of the string. -/
def strtolLoop : Buf → Nat → Res (Nat × Buf)
  | [], _ => .ub
  | c :: s, acc => if isxdigit c then strtolLoop s (acc * 16 + xval c) else .ok (acc, c :: s)

/-- `strtol(s, &ns, 16)` for a string which starts with a hexadecimal digit: an optional "0x" prefix
(only if a digit follows), saturation at LONG_MAX.  Returns the value and the rest. -/
def strtol16 (s : Buf) : Res (Nat × Buf) := do
  let c0 ← rd s 0
  let c1 ← rd s 1
  let p ← (if c0 = 48 ∧ (c1 = 120 ∨ c1 = 88) then do
      let c2 ← rd s 2
      .ok (isxdigit c2)
    else .ok false : Res Bool)
  let (v, ns) ← strtolLoop (if p then s.drop 2 else s) 0
  .ok (min v (2 ^ 63 - 1), ns)

/-- `isxdigit(s[1]) && isxdigit(s[2])` with short circuit; `s` is the rest after `s[0]`.  isxdigit(3) and strtol(3) with base 16, called at coda/url.cpp:294-397. -/
def two (s : Buf) : Res Bool := do
  let a ← rd s 0
  if isxdigit a then do
    let b ← rd s 1
    .ok (isxdigit b)
  else .ok false

/-- `uint8_t c = strtol(xnum, 0, 16)` for two hexadecimal digits.  (Neither digit is 'x', so there is
no prefix to skip.)  isxdigit(3) and strtol(3) with base 16, called at coda/url.cpp:294-397. -/
def xnum (s : Buf) : Res UInt8 := do
  let a ← rd s 0
  let b ← rd s 1
  .ok (UInt8.ofNat (xval a * 16 + xval b))

/-- `s[1] == 'u' && isxdigit(s[2])`; `s` is the rest after `s[0]`.  coda/url.cpp:312. -/
def isU (s : Buf) : Res Bool := do
  let a ← rd s 0
  if a = 117 then do
    let b ← rd s 1
    .ok (isxdigit b)
  else .ok false

/-- `s[1] == 'x' && isxdigit(s[2]) && isxdigit(s[3])`.  coda/url.cpp:328, 373. -/
def isX (s : Buf) : Res Bool := do
  let a ← rd s 0
  if a = 120 then two s.tail else .ok false

/-- The `%u` branch, coda/url.cpp:315-326: the bytes written for code `c` (uint32_t). -/
def uBytes (c : Nat) : List UInt8 :=
  if c < 0x800 ∧ c > 0x7f then
    [UInt8.ofNat ((c >>> 6) ||| 0xc0), UInt8.ofNat ((c &&& 0x3f) ||| 0x80)]
  else if c < 0x7f then [UInt8.ofNat c]
  else []

/-- Loop of `coda_url_unescape`, coda/url.cpp:294-345.  `lim = sz - 2` (size_t).  Returns the object and `ptr`.
The fuel bounds the number of iterations; the top level call provides the object size. -/
def unescLoop : Nat → Buf → Buf → Nat → Nat → Res (Buf × Nat)
  | 0, _, _, _, _ => .ub
  | _ + 1, [], _, _, _ => .ub
  | fuel + 1, c :: s, dest, ptr, lim =>
    if c = 0 ∨ ¬ ptr < lim then .ok (dest, ptr) else
    if c = 43 then do
      let dest ← wr dest ptr 32
      unescLoop fuel s dest (ptr + 1) lim
    else do
    let pct ← (if c = 37 then two s else .ok false : Res Bool)
    if pct then do
      let v ← xnum s
      let dest ← wr dest ptr v
      unescLoop fuel (s.drop 2) dest (ptr + 1) lim
    else do
    let u ← (if c = 37 then isU s else .ok false : Res Bool)
    if u then do
      let (v, ns) ← strtol16 s.tail
      let dest ← wrs dest ptr (uBytes (v % 2 ^ 32))
      unescLoop fuel ns dest (ptr + (uBytes (v % 2 ^ 32)).length) lim
    else do
    let x ← (if c = 92 then isX s else .ok false : Res Bool)
    if x then do
      let v ← xnum s.tail
      let dest ← wr dest ptr v
      unescLoop fuel (s.drop 3) dest (ptr + 1) lim
    else do
      let dest ← wr dest ptr c
      unescLoop fuel s dest (ptr + 1) lim

/-- `coda_url_unescape`, coda/url.cpp:290-347. -/
def coda_url_unescape (s dest : Buf) (sz : Nat) : Res Buf := do
  let dest ← wrs dest 0 (List.replicate sz 0)
  let (dest, ptr) ← unescLoop s.length s dest 0 (subZ sz 2)
  wr dest ptr 0

/-- Loop of `coda_url_preunescape`, coda/url.cpp:352-397 (`sz + 5` without wrap-around).
Returns the object and `ptr`. -/
def preLoop : Nat → Buf → Buf → Nat → Nat → Res (Buf × Nat)
  | 0, _, _, _, _ => .ub
  | _ + 1, [], _, _, _ => .ub
  | fuel + 1, c :: s, dest, ptr, sz =>
    if c = 0 ∨ ¬ ptr < sz + 5 then .ok (dest, ptr) else do
    let pct ← (if c = 37 then two s else .ok false : Res Bool)
    if pct then do
      let v ← xnum s
      if v ≥ 128 then do
        let dest ← wr dest ptr v
        preLoop fuel (s.drop 2) dest (ptr + 1) sz
      else do
        let dest ← (if ptr + 4 < sz then wrs dest ptr (c :: s.take 2) else .ok dest : Res Buf)
        preLoop fuel (s.drop 2) dest (ptr + 3) sz
    else do
    let x ← (if c = 92 then isX s else .ok false : Res Bool)
    if x then do
      let v ← xnum s.tail
      if v ≥ 128 then do
        let dest ← wr dest ptr v
        preLoop fuel (s.drop 3) dest (ptr + 1) sz
      else do
        let dest ← (if ptr + 3 < sz then wrs dest ptr (c :: s.take 3) else .ok dest : Res Buf)
        preLoop fuel (s.drop 3) dest ptr sz
    else do
      let dest ← wr dest ptr c
      preLoop fuel s dest (ptr + 1) sz

/-- `coda_url_preunescape`, coda/url.cpp:349-399. -/
def coda_url_preunescape (s dest : Buf) (sz : Nat) : Res Buf := do
  let (dest, ptr) ← preLoop s.length s dest 0 sz
  wr dest ptr 0

end Verif.Url
