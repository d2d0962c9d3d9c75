/-
  Model of coda/string.cpp and coda/easy_parsing.cpp.

  A forward-only `const char *` is the rest of the object from it on.  `std::string`
  and `std::vector` are lists, `std::set<T>` is the membership function it represents.
-/
import Verif.Str.Model
import Verif.Url.Model

namespace Verif.StrCpp
open Verif.Str

/-! ### formatted output, coda/string.cpp:9-125 -/

/-- coda/string.cpp:7 -/
def BUFSZ : Nat := 32768

/-- A fresh object (alloca, new[], automatic array) of `n` bytes with indeterminate contents `junk`.  Environment: vsnprintf(3) into fresh memory, called at coda/string.cpp:15, 22, 35, 42, 62, 73, 101, 112. -/
def fresh (junk : Nat → UInt8) (n : Nat) : Buf := (List.range n).map junk

/-- `vsnprintf(buf, size, fmt, ap)`, where `t` is the complete formatted text (`none`: the call fails and returns
a negative value).  Environment: vsnprintf(3) into fresh memory, called at coda/string.cpp:15, 22, 35, 42, 62, 73, 101, 112. -/
def vsnprintf (buf : Buf) (size : Nat) (t : Option Buf) : Res (Buf × Int) :=
  match t with
  | none => .ok (buf, -1)
  | some t =>
    if size = 0 then .ok (buf, t.length) else do
    let buf ← Url.wrs buf 0 (t.take (size - 1) ++ [0])
    .ok (buf, t.length)

/-- Conversion of a size_t value to int (modulo 2^32).  The conversion `(int) num`: coda/string.cpp:62, 73, 101, 112. -/
def toInt (n : Nat) : Int := if n % 2 ^ 32 < 2 ^ 31 then (n % 2 ^ 32 : Nat) else ((n % 2 ^ 32 : Nat) : Int) - 2 ^ 32

/-- The bytes that `append(b, bytes)` / `insert(pos, b, bytes)` copy from `b`.  A negative `bytes` becomes a
huge size_t: std::length_error is thrown (`none`).  (Other reasons for std::length_error / bad_alloc are not modelled.)  The bytes of a C string: coda/string.cpp:127-223. -/
def chars (b : Buf) (bytes : Int) : Res (Option Buf) :=
  if bytes < 0 then .ok none
  else if (b.length : Int) < bytes then .ub
  else .ok (some (b.take bytes.toNat))

/-- coda/string.cpp:13-24 and 33-44: format into 32768 bytes, and again into a buffer
of the right size if that was too small.  Returns the buffer in use and `bytes`. -/
def fmtAlloca (junk : Nat → UInt8) (t : Option Buf) : Res (Buf × Int) := do
  let (buf, bytes) ← vsnprintf (fresh junk BUFSZ) BUFSZ t
  if (BUFSZ : Int) ≤ bytes then do
    let (buf, _) ← vsnprintf (fresh junk (bytes.toNat + 1)) (bytes.toNat + 1) t
    .ok (buf, bytes)
  else .ok (buf, bytes)

/-- `coda_strprintf`, coda/string.cpp:9-27: `return BUF` constructs the string up to the first NUL. -/
def coda_strprintf (junk : Nat → UInt8) (t : Option Buf) : Res Buf := do
  let (buf, _) ← fmtAlloca junk t
  let n ← strlen buf
  .ok (buf.take n)

/-- `coda_strappend`, coda/string.cpp:29-49.  `none`: an exception left the function and `out` is unchanged. -/
def coda_strappend (junk : Nat → UInt8) (out : Buf) (t : Option Buf) : Res (Option (Buf × Int)) := do
  let (buf, bytes) ← fmtAlloca junk t
  let cs ← chars buf bytes
  .ok (cs.map fun cs => (out ++ cs, bytes))

/-- The common part of coda/string.cpp:58-81 and 97-120: the two branches differ in where the buffer is allocated.
`(int) num < bytes` and `bytes = num` convert `num` to int. -/
def fmtBounded (junk : Nat → UInt8) (num : Nat) (t : Option Buf) : Res (Buf × Int) := do
  let size := (num + 1) % 2 ^ 64
  let (buf, bytes) ← vsnprintf (fresh junk (if num < BUFSZ then BUFSZ else size)) size t
  .ok (buf, if toInt num < bytes then toInt num else bytes)

/-- `coda_strnappend`, coda/string.cpp:51-86. -/
def coda_strnappend (junk : Nat → UInt8) (out : Buf) (num : Nat) (t : Option Buf) : Res (Option (Buf × Int)) := do
  let (buf, bytes) ← fmtBounded junk num t
  let cs ← chars buf bytes
  .ok (cs.map fun cs => (out ++ cs, bytes))

/-- `coda_strnprintf`, coda/string.cpp:88-125. -/
def coda_strnprintf (junk : Nat → UInt8) (out : Buf) (pos num : Nat) (t : Option Buf) : Res (Option (Buf × Int)) :=
  if out.length < pos then .ok (some (out, -1)) else do
  let (buf, bytes) ← fmtBounded junk num t
  let cs ← chars buf bytes
  .ok (cs.map fun cs => (out.take pos ++ cs ++ out.drop pos, bytes))

/-! ### sets, coda/string.cpp:127-168 -/

/-- `strchr(s, c)`: offset of the first `c` (which may be the terminator).  strchr(3), called at coda/string.cpp:127-223. -/
def strchr : Buf → UInt8 → Res (Option Nat)
  | [], _ => .ub
  | x :: s, c =>
    if x = c then .ok (some 0) else if x = 0 then .ok none else do
    let r ← strchr s c
    .ok (r.map (· + 1))

/-- `set.insert(x)`.  `insert` of std::set: coda/string.cpp:127-168. -/
def insert {α} [DecidableEq α] (s : α → Bool) (x : α) : α → Bool := fun y => decide (y = x) || s y

/-- Loop of `coda_get_stringset`, coda/string.cpp:136-151.  At the loop head `begin == i`.
The fuel bounds the number of iterations. -/
def stringsetLoop : Nat → Buf → (Buf → Bool) → Res (Buf → Bool)
  | 0, _, _ => .ub
  | fuel + 1, i, result => do
    let k ← strchr i 44
    match k with
    | some k => stringsetLoop fuel (i.drop (k + 1)) (insert result (i.take k))
    | none => do
      let n ← strlen i
      .ok (insert result (i.take n))

/-- `coda_get_stringset`, coda/string.cpp:127-152. -/
def coda_get_stringset (str : Option Buf) (result : Buf → Bool) : Res (Buf → Bool) :=
  match str with
  | none => .ok result
  | some s => do
    let c ← rd s 0
    if c = 0 then .ok result else stringsetLoop s.length s result

/-- `isspace` in the C locale.  Environment: sscanf(3) with its white space and digits, called at coda/string.cpp:157-167. -/
def isspace (c : UInt8) : Bool := c = 32 || (9 ≤ c && c ≤ 13)

/-- Leading white space of sscanf.  Environment: sscanf(3) with its white space and digits, called at coda/string.cpp:157-167. -/
def skipSpace : Buf → Res Buf
  | [] => .ub
  | c :: s => if isspace c then skipSpace s else .ok (c :: s)

/-- The digits of a number: the value, or `none` if there is no digit.  Environment: sscanf(3) with its white space and digits, called at coda/string.cpp:157-167. -/
def scanDigits : Buf → Nat → Bool → Res (Option Nat)
  | [], _, _ => .ub
  | c :: s, acc, seen =>
    if 48 ≤ c ∧ c ≤ 57 then scanDigits s (acc * 10 + (c.toNat - 48)) true
    else .ok (if seen then some acc else none)

/-- `sscanf(s, "%" PRIu64, &temp)`: like strtoull (glibc: saturates at 2^64-1, a minus sign negates modulo 2^64);
`none` on a matching failure, `temp` is not assigned then. -/
def sscanfU64 (s : Buf) : Res (Option UInt64) := do
  let s ← skipSpace s
  let c ← rd s 0
  let r ← scanDigits (if c = 43 ∨ c = 45 then s.tail else s) 0 false
  .ok (r.map fun v =>
    if v < 2 ^ 64 then (if c = 45 then - UInt64.ofNat v else UInt64.ofNat v) else UInt64.ofNat (2 ^ 64 - 1))

/-- Loop of `coda_get_uint64set`, coda/string.cpp:157-167.  Inserting the indeterminate `temp` after a
matching failure is undefined behaviour. -/
def uint64setLoop : Nat → Buf → (UInt64 → Bool) → Res (UInt64 → Bool)
  | 0, _, _ => .ub
  | fuel + 1, i, result => do
    let t ← sscanfU64 i
    match t with
    | none => .ub
    | some v => do
      let k ← strchr i 44
      match k with
      | some k => uint64setLoop fuel (i.drop (k + 1)) (insert result v)
      | none => .ok (insert result v)

/-- `coda_get_uint64set`, coda/string.cpp:154-168. -/
def coda_get_uint64set (str : Option Buf) (result : UInt64 → Bool) : Res (UInt64 → Bool) :=
  match str with
  | none => .ok result
  | some s => uint64setLoop s.length s result

/-! ### coda_split_string, coda/string.cpp:170-223 -/

/-- coda/string.cpp:180-183, 189-192, 208-211, 217-220. -/
def emit (src : Buf) (ignore_empty : Bool) (prev p : Nat) (result : List Buf) : List Buf :=
  if prev < p ∨ ignore_empty = false then result ++ [(src.drop prev).take (p - prev)] else result

/-- Loop and tail of `coda_split_string(const char *, const char *, bool)`, coda/string.cpp:176-194. -/
def splitLoop (src delims : Buf) (ig : Bool) : Nat → Nat → Nat → List Buf → Res (List Buf)
  | 0, _, _, _ => .ub
  | fuel + 1, p, prev, result => do
    let c ← rd src p
    if c = 0 then .ok (emit src ig prev p result) else do
    let d ← strchr delims c
    if d.isSome then splitLoop src delims ig fuel (p + 1) (p + 1) (emit src ig prev p result)
    else splitLoop src delims ig fuel (p + 1) prev result

/-- `coda_split_string(const char *, const char *, bool)`, coda/string.cpp:170-195. -/
def coda_split_string (src delims : Buf) (ignore_empty : Bool) : Res (List Buf) :=
  splitLoop src delims ignore_empty src.length 0 0 []

/-- Loop and tail of `coda_split_string(const char *, size_t, const char *, bool)`, coda/string.cpp:204-222; `n = e - p`. -/
def splitSizedLoop (src delims : Buf) (ig : Bool) : Nat → Nat → Nat → List Buf → Res (List Buf)
  | 0, p, prev, result => .ok (emit src ig prev p result)
  | n + 1, p, prev, result => do
    let c ← rd src p
    let d ← strchr delims c
    if d.isSome then splitSizedLoop src delims ig n (p + 1) (p + 1) (emit src ig prev p result)
    else splitSizedLoop src delims ig n (p + 1) prev result

/-- `coda_split_string(const char *, size_t, const char *, bool)`, coda/string.cpp:197-223. -/
def coda_split_string_sized (src : Buf) (size : Nat) (delims : Buf) (ignore_empty : Bool) : Res (List Buf) :=
  splitSizedLoop src delims ignore_empty size 0 0 []

/-! ### coda_random_string, coda/string.cpp:225-238 -/

/-- Loop of `coda_random_string`, coda/string.cpp:231-235; `rnd k` is the result of the `k`-th call of `random()`
(any function: the generator is not modelled).  `idx` is an unsigned int. -/
def randomLoop (alphabet : Buf) (alphabet_size : Nat) (rnd : Nat → Nat) : Nat → Nat → Buf → Res Buf
  | 0, _, result => .ok result
  | size + 1, k, result =>
    if alphabet_size = 0 then .ub else do
    let c ← rd alphabet (rnd k % alphabet_size % 2 ^ 32)
    randomLoop alphabet alphabet_size rnd size (k + 1) (result ++ [c])

/-- `coda_random_string`, coda/string.cpp:225-238. -/
def coda_random_string (rnd : Nat → Nat) (size : Nat) (alphabet : Buf) (alphabet_size : Nat) : Res Buf :=
  randomLoop alphabet alphabet_size rnd size 0 []

/-! ### coda/easy_parsing.cpp -/

/-- coda/easy_parsing.cpp:6: number of characters skipped. -/
def skipBlank : Buf → Res Nat
  | [] => .ub
  | c :: s => if c = 32 ∨ c = 9 ∨ c = 10 ∨ c = 13 then do
      let n ← skipBlank s
      .ok (n + 1)
    else .ok 0

/-- `strpbrk(s, accept)` for a list of accepted characters.  strpbrk(3), called at coda/easy_parsing.cpp:8. -/
def strpbrk : Buf → List UInt8 → Res (Option Nat)
  | [], _ => .ub
  | c :: s, accept =>
    if c = 0 then .ok none else if c ∈ accept then .ok (some 0) else do
    let r ← strpbrk s accept
    .ok (r.map (· + 1))

/-- `get_next_word`, coda/easy_parsing.cpp:4-21.  Argument: the object from `be` on.  Result: return value, and the
offsets of the new `be` and `en` from the old `be`. -/
def get_next_word (be : Buf) : Res (Int × Nat × Nat) := do
  let b ← skipBlank be
  let r ← strpbrk (be.drop b) [32, 9, 10, 13]
  let en ← (match r with
    | some k => .ok (b + k)
    | none => do
      let n ← strlen (be.drop b)
      .ok (b + n) : Res Nat)
  .ok (if en > b then 1 else 0, b, en)

/-- The client loop `while (get_next_word(be, en)) { use [be, en); be = en; }`.  A client's loop over `get_next_word`: coda/easy_parsing.cpp:4-21. -/
def allWords : Nat → Buf → Res (List Buf)
  | 0, _ => .ub
  | fuel + 1, be => do
    let (r, b, en) ← get_next_word be
    if r = 0 then .ok [] else do
    let ws ← allWords fuel (be.drop en)
    .ok ((be.drop b).take (en - b) :: ws)

end Verif.StrCpp
