/-
  Model of coda/string.c and of the inline functions of coda/string.h.

  A read-only `const char *` that only moves forward is modelled by the rest of
  the object from the pointer on; reading through it when nothing is left is
  undefined behaviour.  A returned pointer is modelled by its offset from the
  argument.  Functions which come in a case sensitive and a case insensitive copy
  share a loop which takes the folding function (`id` or `tolower`).
-/
import Verif.Mem

namespace Verif.Str

/-- `tolower` in the C locale (glibc: defined for all `char` values, also negative
ones, which are mapped to themselves).  tolower(3) in the C locale, called at coda/string.c:13-147. -/
def tolower (c : UInt8) : UInt8 := if 65 ≤ c ∧ c ≤ 90 then c + 32 else c

/-- `strlen`.  strlen(3), called at coda/string.c:87-147. -/
def strlen : Buf → Res Nat
  | [] => .ub
  | c :: s => if c = 0 then .ok 0 else do
    let n ← strlen s
    .ok (n + 1)

/-- Loop of coda/string.c:6-9 and 16-19: `for (; s < e; ++s) if (c == fold(*s)) return s;`
with `len = e - s`. -/
def chrLoop (fold : UInt8 → UInt8) (c : UInt8) : Buf → Nat → Res (Option Nat)
  | _, 0 => .ok none
  | [], _ + 1 => .ub
  | v :: s, len + 1 => if c = fold v then .ok (some 0) else do
    let r ← chrLoop fold c s len
    .ok (r.map (· + 1))

/-- `coda_strnchr`, coda/string.c:3-11. -/
def coda_strnchr (s : Buf) (c : UInt8) (len : Nat) : Res (Option Nat) := chrLoop id c s len

/-- `coda_strxchr`, coda/string.c:13-21. -/
def coda_strxchr (s : Buf) (c : UInt8) (len : Nat) : Res (Option Nat) := chrLoop tolower (tolower c) s len

/-- Loop of coda/string.c:26-29 and 36-39: `for (s = b + len; s > b; --s)`; `k = s - b`, so the
byte read is number `k - 1`.  (The pointer `b = s - 1` is one before the object;
that pointer arithmetic is not modelled.) -/
def revChrLoop (fold : UInt8 → UInt8) (c : UInt8) (s : Buf) : Nat → Res (Option Nat)
  | 0 => .ok none
  | k + 1 => do
    let v ← rd s k
    if c = fold v then .ok (some k) else revChrLoop fold c s k

/-- `coda_revnchr`, coda/string.c:23-31. -/
def coda_revnchr (s : Buf) (c : UInt8) (len : Nat) : Res (Option Nat) := revChrLoop id c s len

/-- `coda_revxchr`, coda/string.c:33-41. -/
def coda_revxchr (s : Buf) (c : UInt8) (len : Nat) : Res (Option Nat) := revChrLoop tolower (tolower c) s len

/-- Loop of coda/string.c:46-50 and 56-60: `for (; p < len; ++p) if (c == fold(s[p])) return p; return len`;
`fuel = len - p`. -/
def chpLoop (fold : UInt8 → UInt8) (c : UInt8) (s : Buf) (len : Nat) : Nat → Nat → Res Nat
  | _, 0 => .ok len
  | p, fuel + 1 => do
    let v ← rd s p
    if c = fold v then .ok p else chpLoop fold c s len (p + 1) fuel

/-- `coda_strnchp`, coda/string.c:43-51. -/
def coda_strnchp (s : Buf) (c : UInt8) (len : Nat) : Res Nat := chpLoop id c s len 0 len

/-- `coda_strxchp`, coda/string.c:53-61. -/
def coda_strxchp (s : Buf) (c : UInt8) (len : Nat) : Res Nat := chpLoop tolower (tolower c) s len 0 len

/-- Inner loop of `coda_stristr`, coda/string.c:75-80: `for (w = s, x = n; *w && *x; ++w, ++x)` followed
by the test `!*x`. -/
def isMatch : Buf → Buf → Res Bool
  | [], _ => .ub
  | _, [] => .ub
  | w :: ws, x :: xs =>
    if w ≠ 0 ∧ x ≠ 0 then
      if tolower w ≠ tolower x then .ok (decide (x = 0)) else isMatch ws xs
    else .ok (decide (x = 0))

/-- Outer loop of `coda_stristr`, coda/string.c:71-84. -/
def isOuter (n : Buf) (n0 : UInt8) : Buf → Res (Option Nat)
  | [] => .ub
  | c :: s => if c = 0 then .ok none else do
    let hit ← (if tolower c = tolower n0 then isMatch (c :: s) n else .ok false : Res Bool)
    if hit then .ok (some 0) else do
    let r ← isOuter n n0 s
    .ok (r.map (· + 1))

/-- `coda_stristr`, coda/string.c:63-85 (`none` for a NULL argument). -/
def coda_stristr (s n : Option Buf) : Res (Option Nat) :=
  match s with
  | none => .ok none
  | some s => do
    let c ← rd s 0
    if c = 0 then .ok none else
    match n with
    | none => .ok (some 0)
    | some n => do
      let n0 ← rd n 0
      if n0 = 0 then .ok (some 0) else isOuter n n0 s

/-- Inner loop of coda/string.c:106-111 and 137-142: `for (w = s, x = n; w < es && x < en; ++w, ++x)`
followed by `x == en`; `wl = es - w`, `xl = en - x`. -/
def nMatch (fold : UInt8 → UInt8) : Buf → Nat → Buf → Nat → Res Bool
  | _, _, _, 0 => .ok true
  | _, 0, _, _ + 1 => .ok false
  | w :: ws, wl + 1, x :: xs, xl + 1 => if fold w ≠ fold x then .ok false else nMatch fold ws wl xs xl
  | [], _ + 1, _, _ + 1 => .ub
  | _, _ + 1, [], _ + 1 => .ub

/-- Outer loop of coda/string.c:102-115 and 133-146; `sl = es - s`. -/
def nOuter (fold : UInt8 → UInt8) (n : Buf) (nsz : Nat) (n0 : UInt8) : Buf → Nat → Res (Option Nat)
  | _, 0 => .ok none
  | [], _ + 1 => .ub
  | c :: s, sl + 1 => do
    let hit ← (if fold c = fold n0 then nMatch fold (c :: s) (sl + 1) n nsz else .ok false : Res Bool)
    if hit then .ok (some 0) else do
    let r ← nOuter fold n nsz n0 s sl
    .ok (r.map (· + 1))

/-- Common body of `coda_strnstr` and `coda_strxstr`, coda/string.c:94-115 and 126-146. -/
def strstrBody (fold : UInt8 → UInt8) (s n : Option Buf) (len : Nat) : Res (Option Nat) :=
  match s with
  | none => .ok none
  | some s => do
    let c ← rd s 0
    if c = 0 then .ok none else
    match n with
    | none => .ok (some 0)
    | some n => do
      let n0 ← rd n 0
      if n0 = 0 then .ok (some 0) else do
      let nsz ← strlen n
      if len < nsz then .ok none else nOuter fold n nsz n0 s len

/-- `coda_strnstr`, coda/string.c:87-116. -/
def coda_strnstr (s n : Option Buf) (len : Nat) : Res (Option Nat) := strstrBody id s n len

/-- `coda_strxstr`, coda/string.c:118-147. -/
def coda_strxstr (s n : Option Buf) (len : Nat) : Res (Option Nat) := strstrBody tolower s n len

/-- `for (x = n; *x; ++x) if (fold(c) == fold(*x)) break;` then `*x`: true iff the loop was left by the
break.  coda/string.c:158-163, 177-182, 196-201, 215-218, 232-235, 250-253, 267-270, 284-287, 301-304, 318-321. -/
def inSet (fold : UInt8 → UInt8) (c : UInt8) : Buf → Res Bool
  | [] => .ub
  | x :: n => if x = 0 then .ok false else if fold c = fold x then .ok true else inSet fold c n

/-- Outer loop of coda/string.c:175-183 and 194-202. -/
def spnLoop (fold : UInt8 → UInt8) (n : Buf) : Buf → Nat → Res Nat
  | _, 0 => .ok 0
  | [], _ + 1 => .ub
  | c :: s, len + 1 => do
    let m ← inSet fold c n
    if m then do
      let r ← spnLoop fold n s len
      .ok (r + 1)
    else .ok 0

/-- `coda_strispn`, coda/string.c:151-167. -/
def coda_strispn (s n : Buf) : Res Nat :=
  match s with
  | [] => .ub
  | c :: s => if c = 0 then .ok 0 else do
    let m ← inSet tolower c n
    if m then do
      let r ← coda_strispn s n
      .ok (r + 1)
    else .ok 0

/-- `coda_strnspn`, coda/string.c:169-186. -/
def coda_strnspn (s n : Buf) (len : Nat) : Res Nat := spnLoop id n s len

/-- `coda_strxspn`, coda/string.c:188-205. -/
def coda_strxspn (s n : Buf) (len : Nat) : Res Nat := spnLoop tolower n s len

/-- Outer loop of coda/string.c:213-219 and 230-236: `for (; p > b && *x; --p)`.  `k = p - b`; `more` is
`*x != 0`.  Returns the final `k`. -/
def revSpnLoop (fold : UInt8 → UInt8) (s n : Buf) : Nat → Bool → Res Nat
  | 0, _ => .ok 0
  | k + 1, more =>
    if more = false then .ok (k + 1) else do
    let c ← rd s k
    let m ← inSet fold c n
    revSpnLoop fold s n k m

/-- Common body of `coda_revnspn` and `coda_revxspn`: initially `x = n`.
(With `len = 0` the first byte of `n` is not read.) -/
def revSpnBody (fold : UInt8 → UInt8) (s n : Buf) (len : Nat) : Res Nat :=
  if len = 0 then .ok 0 else do
  let x ← rd n 0
  let k ← revSpnLoop fold s n len (decide (x ≠ 0))
  .ok (len - k)

/-- `coda_revnspn`, coda/string.c:207-222. -/
def coda_revnspn (s n : Buf) (len : Nat) : Res Nat := revSpnBody id s n len

/-- `coda_revxspn`, coda/string.c:224-239. -/
def coda_revxspn (s n : Buf) (len : Nat) : Res Nat := revSpnBody tolower s n len

/-- Outer loop of coda/string.c:265-273 and 282-290. -/
def spcLoop (fold : UInt8 → UInt8) (n : Buf) : Buf → Nat → Res Nat
  | _, 0 => .ok 0
  | [], _ + 1 => .ub
  | c :: s, len + 1 => do
    let m ← inSet fold c n
    if m then .ok 0 else do
    let r ← spcLoop fold n s len
    .ok (r + 1)

/-- `coda_strispc`, coda/string.c:243-257. -/
def coda_strispc (s n : Buf) : Res Nat :=
  match s with
  | [] => .ub
  | c :: s => if c = 0 then .ok 0 else do
    let m ← inSet tolower c n
    if m then .ok 0 else do
    let r ← coda_strispc s n
    .ok (r + 1)

/-- `coda_strnspc`, coda/string.c:259-274. -/
def coda_strnspc (s n : Buf) (len : Nat) : Res Nat := spcLoop id n s len

/-- `coda_strxspc`, coda/string.c:276-291. -/
def coda_strxspc (s n : Buf) (len : Nat) : Res Nat := spcLoop tolower n s len

/-- Outer loop of coda/string.c:299-307 and 316-324; `k = p - b`. -/
def revSpcLoop (fold : UInt8 → UInt8) (s n : Buf) (len : Nat) : Nat → Res Nat
  | 0 => .ok len
  | k + 1 => do
    let c ← rd s k
    let m ← inSet fold c n
    if m then .ok (len - (k + 1)) else revSpcLoop fold s n len k

/-- `coda_revnspc`, coda/string.c:293-308. -/
def coda_revnspc (s n : Buf) (len : Nat) : Res Nat := revSpcLoop id s n len len

/-- `coda_revxspc`, coda/string.c:310-325. -/
def coda_revxspc (s n : Buf) (len : Nat) : Res Nat := revSpcLoop tolower s n len len

/-- Loop of `coda_atou`, coda/string.h:71-82.  A `char` with the high bit set is
negative and therefore smaller than '0'. -/
def atouLoop : Buf → Nat → UInt64 → Res UInt64
  | _, 0, result => .ok result
  | [], _ + 1, _ => .ub
  | c :: p, size + 1, result =>
    if c ≥ 128 ∨ 48 > c ∨ c > 57 then .ok 0
    else atouLoop p size (result * 10 + (c.toUInt64 - 48))

/-- `coda_atou`, coda/string.h:63-83. -/
def coda_atou (data : Buf) (size : Nat) : Res UInt64 := atouLoop data size 0

/-- `coda_atoi`, coda/string.h:85-94; the conversion of uint64_t to int64_t is modulo 2^64. -/
def coda_atoi (data : Buf) (size : Nat) : Res Int64 := do
  if size = 0 then do
    let u ← coda_atou data size
    .ok u.toInt64
  else do
    let c ← rd data 0
    if c = 45 then do
      let u ← coda_atou data.tail (size - 1)
      .ok (-u).toInt64
    else do
      let u ← coda_atou data size
      .ok u.toInt64

end Verif.Str
