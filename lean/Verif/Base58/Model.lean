/-
  Model of coda/base58.c.
-/
import Verif.Mem

namespace Verif.Base58

/-- coda/base58.c:13 `static const char b58str[58]`. -/
def b58str : Buf := [
   49, 50, 51, 52, 53, 54, 55, 56, 57, 65, 66, 67, 68, 69, 70, 71,
   72, 74, 75, 76, 77, 78, 80, 81, 82, 83, 84, 85, 86, 87, 88, 89,
   90, 97, 98, 99, 100, 101, 102, 103, 104, 105, 106, 107, 109, 110, 111, 112,
   113, 114, 115, 116, 117, 118, 119, 120, 121, 122]

/-- coda/base58.c:81-208, the macro `B58` and the table `b58[0x100]`. -/
def b58 : List Int := [
   -1, -1, -1, -1, -1, -1, -1, -1, -1, -1, -1, -1, -1, -1, -1, -1,
   -1, -1, -1, -1, -1, -1, -1, -1, -1, -1, -1, -1, -1, -1, -1, -1,
   -1, -1, -1, -1, -1, -1, -1, -1, -1, -1, -1, -1, -1, -1, -1, -1,
   -1, 0, 1, 2, 3, 4, 5, 6, 7, 8, -1, -1, -1, -1, -1, -1,
   -1, 9, 10, 11, 12, 13, 14, 15, 16, -1, 17, 18, 19, 20, 21, -1,
   22, 23, 24, 25, 26, 27, 28, 29, 30, 31, 32, -1, -1, -1, -1, -1,
   -1, 33, 34, 35, 36, 37, 38, 39, 40, 41, 42, 43, -1, 44, 45, 46,
   47, 48, 49, 50, 51, 52, 53, 54, 55, 56, 57, -1, -1, -1, -1, -1,
   -1, -1, -1, -1, -1, -1, -1, -1, -1, -1, -1, -1, -1, -1, -1, -1,
   -1, -1, -1, -1, -1, -1, -1, -1, -1, -1, -1, -1, -1, -1, -1, -1,
   -1, -1, -1, -1, -1, -1, -1, -1, -1, -1, -1, -1, -1, -1, -1, -1,
   -1, -1, -1, -1, -1, -1, -1, -1, -1, -1, -1, -1, -1, -1, -1, -1,
   -1, -1, -1, -1, -1, -1, -1, -1, -1, -1, -1, -1, -1, -1, -1, -1,
   -1, -1, -1, -1, -1, -1, -1, -1, -1, -1, -1, -1, -1, -1, -1, -1,
   -1, -1, -1, -1, -1, -1, -1, -1, -1, -1, -1, -1, -1, -1, -1, -1,
   -1, -1, -1, -1, -1, -1, -1, -1, -1, -1, -1, -1, -1, -1, -1, -1]

/-- Number of iterations the loop index `int i = len - 1` can count down to 0,
for a length of type `unsigned`: if `len - 1` does not fit in `int`, `i` starts negative. -/
def startIdx (len : Nat) : Nat := if len ≤ 2147483648 then len else 0

/-- coda/base58.c:15-22 `while (outlen && inlen && !*in)`.
Result: positions and counts `(i, inlen, out, o, outlen)` after the loop. -/
def encZeros (inb : Buf) (i inlen : Nat) (out : Buf) (o outlen : Nat) :
    Res (Nat × Nat × Buf × Nat × Nat) :=
  match inlen with
  | 0 => .ok (i, 0, out, o, outlen)
  | n + 1 =>
    if outlen = 0 then .ok (i, n + 1, out, o, outlen) else do
    let c ← rd inb i
    if c ≠ 0 then .ok (i, n + 1, out, o, outlen) else do
    let out ← wr out o 49   -- '1'
    encZeros inb (i + 1) n out (o + 1) (outlen - 1)

/-- coda/base58.c:33-38 `for (i = b58len - 1; carry || i >= 0; i--)`.
`k` is `i + 1`; at `i = -1` with a non-zero carry the code accesses `b58_curr[-1]`. -/
def encInner (buf : Buf) (k : Nat) (carry : Nat) : Res Buf :=
  match k with
  | 0 => if carry ≠ 0 then .ub else .ok buf
  | i + 1 => do
    let d ← rd buf i
    let carry := carry + 256 * d.toNat
    let buf ← wr buf i (UInt8.ofNat (carry % 58))
    encInner buf i (carry / 58)

/-- coda/base58.c:29-40 `while (inlen)`. -/
def encMain (inb : Buf) (i inlen : Nat) (buf : Buf) (b58len : Nat) : Res Buf :=
  match inlen with
  | 0 => .ok buf
  | n + 1 => do
    let c ← rd inb i
    let buf ← encInner buf (startIdx b58len) c.toNat
    encMain inb (i + 1) n buf b58len

/-- coda/base58.c:43-47 (and 266-270) `while (len && !*curr)`: returns position and remaining length. -/
def skipZeros (buf : Buf) (p len : Nat) : Res (Nat × Nat) :=
  match len with
  | 0 => .ok (p, 0)
  | n + 1 => do
    let d ← rd buf p
    if d = 0 then skipZeros buf (p + 1) n else .ok (p, n + 1)

/-- coda/base58.c:49-54 `while (outlen && b58len)`. -/
def encWrite (buf : Buf) (p b58len : Nat) (out : Buf) (o outlen : Nat) : Res (Buf × Nat × Nat) :=
  match b58len with
  | 0 => .ok (out, o, outlen)
  | n + 1 =>
    if outlen = 0 then .ok (out, o, outlen) else do
    let d ← rd buf p
    let c ← rd b58str d.toNat
    let out ← wr out o c
    encWrite buf (p + 1) n out (o + 1) (outlen - 1)

/-- coda/base58.c:24 `unsigned b58len = inlen * 138 / 100 + 1` (size_t arithmetic, then
conversion to 32-bit unsigned). -/
def b58Len (inlen : Nat) : Nat := (inlen * 138 % 2 ^ 64 / 100 + 1) % 2 ^ 32

/-- `coda_base58_encode`, coda/base58.c:11-59.  `callocOk` is the outcome of `calloc`,
which the code does not check: with NULL the first access to the scratch
buffer is undefined behaviour. -/
def coda_base58_encode (callocOk : Bool) (inb : Buf) (inlen : Nat) (out : Buf) (outlen : Nat) : Res Buf := do
  let (i, inlen, out, o, outlen) ← encZeros inb 0 inlen out 0 outlen
  let b58len := b58Len inlen
  if callocOk = false then .ub else do
  let buf ← encMain inb i inlen (List.replicate b58len 0) b58len
  let (p, len) ← skipZeros buf 0 b58len
  let (out, o, outlen) ← encWrite buf p len out o outlen
  if outlen ≠ 0 then wr out o 0 else .ok out

/-- coda/base58.c:65-69 `while (nonzero_inlen && !in[zeroes])` and 289-293 with `'1'`:
counts the leading bytes equal to `z`. -/
def countLead (z : UInt8) (inb : Buf) (zeroes rest : Nat) : Res (Nat × Nat) :=
  match rest with
  | 0 => .ok (zeroes, 0)
  | n + 1 => do
    let c ← rd inb zeroes
    if c = z then countLead z inb (zeroes + 1) n else .ok (zeroes, n + 1)

/-- Result of `coda_base58_encode_alloc`.  What `coda_base58_encode_alloc` returns and stores in `*out`: coda/base58.c:61-79. -/
structure EncAlloc where
  ret : Nat
  out : Option Buf
  deriving DecidableEq, Repr

/-- `coda_base58_encode_alloc`, coda/base58.c:61-79.  Simplification: the size
computation is not wrapped modulo 2^64 (inputs are below 2^56 bytes). -/
def coda_base58_encode_alloc (malloc : Nat → Option Buf) (callocOk : Bool) (inb : Buf) (inlen : Nat) :
    Res EncAlloc := do
  let (zeroes, nonzero) ← countLead 0 inb 0 inlen
  let outlen := zeroes + nonzero * 138 / 100 + 2
  match malloc outlen with
  | none => .ok ⟨outlen, none⟩
  | some blk => do
    let blk ← coda_base58_encode callocOk inb inlen blk outlen
    .ok ⟨outlen - 1, some blk⟩

/-- `b58[to_uchar (c)]`.  A look-up in the table `b58`: coda/base58.c:217-220, 244-245. -/
def tab (c : UInt8) : Res Int :=
  match b58[c.toNat]? with
  | some v => .ok v
  | none => .ub

/-- `coda_isbase58`, coda/base58.c:217-220. -/
def coda_isbase58 (c : UInt8) : Res Bool := do
  let v ← tab c
  .ok (decide (0 ≤ v))

/-- coda/base58.c:227-233 `while (inlen && *in == '1')`. -/
def decOnes (inb : Buf) (i inlen : Nat) (out : Buf) (o : Nat) : Res (Nat × Nat × Buf × Nat) :=
  match inlen with
  | 0 => .ok (i, 0, out, o)
  | n + 1 => do
    let c ← rd inb i
    if c ≠ 49 then .ok (i, n + 1, out, o) else do
    let out ← wr out o 0
    decOnes inb (i + 1) n out (o + 1)

/-- coda/base58.c:249-254 `for (i = b256len - 1; i >= 0; i--)`; returns the buffer and the carry. -/
def decInner (buf : Buf) (k : Nat) (carry : Nat) : Res (Buf × Nat) :=
  match k with
  | 0 => .ok (buf, carry)
  | i + 1 => do
    let d ← rd buf i
    let carry := carry + 58 * d.toNat
    let buf ← wr buf i (UInt8.ofNat (carry % 256))
    decInner buf i (carry / 256)

/-- Outcome of the decoder's main loop.  How the main loop of `coda_base58_decode` ends: coda/base58.c:242-258. -/
inductive DecMain where
  /-- loop left normally or by `break`: buffer and remaining `inlen` -/
  | done (buf : Buf) (inlen : Nat)
  /-- `if (carry) return -_inlen + inlen;` (the scratch buffer is leaked) -/
  | carry (inlen : Nat)
  deriving DecidableEq, Repr

/-- coda/base58.c:242-257 `while (inlen)`. -/
def decMain (inb : Buf) (i inlen : Nat) (buf : Buf) (b256len : Nat) : Res DecMain :=
  match inlen with
  | 0 => .ok (.done buf 0)
  | n + 1 => do
    let c ← rd inb i
    let ok ← coda_isbase58 c
    if ok = false then .ok (.done buf (n + 1)) else do
    let v ← tab c
    let (buf, carry) ← decInner buf (startIdx b256len) v.toNat
    if carry ≠ 0 then .ok (.carry (n + 1)) else
    decMain inb (i + 1) n buf b256len

/-- coda/base58.c:273-277 `while (b256len)`. -/
def decWrite (buf : Buf) (p len : Nat) (out : Buf) (o : Nat) : Res Buf :=
  match len with
  | 0 => .ok out
  | n + 1 => do
    let d ← rd buf p
    let out ← wr out o d
    decWrite buf (p + 1) n out (o + 1)

/-- coda/base58.c:235 `unsigned b256len = inlen * 733 / 1000 + 1`. -/
def b256Len (inlen : Nat) : Nat := (inlen * 733 % 2 ^ 64 / 1000 + 1) % 2 ^ 32

/-- Result of a decoder call: return value and output object.  The result of `coda_base58_decode`: coda/base58.c:222-282. -/
structure Dec where
  ret : Int
  out : Buf
  deriving DecidableEq, Repr

/-- `coda_base58_decode`, coda/base58.c:222-282. -/
def coda_base58_decode (callocOk : Bool) (inb : Buf) (inlen0 : Nat) (out : Buf) : Res Dec := do
  let (i, inlen, out, o) ← decOnes inb 0 inlen0 out 0
  let b256len := b256Len inlen
  if callocOk = false then .ok ⟨-(inlen0 : Int) + inlen, out⟩ else do
  let m ← decMain inb i inlen (List.replicate b256len 0) b256len
  match m with
  | .carry inlen => .ok ⟨-(inlen0 : Int) + inlen, out⟩
  | .done buf inlen =>
    if inlen ≠ 0 then .ok ⟨-(inlen0 : Int) + inlen, out⟩ else do
    let (p, len) ← skipZeros buf 0 b256len
    let out ← decWrite buf p len out o
    .ok ⟨(o + len : Nat), out⟩

/-- Result of `coda_base58_decode_alloc`.  The result of `coda_base58_decode_alloc` and `*out`: coda/base58.c:284-309. -/
structure DecAlloc where
  ret : Int
  out : Option Buf
  deriving DecidableEq, Repr

/-- `coda_base58_decode_alloc`, coda/base58.c:284-309 (`return true` is 1). -/
def coda_base58_decode_alloc (malloc : Nat → Option Buf) (callocOk : Bool) (inb : Buf) (inlen : Nat) :
    Res DecAlloc := do
  let (zeroes, b256len) ← countLead 49 inb 0 inlen
  let needlen := zeroes + b256len * 733 / 1000 + 1
  match malloc needlen with
  | none => .ok ⟨1, none⟩
  | some blk => do
    let d ← coda_base58_decode callocOk inb inlen blk
    if d.ret < 0 then .ok ⟨d.ret, none⟩ else .ok ⟨d.ret, some d.out⟩

end Verif.Base58
