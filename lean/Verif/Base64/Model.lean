/-
  Model of coda/base64.c and coda/web64.c.

  The two files contain the same encoder and decoder text; they differ in the
  alphabet (`b64str`), the inverse table (`b64`) and the padding character
  ('=' / '.').  The loops are therefore modelled once, with these three things as
  parameters, and instantiated twice.
-/
import Verif.Mem

namespace Verif.Base64

/-- coda/base64.c:68-69 `static const char b64str[64]` of `coda_base64_encode`. -/
def b64str : Buf := [
   65, 66, 67, 68, 69, 70, 71, 72, 73, 74, 75, 76, 77, 78, 79, 80,
   81, 82, 83, 84, 85, 86, 87, 88, 89, 90, 97, 98, 99, 100, 101, 102,
   103, 104, 105, 106, 107, 108, 109, 110, 111, 112, 113, 114, 115, 116, 117, 118,
   119, 120, 121, 122, 48, 49, 50, 51, 52, 53, 54, 55, 56, 57, 43, 47]

/-- coda/web64.c:13 `static const char b64str[64]` of `web64_encode`. -/
def web64str : Buf := [
   65, 66, 67, 68, 69, 70, 71, 72, 73, 74, 75, 76, 77, 78, 79, 80,
   81, 82, 83, 84, 85, 86, 87, 88, 89, 90, 97, 98, 99, 100, 101, 102,
   103, 104, 105, 106, 107, 108, 109, 110, 111, 112, 113, 114, 115, 116, 117, 118,
   119, 120, 121, 122, 48, 49, 50, 51, 52, 53, 54, 55, 56, 57, 45, 95]

/-- coda/base64.c:152-284, the macro `B64` and the table `b64[0x100]`
(entries in order 0..255; -1 marks a non-alphabet character). -/
def b64 : List Int := [
   -1, -1, -1, -1, -1, -1, -1, -1, -1, -1, -1, -1, -1, -1, -1, -1,
   -1, -1, -1, -1, -1, -1, -1, -1, -1, -1, -1, -1, -1, -1, -1, -1,
   -1, -1, -1, -1, -1, -1, -1, -1, -1, -1, -1, 62, -1, -1, -1, 63,
   52, 53, 54, 55, 56, 57, 58, 59, 60, 61, -1, -1, -1, -1, -1, -1,
   -1, 0, 1, 2, 3, 4, 5, 6, 7, 8, 9, 10, 11, 12, 13, 14,
   15, 16, 17, 18, 19, 20, 21, 22, 23, 24, 25, -1, -1, -1, -1, -1,
   -1, 26, 27, 28, 29, 30, 31, 32, 33, 34, 35, 36, 37, 38, 39, 40,
   41, 42, 43, 44, 45, 46, 47, 48, 49, 50, 51, -1, -1, -1, -1, -1,
   -1, -1, -1, -1, -1, -1, -1, -1, -1, -1, -1, -1, -1, -1, -1, -1,
   -1, -1, -1, -1, -1, -1, -1, -1, -1, -1, -1, -1, -1, -1, -1, -1,
   -1, -1, -1, -1, -1, -1, -1, -1, -1, -1, -1, -1, -1, -1, -1, -1,
   -1, -1, -1, -1, -1, -1, -1, -1, -1, -1, -1, -1, -1, -1, -1, -1,
   -1, -1, -1, -1, -1, -1, -1, -1, -1, -1, -1, -1, -1, -1, -1, -1,
   -1, -1, -1, -1, -1, -1, -1, -1, -1, -1, -1, -1, -1, -1, -1, -1,
   -1, -1, -1, -1, -1, -1, -1, -1, -1, -1, -1, -1, -1, -1, -1, -1,
   -1, -1, -1, -1, -1, -1, -1, -1, -1, -1, -1, -1, -1, -1, -1, -1]

/-- coda/web64.c:32-165, the macro `B64` and the table `b64[0x100]`. -/
def web64 : List Int := [
   -1, -1, -1, -1, -1, -1, -1, -1, -1, -1, -1, -1, -1, -1, -1, -1,
   -1, -1, -1, -1, -1, -1, -1, -1, -1, -1, -1, -1, -1, -1, -1, -1,
   -1, -1, -1, -1, -1, -1, -1, -1, -1, -1, -1, -1, -1, 62, -1, -1,
   52, 53, 54, 55, 56, 57, 58, 59, 60, 61, -1, -1, -1, -1, -1, -1,
   -1, 0, 1, 2, 3, 4, 5, 6, 7, 8, 9, 10, 11, 12, 13, 14,
   15, 16, 17, 18, 19, 20, 21, 22, 23, 24, 25, -1, -1, -1, -1, 63,
   -1, 26, 27, 28, 29, 30, 31, 32, 33, 34, 35, 36, 37, 38, 39, 40,
   41, 42, 43, 44, 45, 46, 47, 48, 49, 50, 51, -1, -1, -1, -1, -1,
   -1, -1, -1, -1, -1, -1, -1, -1, -1, -1, -1, -1, -1, -1, -1, -1,
   -1, -1, -1, -1, -1, -1, -1, -1, -1, -1, -1, -1, -1, -1, -1, -1,
   -1, -1, -1, -1, -1, -1, -1, -1, -1, -1, -1, -1, -1, -1, -1, -1,
   -1, -1, -1, -1, -1, -1, -1, -1, -1, -1, -1, -1, -1, -1, -1, -1,
   -1, -1, -1, -1, -1, -1, -1, -1, -1, -1, -1, -1, -1, -1, -1, -1,
   -1, -1, -1, -1, -1, -1, -1, -1, -1, -1, -1, -1, -1, -1, -1, -1,
   -1, -1, -1, -1, -1, -1, -1, -1, -1, -1, -1, -1, -1, -1, -1, -1,
   -1, -1, -1, -1, -1, -1, -1, -1, -1, -1, -1, -1, -1, -1, -1, -1]

/-- coda/base64.c:71-96 (web64.c:15-27), the loop `while (inlen && outlen)`.
`i`, `o` are the current positions of the pointers `in`, `out`; the result is
the output object, the final position of `out` and the final `outlen`.
Simplification: the pointers are positions in the objects they were passed for. -/
def encLoop (str : Buf) (pad : UInt8) (inb : Buf) (i inlen : Nat) (out : Buf) (o outlen : Nat) :
    Res (Buf × Nat × Nat) :=
  if inlen ≠ 0 ∧ outlen ≠ 0 then do
    -- *out++ = b64str[(to_uchar (in[0]) >> 2) & 0x3f];
    let c0 ← rd inb i
    let d0 ← rd str ((c0.toNat >>> 2) &&& 0x3f)
    let out ← wr out o d0
    -- if (!--outlen) break;
    if outlen - 1 = 0 then .ok (out, o + 1, outlen - 1) else do
    -- b64str[((to_uchar (in[0]) << 4) + (--inlen ? to_uchar (in[1]) >> 4 : 0)) & 0x3f]
    let x1 ← (if inlen - 1 ≠ 0 then do let c1 ← rd inb (i + 1); Res.ok (c1.toNat >>> 4) else Res.ok 0)
    let d1 ← rd str (((c0.toNat <<< 4) + x1) &&& 0x3f)
    let out ← wr out (o + 1) d1
    if outlen - 2 = 0 then .ok (out, o + 2, outlen - 2) else do
    -- inlen ? b64str[((to_uchar (in[1]) << 2) + (--inlen ? to_uchar (in[2]) >> 6 : 0)) & 0x3f] : '='
    let d2 ← (if inlen - 1 ≠ 0 then do
        let c1 ← rd inb (i + 1)
        let x2 ← (if inlen - 2 ≠ 0 then do let c2 ← rd inb (i + 2); Res.ok (c2.toNat >>> 6) else Res.ok 0)
        rd str (((c1.toNat <<< 2) + x2) &&& 0x3f)
      else Res.ok pad)
    let out ← wr out (o + 2) d2
    if outlen - 3 = 0 then .ok (out, o + 3, outlen - 3) else do
    -- inlen ? b64str[to_uchar (in[2]) & 0x3f] : '='   (inlen has been decremented twice if it was > 1)
    let d3 ← (if inlen - 2 ≠ 0 then do let c2 ← rd inb (i + 2); rd str (c2.toNat &&& 0x3f) else Res.ok pad)
    let out ← wr out (o + 3) d3
    if outlen - 4 = 0 then .ok (out, o + 4, outlen - 4) else
    -- if (inlen) inlen--; if (inlen) in += 3;
    let inlen' := inlen - 3
    encLoop str pad inb (if inlen' ≠ 0 then i + 3 else i) inlen' out (o + 4) (outlen - 4)
  else .ok (out, o, outlen)
termination_by inlen

/-- coda/base64.c:64-100 / web64.c:11-30: the loop, then `if (outlen) *out = '\0';`. -/
def encode (str : Buf) (pad : UInt8) (inb : Buf) (inlen : Nat) (out : Buf) (outlen : Nat) : Res Buf := do
  let (out, o, outlen) ← encLoop str pad inb 0 inlen out 0 outlen
  if outlen ≠ 0 then wr out o 0 else .ok out

/-- `coda_base64_encode`, coda/base64.c:64-100. -/
def coda_base64_encode := encode b64str 61

/-- `web64_encode`, coda/web64.c:11-30. -/
def web64_encode := encode web64str 46

/-- 2^64, the modulus of `size_t`.  Arithmetic of size_t, used at coda/base64.h:34 and coda/base64.c:111-141, 397-423. -/
def szMod : Nat := 18446744073709551616

/-- coda/base64.h:34 `CODA_BASE64_LENGTH` evaluated in `size_t` arithmetic. -/
def base64Length (inlen : Nat) : Nat := (((inlen + 2) % szMod / 3) * 4) % szMod

/-- Result of `coda_base64_encode_alloc`: return value and `*out` (NULL or an object). -/
structure EncAlloc where
  ret : Nat
  out : Option Buf
  deriving DecidableEq, Repr

/-- `coda_base64_encode_alloc`, coda/base64.c:111-141.  `malloc n` is the
outcome of the allocation: `none` (NULL) or the initial contents of the block. -/
def coda_base64_encode_alloc (malloc : Nat → Option Buf) (inb : Buf) (inlen : Nat) : Res EncAlloc :=
  let outlen := (1 + base64Length inlen) % szMod
  if inlen > outlen then .ok ⟨0, none⟩
  else match malloc outlen with
    | none => .ok ⟨outlen, none⟩
    | some blk => do
      let blk ← coda_base64_encode inb inlen blk outlen
      .ok ⟨(outlen + szMod - 1) % szMod, some blk⟩

/-- `b64[to_uchar (c)]`: access to the 256-entry table. -/
def tab (tbl : List Int) (c : UInt8) : Res Int :=
  match tbl[c.toNat]? with
  | some v => .ok v
  | none => .ub

/-- coda/base64.c:295-299 `coda_isbase64` / web64.c:173-176 `isweb64`. -/
def isAlpha (tbl : List Int) (c : UInt8) : Res Bool := do
  let v ← tab tbl c
  .ok (decide (0 ≤ v))

/-- `coda_isbase64`, coda/base64.c:295-299. -/
def coda_isbase64 := isAlpha b64

/-- Conversion of a non-negative int to `char` when storing the byte.  Conversion of an int to char, as in the stores of coda/base64.c:71-96, 316-376. -/
def toChar (n : Nat) : UInt8 := UInt8.ofNat n

/-- State of the decoder after the loop: output object, `out` position, `outleft`, `inlen`.  The local variables of the loop of `coda_base64_decode`: coda/base64.c:310-384. -/
structure DecSt where
  out : Buf
  o : Nat
  outleft : Nat
  inlen : Nat
  deriving DecidableEq, Repr

/-- `if (outleft) { *out++ = v; outleft--; }` (coda/base64.c:321-326, 345-350, 365-370). -/
def emit (out : Buf) (o outleft : Nat) (v : UInt8) : Res (Buf × Nat × Nat) :=
  if outleft ≠ 0 then do let out ← wr out o v; .ok (out, o + 1, outleft - 1)
  else .ok (out, o, outleft)

/-- coda/base64.c:316-376 (web64.c:182-229), the loop `while (inlen >= 2)`.
Table values used in the shifts have been tested to be ≥ 0, so the int shifts are
shifts of natural numbers. -/
def decLoop (tbl : List Int) (pad : UInt8) (inb : Buf) (i inlen : Nat) (out : Buf) (o outleft : Nat) :
    Res DecSt :=
  if inlen ≥ 2 then do
    let c0 ← rd inb i
    let a0 ← isAlpha tbl c0
    if a0 = false then .ok ⟨out, o, outleft, inlen⟩ else do
    let c1 ← rd inb (i + 1)
    let a1 ← isAlpha tbl c1
    if a1 = false then .ok ⟨out, o, outleft, inlen⟩ else do
    let v0 ← tab tbl c0
    let v1 ← tab tbl c1
    let (out, o, outleft) ← emit out o outleft (toChar ((v0.toNat <<< 2) ||| (v1.toNat >>> 4)))
    if inlen = 2 then .ok ⟨out, o, outleft, inlen⟩ else do
    let c2 ← rd inb (i + 2)
    if c2 = pad then
      if inlen ≠ 4 then .ok ⟨out, o, outleft, inlen⟩ else do
      let c3 ← rd inb (i + 3)
      if c3 ≠ pad then .ok ⟨out, o, outleft, inlen⟩ else
      decLoop tbl pad inb (i + 4) (inlen - 4) out o outleft
    else do
      let a2 ← isAlpha tbl c2
      if a2 = false then .ok ⟨out, o, outleft, inlen⟩ else do
      let v2 ← tab tbl c2
      let (out, o, outleft) ← emit out o outleft
        (toChar (((v1.toNat <<< 4) &&& 0xf0) ||| (v2.toNat >>> 2)))
      if inlen = 3 then .ok ⟨out, o, outleft, inlen⟩ else do
      let c3 ← rd inb (i + 3)
      if c3 = pad then
        if inlen ≠ 4 then .ok ⟨out, o, outleft, inlen⟩ else
        decLoop tbl pad inb (i + 4) (inlen - 4) out o outleft
      else do
        let a3 ← isAlpha tbl c3
        if a3 = false then .ok ⟨out, o, outleft, inlen⟩ else do
        let v3 ← tab tbl c3
        let (out, o, outleft) ← emit out o outleft
          (toChar (((v2.toNat <<< 6) &&& 0xc0) ||| v3.toNat))
        decLoop tbl pad inb (i + 4) (inlen - 4) out o outleft
  else .ok ⟨out, o, outleft, inlen⟩
termination_by inlen

/-- Result of a decoder call: the boolean, the output object and the final `*outlen`.  The result of `coda_base64_decode`: coda/base64.c:310-384. -/
structure Dec where
  ret : Bool
  out : Buf
  outlen : Nat
  deriving DecidableEq, Repr

/-- coda/base64.c:310-384 / web64.c:178-236. -/
def decode (tbl : List Int) (pad : UInt8) (inb : Buf) (inlen : Nat) (out : Buf) (outlen : Nat) : Res Dec := do
  let s ← decLoop tbl pad inb 0 inlen out 0 outlen
  -- *outlen -= outleft;  return inlen == 0
  .ok ⟨decide (s.inlen = 0), s.out, outlen - s.outleft⟩

/-- `coda_base64_decode`, coda/base64.c:310-384. -/
def coda_base64_decode := decode b64 61

/-- `web64_decode`, coda/web64.c:178-236. -/
def web64_decode := decode web64 46

/-- Result of `coda_base64_decode_alloc`: return value, `*out`, `*outlen`
(`none` = not assigned), and the number of blocks freed. -/
structure DecAlloc where
  ret : Bool
  out : Option Buf
  outlen : Option Nat
  freed : Nat
  deriving DecidableEq, Repr

/-- `coda_base64_decode_alloc` with a non-NULL `outlen`, coda/base64.c:397-423.
`3 * (inlen / 4) + 2` is below 2^64 for every 64-bit `inlen`, so no wrap is modelled. -/
def coda_base64_decode_alloc (malloc : Nat → Option Buf) (inb : Buf) (inlen : Nat) : Res DecAlloc :=
  let needlen := 3 * (inlen / 4) + 2
  match malloc needlen with
  | none => .ok ⟨true, none, none, 0⟩
  | some blk => do
    let d ← coda_base64_decode inb inlen blk needlen
    if d.ret = false then .ok ⟨false, none, none, 1⟩
    else .ok ⟨true, some d.out, some d.outlen, 0⟩

end Verif.Base64
