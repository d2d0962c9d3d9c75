/-
  Model of the memory that coda/base58.c allocates and frees.  The loops are those of `Verif.Base58.Model`; here calloc and
  malloc take blocks from a heap and may fail, and every `free` of the code is there.
-/
import Verif.Base58.Model

namespace Verif.Base58Mem
open Verif.Base58

/-- The heap of the C library (environment, not code of the repository): the blocks in use, the number of the next request and which
requests fail.  The C library's malloc, calloc and free as used at coda/base58.c:27, 58, 73, 238, 262, 279, 296, 303. -/
structure Heap where
  live : List Nat
  next : Nat
  fails : Nat → Bool

/-- `malloc` and `calloc`: NULL or a new block.  The C library's malloc, calloc and free as used at coda/base58.c:27, 58, 73, 238, 262, 279, 296, 303. -/
def Heap.alloc (h : Heap) : Heap × Option Nat :=
  if h.fails h.next then ({ h with next := h.next + 1 }, none)
  else ({ h with live := h.next :: h.live, next := h.next + 1 }, some h.next)

/-- `free`: undefined behaviour unless the block is in use.  The C library's malloc, calloc and free as used at coda/base58.c:27, 58, 73, 238, 262, 279, 296, 303. -/
def Heap.free (h : Heap) (b : Nat) : Res Heap :=
  if b ∈ h.live then .ok { h with live := h.live.erase b } else .ub

/-- `coda_base58_encode`, coda/base58.c:11-59; `calloc` line 27 (not checked: line 43 reads through the pointer, since b58len is not 0),
`free` line 58. -/
def encode (h : Heap) (inb : Buf) (inlen : Nat) (out : Buf) (outlen : Nat) : Res (Heap × Buf) := do
  let (i, inlen, out, o, outlen) ← encZeros inb 0 inlen out 0 outlen
  let b58len := b58Len inlen
  match h.alloc with
  | (_, none) => .ub
  | (h, some b) => do
    let buf ← encMain inb i inlen (List.replicate b58len 0) b58len
    let (p, len) ← skipZeros buf 0 b58len
    let (out, o, outlen) ← encWrite buf p len out o outlen
    let out ← if outlen ≠ 0 then wr out o 0 else .ok out
    let h ← h.free b
    .ok (h, out)

/-- What `coda_base58_encode_alloc` returns and where `*out` points.  The result of `coda_base58_encode_alloc`: coda/base58.c:61-79. -/
structure EncRes where
  heap : Heap
  ret : Nat
  out : Option (Nat × Buf)

/-- `coda_base58_encode_alloc`, coda/base58.c:61-79; `fill n` is what malloc leaves in a block of n bytes. -/
def encodeAlloc (fill : Nat → Buf) (h : Heap) (inb : Buf) (inlen : Nat) : Res EncRes := do
  let (zeroes, nonzero) ← countLead 0 inb 0 inlen
  let outlen := zeroes + nonzero * 138 / 100 + 2
  match h.alloc with
  | (h, none) => .ok ⟨h, outlen, none⟩
  | (h, some b) => do
    let (h, blk) ← encode h inb inlen (fill outlen) outlen
    .ok ⟨h, outlen - 1, some (b, blk)⟩

/-- coda/base58.c:259-281, what follows the main loop. -/
def decodeEnd (h : Heap) (b : Nat) (inlen0 b256len : Nat) (out : Buf) (o : Nat) (m : DecMain) : Res (Heap × Dec) :=
  match m with
  -- line 256 `if (carry) return -_inlen + inlen;` without free
  | .carry inlen => .ok (h, ⟨-(inlen0 : Int) + inlen, out⟩)
  | .done buf inlen =>
    if inlen ≠ 0 then do
      let h ← h.free b
      .ok (h, ⟨-(inlen0 : Int) + inlen, out⟩)
    else do
      let (p, len) ← skipZeros buf 0 b256len
      let out ← decWrite buf p len out o
      let h ← h.free b
      .ok (h, ⟨(o + len : Nat), out⟩)

/-- `coda_base58_decode`, coda/base58.c:222-282; `calloc` line 238, `free` lines 262 and 279. -/
def decode (h : Heap) (inb : Buf) (inlen0 : Nat) (out : Buf) : Res (Heap × Dec) := do
  let (i, inlen, out, o) ← decOnes inb 0 inlen0 out 0
  let b256len := b256Len inlen
  match h.alloc with
  | (h, none) => .ok (h, ⟨-(inlen0 : Int) + inlen, out⟩)
  | (h, some b) => do
    let m ← decMain inb i inlen (List.replicate b256len 0) b256len
    decodeEnd h b inlen0 b256len out o m

/-- What `coda_base58_decode_alloc` returns and where `*out` points.  The result of `coda_base58_decode` and `coda_base58_decode_alloc`: coda/base58.c:222-309. -/
structure DecRes where
  heap : Heap
  ret : Int
  out : Option (Nat × Buf)

/-- `coda_base58_decode_alloc`, coda/base58.c:284-309 (`return true` is 1). -/
def decodeAlloc (fill : Nat → Buf) (h : Heap) (inb : Buf) (inlen : Nat) : Res DecRes := do
  let (zeroes, b256len) ← countLead 49 inb 0 inlen
  let needlen := zeroes + b256len * 733 / 1000 + 1
  match h.alloc with
  | (h, none) => .ok ⟨h, 1, none⟩
  | (h, some b) => do
    let (h, d) ← decode h inb inlen (fill needlen)
    if d.ret < 0 then do
      let h ← h.free b
      .ok ⟨h, d.ret, none⟩
    else .ok ⟨h, d.ret, some (b, d.out)⟩

end Verif.Base58Mem
