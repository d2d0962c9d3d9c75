/-
  Model of coda/stringstorage.c.  A block of the storage is a list of bytes, a pointer into the storage a pair (number of the block, offset).
  calloc and realloc succeed.  Sizes are not bounded by 2^64.  An added string is the list of its bytes before the terminating NUL.
-/
import Verif.Mem

namespace Verif.StrStore

/-- A `char *` into a block.  Pointers into the blocks of coda/stringstorage.h:10-17 and reads through them: coda/stringstorage.c:65-139. -/
abbrev Ptr := Nat × Nat

/-- storage_blocks: coda/stringstorage.h:10-17.  `current` is the last of `blocks`, NULL if there is none; `block_count` is their number;
`bcap` is the number of elements that the array `blocks` has room for. -/
structure SB where
  uds : Nat
  used : Nat
  blocks : List Buf
  bcap : Nat

/-- string_struct: coda/stringstorage.h:21-26; `child_count` is the length of `children`, `cap` the number of elements that this array has room for. -/
inductive Node where
  | mk (value : Ptr) (cap : Nat) (children : List Node)

/-- `value` of coda/stringstorage.h:21-26. -/
def Node.value : Node → Ptr
  | .mk v _ _ => v

/-- `string_storage_init`: coda/stringstorage.c:36-46. -/
def initSB (udbs : Nat) : SB := ⟨udbs, 0, [], 0⟩
/-- The root after coda/stringstorage.c:36-46. -/
def initRoot : Node := .mk (0, 0) 0 []

/-- STORAGE_BLOCK_SIZE: coda/stringstorage.c:7. -/
def blockSize : Nat := 4096

/-- `allocate_reallocate_array`: coda/stringstorage.c:48-63: the new capacity of an array with `cnt` elements. -/
def grow (cap cnt : Nat) : Nat :=
  if cnt = 0 then 2
  else if cnt = 2 then 16
  else if cnt % 16 = 0 then cnt + 16
  else cap

/-- The bytes from a pointer to the end of its block.  Pointers into the blocks of coda/stringstorage.h:10-17 and reads through them: coda/stringstorage.c:65-139. -/
def deref (blocks : List Buf) (p : Ptr) : Res Buf :=
  match blocks[p.1]? with
  | some b => if p.2 ≤ b.length then .ok (b.drop p.2) else .ub
  | none => .ub

/-- The C string at the beginning of some bytes.  Pointers into the blocks of coda/stringstorage.h:10-17 and reads through them: coda/stringstorage.c:65-139. -/
def cstr : Buf → Res (List UInt8)
  | [] => .ub
  | a :: r => if a = 0 then .ok [] else do
    let t ← cstr r
    .ok (a :: t)

/-- `*value`.  Pointers into the blocks of coda/stringstorage.h:10-17 and reads through them: coda/stringstorage.c:65-139. -/
def byteAt (blocks : List Buf) (p : Ptr) : Res UInt8 := do
  let b ← deref blocks p
  rd b 0

/-- The string `value + user_data_size + 1`.  Pointers into the blocks of coda/stringstorage.h:10-17 and reads through them: coda/stringstorage.c:65-139. -/
def strAt (sb : SB) (p : Ptr) : Res (List UInt8) := do
  let b ← deref sb.blocks (p.1, p.2 + sb.uds + 1)
  cstr b

/-- strcmp: -1, 0 or 1. -/
def strcmp : List UInt8 → List UInt8 → Int
  | [], [] => 0
  | [], _ :: _ => -1
  | _ :: _, [] => 1
  | a :: s, b :: t => if a < b then -1 else if b < a then 1 else strcmp s t

/-- `get_common_prefix_size`: coda/stringstorage.c:65-70. -/
def lcp : List UInt8 → List UInt8 → Nat
  | a :: s, b :: t => if a = b then lcp s t + 1 else 0
  | _, _ => 0

/-- How the binary search coda/stringstorage.c:80-97 ends. -/
inductive Found where
  | hit (value : Ptr)
  | miss (begin : Nat)

/-- The binary search: coda/stringstorage.c:80-97.  `fuel` bounds the number of iterations; running out of it counts as undefined behaviour. -/
def bsearch (sb : SB) (ch : List Node) (prev : UInt8) (s : List UInt8) : Nat → Nat → Nat → Res Found
  | 0, _, _ => .ub
  | fuel + 1, b, e =>
    if b < e then
      let mid := (b + e) / 2
      match ch[mid]? with
      | none => .ub
      | some n => do
        let str ← strAt sb n.value
        let res := strcmp s str
        let sz ← byteAt sb.blocks n.value
        if res = 0 ∧ sz = prev then .ok (.hit n.value)
        else if sz = prev then
          if res < 0 then bsearch sb ch prev s fuel b mid else bsearch sb ch prev s fuel (mid + 1) e
        else
          if sz < prev then bsearch sb ch prev s fuel b mid else bsearch sb ch prev s fuel (mid + 1) e
    else .ok (.miss b)

/-- `common_bytes`: coda/stringstorage.c:76, 100, cut to a uint8_t. -/
def commonBytes (sb : SB) (ch : List Node) (b : Nat) (s : List UInt8) : Res UInt8 :=
  if b ≠ 0 then
    match ch[b - 1]? with
    | none => .ub
    | some n => do
      let str ← strAt sb n.value
      .ok (UInt8.ofNat (lcp s str))
  else .ok 0

/-- A new block: coda/stringstorage.c:121-127. -/
def newBlock (sb : SB) : Res SB :=
  let bcap := grow sb.bcap sb.blocks.length
  if sb.blocks.length < bcap then .ok { sb with blocks := sb.blocks ++ [List.replicate blockSize 0], bcap := bcap, used := 0 }
  else .ub

/-- memcpy to offset `o` of a block.  The copy of the string into a block: coda/stringstorage.c:117-139. -/
def memcpy (b : Buf) (o : Nat) (s : List UInt8) : Res Buf :=
  if o + s.length ≤ b.length then .ok (patch b o s) else .ub

/-- Lines 118-136 of coda/stringstorage.c: space for a string, and the string in it. -/
def alloc (sb : SB) (prev : UInt8) (s : List UInt8) : Res (SB × Ptr) := do
  let len := s.length + 1
  let sb ← if sb.blocks = [] ∨ sb.used + 1 + len + sb.uds > blockSize then newBlock sb else .ok sb
  let i := sb.blocks.length - 1
  match sb.blocks[i]? with
  | none => .ub
  | some blk => do
    let blk ← wr blk sb.used prev
    let blk ← memcpy blk (sb.used + sb.uds + 1) (s ++ [0])
    .ok ({ sb with blocks := sb.blocks.set i blk, used := sb.used + (sb.uds + 1 + len) }, (i, sb.used))

/-- `internal_find_add`: coda/stringstorage.c:72-139.  `fuel` bounds the recursion. -/
def internal_find_add : Nat → SB → Node → UInt8 → List UInt8 → Bool → Res (SB × Node × Option Ptr)
  | 0, _, _, _, _, _ => .ub
  | fuel + 1, sb, .mk v cap ch, prev, s, doadd => do
    let f ← bsearch sb ch prev s (ch.length + 1) 0 ch.length
    match f with
    | .hit p => .ok (sb, .mk v cap ch, some (p.1, p.2 + 1))
    | .miss b => do
      let common ← commonBytes sb ch b s
      if common > 8 then
        match ch[b - 1]? with
        | none => .ub
        | some n => do
          let (sb2, n2, r) ← internal_find_add fuel sb n (prev + common) (s.drop common.toNat) doadd
          .ok (sb2, .mk v cap (ch.set (b - 1) n2), r)
      else if doadd = false then .ok (sb, .mk v cap ch, none)
      else
        let cap := grow cap ch.length
        if ch.length < cap then do
          let (sb2, p) ← alloc sb prev s
          .ok (sb2, .mk v cap (ch.take b ++ .mk p 0 [] :: ch.drop b), some (p.1, p.2 + 1))
        else .ub

/-- `string_storage_add`: coda/stringstorage.c:141-148. -/
def string_storage_add (sb : SB) (root : Node) (s : List UInt8) : Res (SB × Node × Option Ptr) :=
  if s.length + 1 + sb.uds > blockSize then .ok (sb, root, none)
  else internal_find_add (s.length + 1) sb root 0 s true

/-- `string_storage_find`: coda/stringstorage.c:150-153. -/
def string_storage_find (sb : SB) (root : Node) (s : List UInt8) : Res (SB × Node × Option Ptr) :=
  internal_find_add (s.length + 1) sb root 0 s false

/-- `buf` for a child: coda/stringstorage.c:157, 161-164.  strncpy fills up with NULs.  Copying from the NULL parent is undefined unless nothing is copied.
All of the 256 bytes are written, so that their former contents, ones here, do not matter. -/
def keyBuf (sb : SB) (parent : Option Buf) (v : Ptr) : Res Buf := do
  let prev ← byteAt sb.blocks v
  let str ← strAt sb v
  let pre ← match parent with
    | some b => if prev.toNat ≤ b.length then .ok (b.take prev.toNat) else .ub
    | none => if prev = 0 then .ok [] else .ub
  let buf ← memcpy (List.replicate 256 1) 0 pre
  let n := 255 - prev.toNat
  let buf ← memcpy buf prev.toNat (str.take n ++ List.replicate (n - str.length) 0)
  wr buf 255 0

mutual
/-- `string_storage_enumerate_recursive`: coda/stringstorage.c:155-168; the list of the calls of the callback: key and value. -/
def enumNode (sb : SB) : Option Buf → Node → Res (List (List UInt8 × Ptr))
  | parent, .mk _ _ ch => enumList sb parent ch
/-- The loop over the children, lines 159-167.  The loop over the children: coda/stringstorage.c:159-167. -/
def enumList (sb : SB) : Option Buf → List Node → Res (List (List UInt8 × Ptr))
  | _, [] => .ok []
  | parent, n :: ns => do
    let buf ← keyBuf sb parent n.value
    let key ← cstr buf
    let sub ← enumNode sb (some buf) n
    let rest ← enumList sb parent ns
    .ok ((key, (n.value.1, n.value.2 + 1)) :: sub ++ rest)
end

/-- `string_storage_enumerate`: coda/stringstorage.c:170-173. -/
def string_storage_enumerate (sb : SB) (root : Node) : Res (List (List UInt8 × Ptr)) := enumNode sb none root

/-- The user writes `d` to the user data of a slot that string_storage_add returned.  A client uses the data behind the pointer that coda/stringstorage.c:141-153 returned. -/
def userWrite (sb : SB) (p : Ptr) (d : List UInt8) : Res SB :=
  match sb.blocks[p.1]? with
  | none => .ub
  | some blk => do
    let blk ← memcpy blk p.2 d
    .ok { sb with blocks := sb.blocks.set p.1 blk }

/-- The user reads the user data of a slot.  A client uses the data behind the pointer that coda/stringstorage.c:141-153 returned. -/
def userRead (sb : SB) (p : Ptr) : Res (List UInt8) := do
  let b ← deref sb.blocks p
  if sb.uds ≤ b.length then .ok (b.take sb.uds) else .ub

end Verif.StrStore
