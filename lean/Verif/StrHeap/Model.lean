/-
  Model of the memory management of coda/stringstorage.c: which blocks of the C heap are allocated and freed by string_storage_add, string_storage_find and string_storage_free, and what
  happens if calloc or realloc fails.  Searching and writing of strings as in Verif/StrStore/Model.lean.

  A block of the heap is a number; a number is never used twice.  A pointer that is NULL is `none`.  An access to the array of children of a node is undefined if the array is not
  allocated; an access to a string is undefined if a block of the storage is not allocated (the code reads some of the blocks; the check is for all of them).
-/
import Verif.StrStore.Hist

namespace Verif.StrHeap

open StrStore

/-- The heap: the blocks that are allocated, a number that was not used yet, and for each coming call of calloc or realloc whether it fails (`[]`: no further one fails).  Environment: calloc, realloc and free, called at coda/stringstorage.c:9-63, 121-127. -/
structure Heap where
  live : List Nat
  next : Nat
  fails : List Bool
  deriving DecidableEq

/-- calloc.  Environment: calloc, realloc and free, called at coda/stringstorage.c:9-63, 121-127. -/
def Heap.calloc (h : Heap) : Option Nat × Heap :=
  match h.fails with
  | true :: r => (none, { h with fails := r })
  | _ :: r => (some h.next, { live := h.next :: h.live, next := h.next + 1, fails := r })
  | [] => (some h.next, { live := h.next :: h.live, next := h.next + 1, fails := [] })

/-- free of a pointer that is not NULL.  Environment: calloc, realloc and free, called at coda/stringstorage.c:9-63, 121-127. -/
def Heap.free (h : Heap) (i : Nat) : Res Heap :=
  if i ∈ h.live then .ok { h with live := h.live.erase i } else .ub

/-- realloc: the block always moves; if it fails, the old block stays.  Environment: calloc, realloc and free, called at coda/stringstorage.c:9-63, 121-127. -/
def Heap.realloc (h : Heap) (p : Option Nat) : Res (Option Nat × Heap) :=
  match p with
  | none => .ok h.calloc
  | some i =>
    if i ∈ h.live then
      match h.calloc with
      | (none, h1) => .ok (none, h1)
      | (some j, h1) => .ok (some j, { h1 with live := h1.live.erase i })
    else .ub

/-- `allocate_reallocate_array`: coda/stringstorage.c:48-63. -/
def growArray (h : Heap) (a : Option Nat) (cnt : Nat) : Res (Option Nat × Heap) :=
  if cnt = 0 then .ok h.calloc
  else if cnt = 2 then h.realloc a
  else if cnt % 16 = 0 then h.realloc a
  else .ok (a, h)

/-- An access to an array.  Environment: calloc, realloc and free, called at coda/stringstorage.c:9-63, 121-127. -/
def Heap.see (h : Heap) (a : Option Nat) : Res Unit :=
  match a with
  | some i => if i ∈ h.live then .ok () else .ub
  | none => .ub

/-- string_struct with the block of its array of children: coda/stringstorage.h:21-26. -/
inductive HNode where
  | mk (value : Ptr) (arr : Option Nat) (cap : Nat) (children : List HNode)

/-- storage_blocks with the blocks of the strings and the block of the array `blocks`: coda/stringstorage.h:10-17.  An element of the array that was never written is `none`. -/
structure HSB where
  sb : SB
  ids : List (Option Nat)
  barr : Option Nat

mutual
/-- Without the heap.  The tree without its blocks, for the functions of Verif.StrStore: coda/stringstorage.h:21-26. -/
def HNode.erase : HNode → Node
  | .mk v _ cap ch => .mk v cap (eraseL ch)
/-- The tree without its blocks, for the functions of Verif.StrStore: coda/stringstorage.h:21-26. -/
def eraseL : List HNode → List Node
  | [] => []
  | n :: ns => n.erase :: eraseL ns
end

/-- Accesses to strings.  The blocks that a tree uses: coda/stringstorage.h:21-26. -/
def seeAll (h : Heap) : List (Option Nat) → Res Unit
  | [] => .ok ()
  | a :: r => (h.see a).bind fun _ => seeAll h r

/-- Lines 117-136 of coda/stringstorage.c: space for a string; `none`: `return 0`. -/
def halloc (h : Heap) (s : HSB) (prev : UInt8) (x : List UInt8) : Res (Heap × HSB × Option Ptr) :=
  if s.sb.blocks = [] ∨ s.sb.used + 1 + (x.length + 1) + s.sb.uds > blockSize then
    let (nb, h1) := h.calloc
    (growArray h1 s.barr s.sb.blocks.length).bind fun
      | (none, h2) => .ok (h2, { s with barr := none }, none)
      | (some a, h2) =>
        match nb with
        | none => .ub
        | some i => (alloc s.sb prev x).map fun (sb, p) =>
          (h2, ⟨sb, (if s.barr.isNone then s.ids.map (fun _ => none) else s.ids) ++ [some i], some a⟩, some p)
  else (alloc s.sb prev x).map fun (sb, p) => (h, { s with sb := sb }, some p)

/-- Accesses of the search in a node with children.  The blocks that a tree uses: coda/stringstorage.h:21-26. -/
def seeNode (h : Heap) (s : HSB) (arr : Option Nat) (ch : List HNode) : Res Unit :=
  if ch.isEmpty then .ok () else (h.see arr).bind fun _ => seeAll h s.ids

/-- `internal_find_add`: coda/stringstorage.c:72-139. -/
def hfind_add : Nat → Heap → HSB → HNode → UInt8 → List UInt8 → Bool → Res (Heap × HSB × HNode × Option Ptr)
  | 0, _, _, _, _, _, _ => .ub
  | fuel + 1, h, s, .mk v arr cap ch, prev, x, doadd =>
    (seeNode h s arr ch).bind fun _ =>
    (bsearch s.sb (eraseL ch) prev x (ch.length + 1) 0 ch.length).bind fun
    | .hit p => .ok (h, s, .mk v arr cap ch, some (p.1, p.2 + 1))
    | .miss b => (commonBytes s.sb (eraseL ch) b x).bind fun common =>
      if common > 8 then
        match ch[b - 1]? with
        | none => .ub
        | some n => (hfind_add fuel h s n (prev + common) (x.drop common.toNat) doadd).map fun (h2, s2, n2, r) => (h2, s2, .mk v arr cap (ch.set (b - 1) n2), r)
      else if doadd = false then .ok (h, s, .mk v arr cap ch, none)
      else (growArray h arr ch.length).bind fun
        | (none, h1) => .ok (h1, s, .mk v none cap ch, none)
        | (some a, h1) =>
          if ch.length < grow cap ch.length then
            (halloc h1 s prev x).map fun
              -- `return 0` after memmove: the child at `begin` is there twice, the last one is gone
              | (h2, s2, none) => (h2, s2, .mk v (some a) (grow cap ch.length) ((ch.take (b + 1) ++ ch.drop b).take ch.length), none)
              | (h2, s2, some p) => (h2, s2, .mk v (some a) (grow cap ch.length) (ch.take b ++ .mk p none 0 [] :: ch.drop b), some (p.1, p.2 + 1))
          else .ub

/-- A storage between two calls.  Bookkeeping: the calls of coda/stringstorage.c:141-153 one after the other. -/
structure HSt where
  s : HSB
  root : HNode

/-- `string_storage_init`: coda/stringstorage.c:36-46. -/
def HSt.init (uds : Nat) : HSt := ⟨⟨initSB uds, [], none⟩, .mk (0, 0) none 0 []⟩

/-- `string_storage_add`: coda/stringstorage.c:141-148. -/
def hadd (h : Heap) (st : HSt) (x : List UInt8) : Res (Heap × HSt × Option Ptr) :=
  if x.length + 1 + st.s.sb.uds > blockSize then .ok (h, st, none)
  else (hfind_add (x.length + 1) h st.s st.root 0 x true).map fun (h2, s2, n2, r) => (h2, ⟨s2, n2⟩, r)

/-- `string_storage_find`: coda/stringstorage.c:150-153. -/
def hfind (h : Heap) (st : HSt) (x : List UInt8) : Res (Heap × HSt × Option Ptr) :=
  (hfind_add (x.length + 1) h st.s st.root 0 x false).map fun (h2, s2, n2, r) => (h2, ⟨s2, n2⟩, r)

/-- One action of a user: add, find, write or read user data.  Bookkeeping: the calls of coda/stringstorage.c:141-153 one after the other. -/
def hstep (h : Heap) (st : HSt) : Op → Res (Heap × HSt × Out)
  | .add x => (hadd h st x).map fun (h2, st2, p) => (h2, st2, .slot p)
  | .find x => (hfind h st x).map fun (h2, st2, p) => (h2, st2, .slot p)
  | .put x d => (hfind h st x).bind fun
    | (h2, st2, none) => .ok (h2, st2, .data none)
    | (h2, st2, some p) => (seeAll h2 st2.s.ids).bind fun _ => (userWrite st2.s.sb p d).map fun sb => (h2, { st2 with s := { st2.s with sb := sb } }, .data (some d))
  | .get x => (hfind h st x).bind fun
    | (h2, st2, none) => .ok (h2, st2, .data none)
    | (h2, st2, some p) => (seeAll h2 st2.s.ids).bind fun _ => (userRead st2.s.sb p).map fun d => (h2, st2, .data (some d))

/-- Bookkeeping: the calls of coda/stringstorage.c:141-153 one after the other. -/
def hrun : Heap → HSt → List Op → Res (Heap × HSt × List Out)
  | h, st, [] => .ok (h, st, [])
  | h, st, o :: os => (hstep h st o).bind fun (h1, st1, r) => (hrun h1 st1 os).map fun (h2, st2, rs) => (h2, st2, r :: rs)

/-- The loop over the blocks: coda/stringstorage.c:27-30; an element that was never written is freed: undefined. -/
def freeBlocks (barr : Option Nat) : Heap → List (Option Nat) → Res Heap
  | h, [] => .ok h
  | h, a :: r => (h.see barr).bind fun _ =>
    match a with
    | some i => (h.free i).bind fun h1 => freeBlocks barr h1 r
    | none => .ub

/-- `if (p) free(p)`.  `free` of coda/stringstorage.c:9-34. -/
def freeOpt (h : Heap) : Option Nat → Res Heap
  | some i => h.free i
  | none => .ok h

mutual
/-- `string_storage_free_struct`: coda/stringstorage.c:9-20. -/
def freeNode : Heap → HNode → Res Heap
  | h, .mk _ arr _ ch => (freeList h arr ch).bind fun h1 => freeOpt h1 arr
/-- Its loop.  `free` of coda/stringstorage.c:9-34. -/
def freeList : Heap → Option Nat → List HNode → Res Heap
  | h, _, [] => .ok h
  | h, arr, n :: ns => (h.see arr).bind fun _ => (freeNode h n).bind fun h1 => freeList h1 arr ns
end

/-- `string_storage_free`: coda/stringstorage.c:22-34. -/
def hfree (h : Heap) (st : HSt) : Res Heap :=
  (freeBlocks st.s.barr h st.s.ids).bind fun h1 => (freeOpt h1 st.s.barr).bind fun h2 => freeNode h2 st.root

end Verif.StrHeap
