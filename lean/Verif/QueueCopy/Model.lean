/-
  Model of objects of class shm_queue::queue and their memory in one process: construction, connect, copies, assignment, put, get, flush, unflush, disconnect, destruction.
  coda/shm_queue.hpp:39-100, coda/shm_queue.tcc:4-117, 221-339.  The classes queue and box have no copy constructor and no assignment of their own: copies are made member by member (pointers, not what they point to).

  Blocks of memory (`new uint8_t[]`) and mappings (shmat) have numbers that are never used again.  Simplifications: one queue with boxes of `bs` bytes; what flush and unflush do in the segment is
  a list of at most `room` boxes (this is C105); connect does not fail for lack of memory (C106); a message is its bytes.
-/
import Verif.Mem

namespace Verif.QueueCopy

/-- coda/shm_queue.hpp:44-46, 63: `ptr`, `size`, `pos` of the current box and `info` (`boxes` is set together with it). -/
structure Obj where
  ptr : Option Nat
  size : Nat
  pos : Nat
  info : Option Nat
  deriving DecidableEq

/-- The constructors, coda/shm_queue.tcc:4-10, 99-108. -/
def Obj.new : Obj := ⟨none, 0, 0, none⟩

/-- The process and the queue: the contents of live blocks, the mappings that exist, the objects, the boxes in the queue.  The objects and the heap blocks of their boxes: coda/shm_queue.hpp:42-70, coda/shm_queue.tcc:21-41. -/
structure State where
  blocks : Nat → Option (List UInt8)
  maps : Nat → Bool
  nb : Nat
  nm : Nat
  objs : Nat → Option Obj
  ring : List (List UInt8)

/-- The objects and the heap blocks of their boxes: coda/shm_queue.hpp:42-70, coda/shm_queue.tcc:21-41. -/
def State.init : State := ⟨fun _ => none, fun _ => false, 0, 0, fun _ => none, []⟩

/-- The objects and the heap blocks of their boxes: coda/shm_queue.hpp:42-70, coda/shm_queue.tcc:21-41. -/
def upd {α : Type} (f : Nat → α) (i : Nat) (x : α) : Nat → α := fun j => if j = i then x else f j

/-- Bookkeeping: the calls of coda/shm_queue.hpp:80-99 and the implicit copies of coda/shm_queue.hpp:39-100. -/
inductive Reply where
  | unit
  | bool (b : Bool)
  | data (d : Option (List UInt8))
  | threw
  deriving DecidableEq

/-- Bookkeeping: the calls of coda/shm_queue.hpp:80-99 and the implicit copies of coda/shm_queue.hpp:39-100. -/
inductive Op where
  | make (h : Nat)
  | connect (h : Nat)
  | copy (h g : Nat)      -- `queue g(h)`
  | assign (h g : Nat)    -- `g = h`
  | put (h : Nat) (m : List UInt8)
  | get (h : Nat) (k : Nat)
  | flush (h : Nat)
  | unflush (h : Nat)
  | disconnect (h : Nat)
  | destroy (h : Nat)

/-- The bytes of a block that is read or written: undefined if it is not there any more.  The objects and the heap blocks of their boxes: coda/shm_queue.hpp:42-70, coda/shm_queue.tcc:21-41. -/
def block (s : State) (p : Option Nat) : Res (List UInt8) :=
  match p with
  | none => .ok []
  | some p =>
    match s.blocks p with
    | some b => .ok b
    | none => .ub

/-- The bytes of a block are written.  The objects and the heap blocks of their boxes: coda/shm_queue.hpp:42-70, coda/shm_queue.tcc:21-41. -/
def setBlock (s : State) (p : Option Nat) (b : List UInt8) : State :=
  match p with
  | none => s
  | some p => { s with blocks := upd s.blocks p (some b) }

/-- The objects and the heap blocks of their boxes: coda/shm_queue.hpp:42-70, coda/shm_queue.tcc:21-41. -/
def setObj (s : State) (h : Nat) (o : Obj) : State := { s with objs := upd s.objs h (some o) }

/-- `box::put`, coda/shm_queue.tcc:77-91; none: false. -/
def boxPut (s : State) (h : Nat) (o : Obj) (m : List UInt8) : Res (Option State) :=
  if o.pos + m.length ≤ o.size then do
    let b ← block s o.ptr
    .ok (some (setObj (setBlock s o.ptr (patch b o.pos m)) h { o with pos := o.pos + m.length }))
  else .ok none

/-- `flush`, coda/shm_queue.tcc:313-339: nothing is sent if the object is not connected; then `clear`, 56-61. -/
def flush (room : Nat) (s : State) (h : Nat) (o : Obj) : Res State := do
  let b ← block s o.ptr
  match o.info with
  | none => .ok (setObj (setBlock s o.ptr (List.replicate o.size 0)) h { o with pos := 0 })
  | some i =>
    if s.maps i then
      let s := if s.ring.length < room then { s with ring := s.ring ++ [b] } else s
      .ok (setObj (setBlock s o.ptr (List.replicate o.size 0)) h { o with pos := 0 })
    else .ub

/-- `unflush`, coda/shm_queue.tcc:264-299, without waiting. -/
def unflush (s : State) (h : Nat) (o : Obj) : Res (State × Reply) :=
  match o.info with
  | none => .ok (s, .bool false)
  | some i =>
    match s.ring with
    | [] => .ok (s, .bool false)
    | b :: rest =>
      if s.maps i then do
        let _ ← block s o.ptr
        .ok (setObj (setBlock { s with ring := rest } o.ptr b) h { o with pos := 0 }, .bool true)
      else .ub

/-- `deallocate`, coda/shm_queue.tcc:30-41: `delete []` of a block that is not there is undefined. -/
def deallocate (s : State) (o : Obj) : Res (State × Obj) :=
  match o.ptr with
  | none => .ok (s, o)
  | some p =>
    match s.blocks p with
    | some _ => .ok ({ s with blocks := upd s.blocks p none }, { o with ptr := none, size := 0, pos := 0 })
    | none => .ub

/-- `disconnect`, coda/shm_queue.tcc:233-249: shmdt of something that is not mapped fails, which is ignored. -/
def disconnect (s : State) (o : Obj) : Res (State × Obj) :=
  match o.info with
  | none => .ok (s, o)
  | some i => do
    let (s, o) ← deallocate { s with maps := upd s.maps i false } { o with info := none }
    .ok (s, o)

/-- The destructors, coda/shm_queue.tcc:12-19, 110-117. -/
def destroy (s : State) (h : Nat) (o : Obj) : Res State := do
  let (s, o) ← disconnect s o
  let (s, _) ← deallocate s o
  .ok { s with objs := upd s.objs h none }

/-- One call.  A call on an object that does not exist is not a program: it is undefined.  Bookkeeping: the calls of coda/shm_queue.hpp:80-99 and the implicit copies of coda/shm_queue.hpp:39-100. -/
def step (bs room : Nat) (s : State) : Op → Res (State × Reply)
  | .make h =>
    match s.objs h with
    | some _ => .ub
    | none => .ok (setObj s h .new, .unit)
  | .copy h g =>
    match s.objs h, s.objs g with
    | some o, none => .ok (setObj s g o, .unit)
    | _, _ => .ub
  | .assign h g =>
    match s.objs h, s.objs g with
    | some o, some _ => .ok (setObj s g o, .unit)
    | _, _ => .ub
  | .connect h =>
    match s.objs h with
    | none => .ub
    | some o =>
      match o.info with
      | some _ => .ok (s, .threw)
      | none => .ok (setObj { s with blocks := upd s.blocks s.nb (some (List.replicate bs 0)), nb := s.nb + 1, maps := upd s.maps s.nm true, nm := s.nm + 1 } h ⟨some s.nb, bs, 0, some s.nm⟩, .unit)
  | .put h m =>
    match s.objs h with
    | none => .ub
    | some o => do
      match ← boxPut s h o m with
      | some s => .ok (s, .bool true)
      | none =>
        let s ← flush room s h o
        match s.objs h with
        | none => .ub
        | some o =>
          match ← boxPut s h o m with
          | some s => .ok (s, .bool true)
          | none => .ok (s, .bool false)
  | .get h k =>
    match s.objs h with
    | none => .ub
    | some o =>
      if o.pos + k ≤ o.size then do
        let b ← block s o.ptr
        .ok (setObj s h { o with pos := o.pos + k }, .data (some ((b.drop o.pos).take k)))
      else .ok (s, .data none)
  | .flush h =>
    match s.objs h with
    | none => .ub
    | some o => do
      let s ← flush room s h o
      .ok (s, .unit)
  | .unflush h =>
    match s.objs h with
    | none => .ub
    | some o => unflush s h o
  | .disconnect h =>
    match s.objs h with
    | none => .ub
    | some o => do
      let (s, o) ← disconnect s o
      .ok (setObj s h o, .unit)
  | .destroy h =>
    match s.objs h with
    | none => .ub
    | some o => do
      let s ← destroy s h o
      .ok (s, .unit)

/-- Bookkeeping: the calls of coda/shm_queue.hpp:80-99 and the implicit copies of coda/shm_queue.hpp:39-100. -/
def run (bs room : Nat) (s : State) : List Op → Res (State × List Reply)
  | [] => .ok (s, [])
  | op :: ops => do
    let (s, r) ← step bs room s op
    let (s, rs) ← run bs room s ops
    .ok (s, r :: rs)

end Verif.QueueCopy
