/-
  Model of coda/shm_queue.{hpp,tcc}: messages between processes.  It joins the message layer (`put`, `get` and the current box, Verif/ShmQueue/Box.lean) with the ring, the locks
  and all interleavings of single memory accesses (Verif/ShmQueue/Model.lean).

  Each process has one handle.  Messages have one size `K`; `ser`, `des` are serialize and deserialize as in Verif/ShmQueue/Box.lean.  Nobody is killed and no lock is interrupted
  (Verif/ShmQueue has those).
-/
import Verif.ShmQueue.Model
import Verif.ShmQueue.Box

namespace Verif.QueueMsg

open ShmQueue (Box Proc)

/-- What a process has of its handle between calls: coda/shm_queue.hpp:62; `pend` is the argument of a `put` that is inside of `flush`. -/
structure Loc (M : Type) where
  box : Box
  pend : Option M

/-- The shared state, the handles, and what was seen: `sent i` are the messages for which `put` returned true in process `i`, `got i` those that `get` gave to it.  The ring (coda/shm_queue.hpp:28-37) and the handles (:62). -/
structure World (M : Type) where
  q : ShmQueue.State
  loc : Nat → Loc M
  sent : Nat → List M
  got : Nat → List M

/-- Bookkeeping: the steps of coda/shm_queue.tcc:251-339 in any order. -/
inductive Label (M : Type) where
  | put (i : Nat) (m : M)   -- process `i` calls put
  | flush (i : Nat)         -- process `i` calls flush
  | unflush (i : Nat)       -- process `i` calls unflush
  | timeout (i : Nat)       -- its semtimedop fails
  | get (i : Nat)           -- process `i` calls get
  | adv (i : Nat)           -- the next access of process `i` inside of flush or unflush

/-- The ring (coda/shm_queue.hpp:28-37) and the handles (:62). -/
def upd {α : Type} (f : Nat → α) (i : Nat) (x : α) : Nat → α := fun j => if j = i then x else f j

section
variable {M : Type} (size bs K : Nat) (ser : M → List UInt8) (des : List UInt8 → Option M)

/-- No call is in progress in process `i`.  The ring (coda/shm_queue.hpp:28-37) and the handles (:62). -/
def idle (w : World M) (i : Nat) : Bool :=
  match w.q.procs[i]? with
  | some p => decide (p.mode = .idle)
  | none => false

/-- The call of `flush`: coda/shm_queue.tcc:313-318. -/
def callFlush (w : World M) (i : Nat) (pend : Option M) : Option (World M) :=
  match ShmQueue.step size bs w.q (.flush i (w.loc i).box.buf) with
  | some q => some { w with q := q, loc := upd w.loc i { w.loc i with pend := pend } }
  | none => none

/-- `put`: coda/shm_queue.tcc:301-311, as far as the call of `flush`. -/
def callPut (w : World M) (i : Nat) (m : M) : Option (World M) :=
  match (w.loc i).box.put K ser m with
  | some b => if idle w i then some { w with loc := upd w.loc i ⟨b, none⟩, sent := upd w.sent i (w.sent i ++ [m]) } else none
  | none => callFlush size bs w i (some m)

/-- The end of `flush`, `current_box.clear()`, and of the `put` that called it: coda/shm_queue.tcc:309-311, 338. -/
def endFlush (w : World M) (i : Nat) : World M :=
  match (w.loc i).pend with
  | none => { w with loc := upd w.loc i ⟨Box.clear bs, none⟩ }
  | some m =>
    match (Box.clear bs).put K ser m with
    | some b => { w with loc := upd w.loc i ⟨b, none⟩, sent := upd w.sent i (w.sent i ++ [m]) }
    | none => { w with loc := upd w.loc i ⟨Box.clear bs, none⟩ }

/-- The end of `unflush`: the current box is the received one, `pos` is 0: coda/shm_queue.tcc:43-48. -/
def endUnflush (w : World M) (i : Nat) (cb : List UInt8) : World M := { w with loc := upd w.loc i ⟨Box.from cb, none⟩ }

/-- What a step of process `i`, that was `p`, means for its handle.  The ring (coda/shm_queue.hpp:28-37) and the handles (:62). -/
def after (w : World M) (i : Nat) (p : Proc) : World M :=
  if p.mode = .f6 then endFlush bs K ser w i else if p.mode = .u6 then endUnflush w i p.cb else w

/-- The successor, if the step is possible.  Bookkeeping: the steps of coda/shm_queue.tcc:251-339 in any order. -/
def step (w : World M) : Label M → Option (World M)
  | .put i m => callPut size bs K ser w i m
  | .flush i => callFlush size bs w i none
  | .unflush i =>
    match ShmQueue.step size bs w.q (.unflush i) with
    | some q => some { w with q := q }
    | none => none
  | .timeout i =>
    match ShmQueue.step size bs w.q (.timeout i) with
    | some q => some { w with q := q }
    | none => none
  | .get i =>
    if idle w i then
      match (w.loc i).box.get K des with
      | some (m, b) => some { w with loc := upd w.loc i ⟨b, none⟩, got := upd w.got i (w.got i ++ [m]) }
      | none => some w
    else none
  | .adv i =>
    match w.q.procs[i]? with
    | some p =>
      match ShmQueue.step size bs w.q (.adv i) with
      | some q => some (after bs K ser { w with q := q } i p)
      | none => none
    | none => none

/-- Bookkeeping: the steps of coda/shm_queue.tcc:251-339 in any order. -/
def exec (w : World M) : List (Label M) → Option (World M)
  | [] => some w
  | a :: as =>
    match step size bs K ser des w a with
    | some w' => exec w' as
    | none => none

end

/-- `n` processes just connected to a new queue: coda/shm_queue.tcc:22-28, 146-174, 204-217. -/
def init {M : Type} (bs n : Nat) : World M :=
  { q := { start := 0, end_ := 0, mem := fun _ => 0, sem := ⟨1, 0⟩, procs := List.replicate n ⟨.idle, List.replicate bs 0, ⟨0, 0⟩⟩, ub := false, acc := [], rcv := [], lost := 0 }
    loc := fun _ => ⟨Box.clear bs, none⟩
    sent := fun _ => []
    got := fun _ => [] }

end Verif.QueueMsg
