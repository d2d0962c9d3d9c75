/-
  Model of coda/shm_queue.{hpp,tcc}: messages of different sizes between processes that may be killed.  It joins the message layer for messages of different sizes (`VarBox.Box`,
  Verif/VarBox/Model.lean) with the ring, the locks and all interleavings of single memory accesses (Verif/ShmQueue/Model.lean), as Verif/QueueMsg and Verif/QueueKill do it for messages of one
  size.

  Each process has one handle.  Every `get` names the object it is called with, since coda/shm_queue.tcc:254 asks that object for its size.  Simplifications: those of Verif/VarBox/Model.lean
  (serialize never returns false); an undefined behaviour of one process ends the run.
-/
import Verif.ShmQueue.Model
import Verif.VarBox.Model

namespace Verif.QueueVar

open ShmQueue (Proc)
open VarBox (Box Class)

/-- What a process has of its handle, coda/shm_queue.hpp:62, and what it has seen: `pend` is the argument of a `put` that is inside of `flush`, `sent` are the messages for which `put` returned
true, `got` those that `get` gave. -/
structure Loc (M : Type) where
  box : Box
  pend : Option M
  sent : List M
  got : List M

/-- The ring (coda/shm_queue.hpp:28-37) and the handles (:62). -/
structure World (M : Type) where
  q : ShmQueue.State
  loc : Nat → Loc M

/-- Bookkeeping: the steps of coda/shm_queue.tcc:251-339 in any order. -/
inductive Label (M : Type) where
  | put (i : Nat) (m : M)   -- process `i` calls put
  | flush (i : Nat)         -- process `i` calls flush
  | unflush (i : Nat)       -- process `i` calls unflush
  | timeout (i : Nat)       -- its semtimedop fails
  | get (i : Nat) (h : M)   -- process `i` calls get with the object `h`
  | adv (i : Nat)           -- the next access of process `i` inside of flush or unflush
  | kill (i : Nat)          -- process `i` is killed

/-- Bookkeeping: the steps of coda/shm_queue.tcc:251-339 in any order. -/
def Label.who {M : Type} : Label M → Nat
  | .put i _ | .flush i | .unflush i | .timeout i | .get i _ | .adv i | .kill i => i

section
variable {M : Type} (size bs : Nat) (T : Class M)

/-- `put`, coda/shm_queue.tcc:301-311, as far as the call of `flush`. -/
def callPut (i : Nat) (x : Loc M) (m : M) : Res (Option (Option ShmQueue.Label × Loc M)) :=
  match x.box.put T m with
  | .ub => .ub
  | .ok (some b) => .ok (some (none, { x with box := b, sent := x.sent ++ [m] }))
  | .ok none => .ok (some (some (.flush i x.box.buf), { x with pend := some m }))

/-- `get`, coda/shm_queue.tcc:251-262. -/
def callGet (x : Loc M) (h : M) : Res (Option (Option ShmQueue.Label × Loc M)) :=
  match x.box.get T h with
  | .ub => .ub
  | .ok (some (m, b)) => .ok (some (none, { x with box := b, got := x.got ++ [m] }))
  | .ok none => .ok (some (none, x))

/-- The end of `flush`, `current_box.clear()`, and of the `put` that called it: coda/shm_queue.tcc:309-311, 338. -/
def endFlush (x : Loc M) : Res (Loc M) :=
  match x.pend with
  | none => .ok { x with box := Box.clear bs }
  | some m =>
    match (Box.clear bs).put T m with
    | .ub => .ub
    | .ok (some b) => .ok { x with box := b, pend := none, sent := x.sent ++ [m] }
    | .ok none => .ok { x with box := Box.clear bs, pend := none }

/-- What the next access of a process inside of flush or unflush means for its handle; at the end of `unflush` the current box is the received one, coda/shm_queue.tcc:43-48. -/
def after (x : Loc M) (p : Proc) : Res (Loc M) :=
  if p.mode = .f6 then endFlush bs T x else if p.mode = .u6 then .ok { x with box := Box.from p.cb } else .ok x

/-- What a process `p` with the handle `x` does: at most one step of the ring, and the handle afterwards; `ok none`: the step is not possible.  Bookkeeping: the steps of coda/shm_queue.tcc:251-339 in any order. -/
def act (p : Proc) (x : Loc M) : Label M → Res (Option (Option ShmQueue.Label × Loc M))
  | .put i m => if p.mode = .idle then callPut T i x m else .ok none
  | .flush i => .ok (some (some (.flush i x.box.buf), { x with pend := none }))
  | .unflush i => .ok (some (some (.unflush i), x))
  | .timeout i => .ok (some (some (.timeout i), x))
  | .get _ h => if p.mode = .idle then callGet T x h else .ok none
  | .adv i => (after bs T x p).map fun x' => some (some (.adv i), x')
  | .kill i => .ok (some (some (.kill i), x))

/-- The step of the ring.  Bookkeeping: the steps of coda/shm_queue.tcc:251-339 in any order. -/
def ringDo (q : ShmQueue.State) : Option ShmQueue.Label → Option ShmQueue.State
  | some l => ShmQueue.step size bs q l
  | none => some q

/-- The successor, if the step is possible.  Bookkeeping: the steps of coda/shm_queue.tcc:251-339 in any order. -/
def step (w : World M) (a : Label M) : Res (Option (World M)) :=
  match w.q.procs[a.who]? with
  | none => .ok none
  | some p =>
    (act bs T p (w.loc a.who) a).map fun
      | none => none
      | some (l, x) => (ringDo size bs w.q l).map fun q => ⟨q, fun j => if j = a.who then x else w.loc j⟩

/-- Bookkeeping: the steps of coda/shm_queue.tcc:251-339 in any order. -/
def exec (w : World M) : List (Label M) → Res (Option (World M))
  | [] => .ok (some w)
  | a :: as =>
    match step size bs T w a with
    | .ub => .ub
    | .ok none => .ok none
    | .ok (some w') => exec w' as

end

/-- `n` processes just connected to a new queue: coda/shm_queue.tcc:22-28, 146-174, 204-217. -/
def init {M : Type} (bs n : Nat) : World M :=
  ⟨{ start := 0, end_ := 0, mem := fun _ => 0, sem := ⟨1, 0⟩, procs := List.replicate n ⟨.idle, List.replicate bs 0, ⟨0, 0⟩⟩, ub := false, acc := [], rcv := [], lost := 0 },
    fun _ => ⟨Box.clear bs, none, [], []⟩⟩

end Verif.QueueVar
