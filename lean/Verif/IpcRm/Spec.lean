/-
  Specification for C165 and C166, in terms of the state only.
-/
import Verif.IpcRm.Model

namespace Verif.IpcRm

/-- The process is inside of a section of the hash map. -/
def Inside (p : Proc) : Prop := p.mode = .reading ∨ p.mode = .writing

/-- The processes have not connected yet and there is no set. -/
def Map.Start (s : Map) : Prop := s.cur = none ∧ ∀ p ∈ s.procs, p.mode = .fresh ∧ p.adj = ⟨0, 0⟩

/-- At every removal in the run nobody is inside of a section. -/
def Quiet (s : Map) : List Label → Prop
  | [] => True
  | a :: as => (a = .rm → ∀ p ∈ s.procs, ¬ Inside p) ∧
    match s.step a with
    | some (s', _) => Quiet s' as
    | none => True

/-- A writer is alone. -/
def Exclusive (s : Map) : Prop :=
  ∀ (i j : Nat) (p q : Proc), i ≠ j → s.procs[i]? = some p → s.procs[j]? = some q → p.mode = .writing → ¬ Inside q

/-- Nobody uses the queue and there is no set. -/
def Lock.Start (s : Lock) : Prop := s.cur = none ∧ ∀ p ∈ s.procs, p = (false, none)

/-- At every removal in the run nobody is connected. -/
def Gone (s : Lock) : List LLabel → Prop
  | [] => True
  | a :: as => (a = .rm → ∀ p ∈ s.procs, p.2 = none) ∧
    match s.step a with
    | some s' => Gone s' as
    | none => True

/-- A queue of `room` boxes from which the last `k` boxes cannot be received; `k = 0` is the queue that users expect.  The boxes afterwards and what every unflush gave. -/
def fifo {B : Type} (room k : Nat) (q : List B) : List (BCall B) → List B × List (Option B)
  | [] => (q, [])
  | .flush b :: cs => fifo room k (if q.length < room then q ++ [b] else q) cs
  | .unflush :: cs =>
    if k < q.length then ((fifo room k q.tail cs).1, q.head? :: (fifo room k q.tail cs).2)
    else ((fifo room k q cs).1, none :: (fifo room k q cs).2)

end Verif.IpcRm
