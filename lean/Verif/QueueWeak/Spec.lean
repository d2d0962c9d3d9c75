/-
  What the weak system is compared with: Verif.ShmQueue, in which every store is seen by all at once.
-/
import Verif.QueueWeak.Model
import Verif.ShmQueue.Spec

namespace Verif.QueueWeak

open Verif.ShmQueue

/-- `n` processes just connected to a new queue; all see the same. -/
def init (bs n : Nat) : Sys := ⟨ShmQueue.init bs n, fun _ => ⟨0, 0, fun _ => 0⟩, fun _ => []⟩

/-- What the processes do, without the arrivals of stores. -/
def acts : List Act → List Label
  | [] => []
  | .act l :: xs => l :: acts xs
  | .arrive _ _ :: xs => acts xs

/-- No semop of lock_queue is interrupted. -/
def NoIntr (xs : List Act) : Prop := ∀ i, .intr i ∉ acts xs

/-- The processes, the semaphores and what has been accepted and received agree. -/
def Same (s t : State) : Prop := s.procs = t.procs ∧ s.sem = t.sem ∧ s.acc = t.acc ∧ s.rcv = t.rcv ∧ s.ub = t.ub ∧ s.lost = t.lost

end Verif.QueueWeak
