/-
  When a fork is harmless: the last call of the parent on its queue was flush, or it has not made one.
-/
import Verif.QueueFork.Model

namespace Verif.QueueFork.Spec

variable {M : Type}

/-- The run without its forks. -/
def calls : List (Label M) → List (QueueMsg.Label M)
  | [] => []
  | .lab a :: as => a :: calls as
  | .fork _ _ :: as => calls as

/-- The process whose step it is. -/
def who : QueueMsg.Label M → Nat
  | .put i _ | .flush i | .unflush i | .timeout i | .get i | .adv i => i

/-- `flushed i`: the last call of process `i` was flush, or there was none; what it is after a step. -/
def last (flushed : Nat → Bool) : QueueMsg.Label M → Nat → Bool
  | .flush i, j => if j = i then true else flushed j
  | .put i _, j | .unflush i, j | .get i, j => if j = i then false else flushed j
  | .timeout _, j | .adv _, j => flushed j

/-- All forks of the run are made by processes whose last call was flush, or that have made none, and their children are new. -/
def afterFlush (flushed used : Nat → Bool) : List (Label M) → Prop
  | [] => True
  | .lab a :: as => afterFlush (last flushed a) (fun j => decide (j = who a) || used j) as
  | .fork i j :: as => flushed i = true ∧ used j = false ∧ i ≠ j ∧ afterFlush flushed (fun k => decide (k = i) || decide (k = j) || used k) as

end Verif.QueueFork.Spec
