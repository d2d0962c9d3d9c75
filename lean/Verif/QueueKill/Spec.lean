/-
  Which kills are harmless (C152), and who writes and who reads.
-/
import Verif.QueueKill.Model
import Verif.QueueMsg.Spec

namespace Verif.QueueKill.Spec

open QueueMsg (World)

variable {M : Type}

/-- Process `i` is not at one of three places: between `info->end++` and `info->end %= info->size` with `end` behind the last box, between the same two statements for `start`, and inside of the
memset that clears a box after at least one byte was cleared. -/
def harmless (size : Nat) (w : World M) (i : Nat) : Prop :=
  ∀ p, w.q.procs[i]? = some p → (p.mode = .f4 → w.q.end_ < size) ∧ (p.mode = .u5 → w.q.start < size) ∧ ∀ k, p.mode = .u3 k → k = 0

/-- All kills of a run are harmless. -/
def harmlessKills (size bs K : Nat) (ser : M → List UInt8) (des : List UInt8 → Option M) (w : World M) : List (Label M) → Prop
  | [] => True
  | a :: as => (∀ i, a = .kill i → harmless size w i) ∧ ∀ w', step size bs K ser des w a = some w' → harmlessKills size bs K ser des w' as

/-- As in Verif/QueueMsg/Spec.lean. -/
def inRole (writes : Nat → Bool) : Label M → Bool
  | .lab a => QueueMsg.Spec.inRole writes a
  | .kill _ => true

end Verif.QueueKill.Spec
