import Verif.WeakPeek.Model
import Verif.MapWeak.Spec
import Verif.MapPeek.Spec
/-
  Specification for Verif.WeakPeek; `Keeps` and `Inserts` are those of Verif.MapPeek.
-/
namespace Verif.WeakPeek

open Verif.ShmPool Verif.ShmMap Verif.MapSys

variable {V : Type}

/-- Nothing has happened yet, and all see the same fresh map `m`. -/
def Start (H : Nat) (s : WSys V) (m : Map V) : Prop := MapWeak.Start H s.sys m ∧ ∀ i, s.peek i = none

/-- No process is killed between the two writes of `free_nodes.push` or inside `clear` (C52). -/
def Safe (N H : Nat) : WSys V → List (WAct V) → Prop
  | _, [] => True
  | s, x :: xs => (∀ i p, x = .sys (.act (.kill i)) → s.sys.lk.procs[i]? = some p → p.mode = .writing → ¬ p.loc.pc.fragile H) ∧ ∀ s' es, step N H s x = some (s', es) → Safe N H s' xs

/-- What is seen of the calls that take the lock. -/
def calls : List (WEvent V) → List (Event V)
  | [] => []
  | .sys e :: es => e :: calls es
  | .looked _ _ :: es => calls es

/-- A step of the call of process `i`. -/
def WAct.lookOf (i : Nat) : WAct V → Bool
  | .look j => j == i
  | _ => false

end Verif.WeakPeek
