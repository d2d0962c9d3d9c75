import Verif.FreeIter.Model
import Verif.MapFree.Spec
/-
  Specification for Verif.FreeIter.  `completed` and `inProgress` are those of Verif.MapFree.
-/
namespace Verif.FreeIter

open Verif.ShmPool Verif.ShmMap Verif.MapSys
open Verif.MapFree (FAct FEvent FSys)

variable {V : Type}

/-- A fresh map, nobody in a call and nobody in a loop. -/
def Start (H : Nat) (s : ISys V) : Prop := MapFree.Start H s.free ∧ ∀ i, s.it i = none

/-- Only process `w` inserts and erases. -/
def OneWriter (w : Nat) (xs : List (IAct V)) : Prop := ∀ j u, .free (.call j u) ∈ xs → j ≠ w → ∃ k, u = .read k

/-- The calls and returns among what is seen. -/
def calls (es : List (IEvent V)) : List (FEvent V) := es.filterMap (fun | .free e => some e | .iterated _ _ => none)

/-- A step of the loop of process `i`. -/
def IAct.iterOf (i : Nat) : IAct V → Bool
  | .iter j => j == i
  | _ => false

end Verif.FreeIter
