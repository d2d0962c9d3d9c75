import Verif.WeakFree.Model
import Verif.MapFree.Spec
/-
  Specification for Verif.WeakFree.  `callsOf`, `retsOf`, `completed` and `inProgress` are those of Verif.MapFree.
-/
namespace Verif.WeakFree

open Verif.ShmPool Verif.ShmMap Verif.MapSys

variable {V : Type}

/-- A fresh map that everybody sees, no store on its way, and nobody in a call. -/
def Start (H : Nat) (s : WSys V) (m : Map V) : Prop := ShmMap.Init H m ∧ (∀ i, s.view i = m) ∧ (∀ i, s.inc i = []) ∧ ∀ i, s.pc i = none

/-- Only process `w` calls anything but `unprotected_read`. -/
def OneWriter (w : Nat) (xs : List (WAct V)) : Prop := ∀ j u, .act (.call j u) ∈ xs → j ≠ w → ∃ k, u = .read k

/-- Stores arrive at process `i` in the order in which they were made. -/
def InOrder (i : Nat) (xs : List (WAct V)) : Prop := ∀ r, .arrive i r ∈ xs → r = 0

/-- A step of the call of process `i`. -/
def WAct.goOf (i : Nat) : WAct V → Bool
  | .act (.go j) => j == i
  | _ => false

end Verif.WeakFree
