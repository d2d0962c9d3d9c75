import Verif.MapFree.Model
import Verif.ShmMap.Spec
import Verif.ShmMap.Props
/-
  Specification for Verif.MapFree.
-/
namespace Verif.MapFree

open Verif.ShmPool Verif.ShmMap Verif.MapSys

variable {V : Type}

/-- A fresh map and nobody in a call. -/
def Start (H : Nat) (s : FSys V) : Prop := ShmMap.Init H s.mem ∧ ∀ i, s.pc i = none

/-- Only process `w` calls anything but `unprotected_read`. -/
def OneWriter (w : Nat) (xs : List (FAct V)) : Prop := ∀ j u, .call j u ∈ xs → j ≠ w → ∃ k, u = .read k

/-- The calls of process `w`, in order. -/
def callsOf (w : Nat) : List (FEvent V) → List (Op V)
  | [] => []
  | .call i u :: es => if i = w then u.op :: callsOf w es else callsOf w es
  | .ret _ _ :: es => callsOf w es

/-- What the calls of process `w` returned, in order. -/
def retsOf (w : Nat) : List (FEvent V) → List (Ret V)
  | [] => []
  | .call _ _ :: es => retsOf w es
  | .ret i r :: es => if i = w then r :: retsOf w es else retsOf w es

/-- The calls of process `w` that have returned. -/
def completed (w : Nat) (es : List (FEvent V)) : List (Op V) := (callsOf w es).take (retsOf w es).length

/-- The call of process `w` that has not returned, if there is one. -/
def inProgress (w : Nat) (es : List (FEvent V)) : List (Op V) := (callsOf w es).drop (retsOf w es).length

/-- A step of the call of process `i`. -/
def FAct.goOf (i : Nat) : FAct V → Bool
  | .go j => j == i
  | _ => false

end Verif.MapFree
