import Verif.FreeWords.Model
import Verif.MapFree.Spec
/-
  Specification for Verif.FreeWords.  `OneWriter`, `callsOf`, `retsOf`, `completed` and `inProgress` are those of Verif.MapFree.
-/
namespace Verif.FreeWords

open Verif.ShmPool Verif.ShmMap Verif.MapSys Verif.MapTorn

variable {W : Type} {n : Nat}

/-- A fresh map and nobody in a call. -/
def Start (H : Nat) (s : FSysW n W) : Prop := ShmMap.Init H s.mem ∧ ∀ i, s.pc i = none

/-- Every word is copied once. -/
def Once (ord : List (Fin n)) : Prop := ord.Nodup ∧ ∀ j, j ∈ ord

end Verif.FreeWords
