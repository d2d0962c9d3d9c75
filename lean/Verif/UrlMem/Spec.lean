/-
  What a program may rely on when memory runs out: nothing but the calls that store no text.
-/
import Verif.UrlMem.Model

namespace Verif.UrlMem
open Verif.UrlParser

/-- The operation stores a text: a creation that succeeds, a copy or an assignment of an object that is not empty. -/
def Needs (σ : Store) : Op → Prop
  | .make _ _ => True
  | .copy _ y => σ y ≠ some ([], [])
  | .assign _ y => σ y ≠ some ([], [])
  | _ => False

/-- The runs of values in which malloc fails only where nothing is to be stored. -/
inductive MRun : Store → List (Bool × Op) → Store → Prop
  | nil (σ) : MRun σ [] σ
  | cons {σ σ' σ'' ok op ops} : (Needs σ op → ok = true) → NoSelf σ op → VStep σ op σ' → MRun σ' ops σ'' → MRun σ ((ok, op) :: ops) σ''

/-- No memory at all. -/
def noMemory : Nat → Option Buf := fun _ => none

end Verif.UrlMem
