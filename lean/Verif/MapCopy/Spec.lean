/-
  Specification of maps whose handles are copied (C149): the copy is connected to what the original is connected to; from then on both are handles like others.
-/
import Verif.MapCopy.Model
import Verif.MapApi.Spec

namespace Verif.MapCopy.Spec

open MapApi

variable {V : Type}

/-- One call; copies are made between objects of one class. -/
def step (par : Nat → Params) (s : MapApi.Spec.State V) : Call V → Option (MapApi.Spec.State V × Reply V)
  | .call c => MapApi.Spec.step par s c
  | .copy h g => if par g = par h then some (⟨s.ts, fun x => if x = g then s.us h else s.us x⟩, .unit) else none

def run (par : Nat → Params) (s : MapApi.Spec.State V) : List (Call V) → Option (MapApi.Spec.State V × List (Reply V))
  | [] => some (s, [])
  | c :: cs =>
    match step par s c with
    | none => none
    | some (s, r) =>
      match run par s cs with
      | none => none
      | some (s, rs) => some (s, r :: rs)

end Verif.MapCopy.Spec
