import Verif.SegRm.Model
import Verif.MapApi.Spec
/-
  Specification for C174: each removal starts a new map.  A history with removals is the history without them in which a key file, after each removal of its segment, goes by another name.
-/
namespace Verif.SegRm.Spec

open Verif.MapApi

variable {V : Type}

/-- A call with the key file `key` under the name `segId key (gen key)`. -/
def name (gen : Nat → Nat) : Call V → Call V
  | .connect h key env => .connect h (segId key (gen key)) env
  | c => c

/-- The history without removals. -/
def rename (gen : Nat → Nat) : List (Ev V) → List (Call V)
  | [] => []
  | .rm key :: es => rename (set gen key (gen key + 1)) es
  | .call c :: es => name gen c :: rename gen es

/-- How often each segment has been removed in the end. -/
def gens (gen : Nat → Nat) : List (Ev V) → (Nat → Nat)
  | [] => gen
  | .rm key :: es => gens (set gen key (gen key + 1)) es
  | .call _ :: es => gens gen es

end Verif.SegRm.Spec
