import Verif.MapPeek.Model
import Verif.MapSys.Spec
import Verif.MapSys.Props
/-
  Specification for Verif.MapPeek.
-/
namespace Verif.MapPeek

open Verif.ShmPool Verif.ShmMap Verif.MapSys

variable {V : Type}

/-- Nothing has happened yet. -/
def Start (H : Nat) (s : PSys V) : Prop := MapSys.Start H s.sys ∧ ∀ i, s.peek i = none

/-- The call takes nothing out of the map: it is none of `erase(key)`, `erase(keys, n)`, `clear()`, and no section of its own with `unprotected_erase`. -/
def Keeps (c : Call V) : Prop := ∀ o ∈ MapSys.Spec.meaning c, (∀ k, o ≠ .erase k) ∧ o ≠ .clear

/-- The call inserts the pair `(k, v)`. -/
def Inserts (c : Call V) (k : UInt64) (v : V) : Prop := Op.insert k v ∈ MapSys.Spec.meaning c

/-- No process is killed between the two writes of `free_nodes.push` or inside `clear` (C52). -/
def Safe (N H : Nat) : PSys V → List (PAct V) → Prop
  | _, [] => True
  | s, x :: xs => (∀ a, x = .sys a → SafeKill H s.sys a) ∧ ∀ s' es, step N H s x = some (s', es) → Safe N H s' xs

/-- What is seen of the calls that take the lock. -/
def calls : List (PEvent V) → List (Event V)
  | [] => []
  | .sys e :: es => e :: calls es
  | .looked _ _ :: es => calls es

/-- A step of the call of process `i`. -/
def PAct.lookOf (i : Nat) : PAct V → Bool
  | .look j => j == i
  | _ => false

end Verif.MapPeek
