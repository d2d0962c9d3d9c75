import Verif.WeakIter.Model
import Verif.MapWeak.Spec
import Verif.MapIter.GrowProps
/-
  Specification for Verif.WeakIter; `Keeps`, `Inserts` and `calls` are those of Verif.MapIter.
-/
namespace Verif.WeakIter

open Verif.ShmPool Verif.ShmMap Verif.MapSys

variable {V : Type}

/-- Nothing has happened yet, and all see the same fresh map `m`. -/
def Start (H : Nat) (s : ISys V) (m : Map V) : Prop := MapWeak.Start H s.sys m ∧ ∀ i, s.it i = none

/-- The client iterates between its own `lock_read_rw()` and `unlock_read_rw()`: it calls begin() inside the section, and it does not unlock before the loop is over. -/
def Locked (s : ISys V) : IAct V → Prop
  | .begin i => (∃ p, s.sys.lk.procs[i]? = some p ∧ p.mode = .reading) ∧ ∃ ks, s.sys.pend i = .called (.readSection ks)
  | .sys (.act (.unlock i)) => s.it i = none
  | _ => True

/-- No process is killed between the two writes of `free_nodes.push` or inside `clear` (C52). -/
def SafeAct (H : Nat) (s : ISys V) (x : IAct V) : Prop :=
  ∀ i p, x = .sys (.act (.kill i)) → s.sys.lk.procs[i]? = some p → p.mode = .writing → ¬ p.loc.pc.fragile H

/-- Every kill is harmless. -/
def Safe (N H : Nat) : ISys V → List (IAct V) → Prop
  | _, [] => True
  | s, x :: xs => SafeAct H s x ∧ ∀ s' es, step N H s x = some (s', es) → Safe N H s' xs

/-- Every iteration is made inside a section, and every kill is harmless. -/
def Polite (N H : Nat) : ISys V → List (IAct V) → Prop
  | _, [] => True
  | s, x :: xs => Locked s x ∧ SafeAct H s x ∧ ∀ s' es, step N H s x = some (s', es) → Polite N H s' xs

/-- A step of the iteration of process `i`. -/
def IAct.iterOf (i : Nat) : IAct V → Bool
  | .iter j => j == i
  | _ => false

end Verif.WeakIter
