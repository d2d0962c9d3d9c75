/-
  What threads expect of a shared hash map (C164): the histories are those of the atomic map of Verif.MapSys.Spec, where the threads are the callers.
-/
import Verif.MapThreads.Model
import Verif.MapSys.Props

namespace Verif.MapThreads

open Verif.ShmPool Verif.ShmMap

variable {V : Type}

/-- The semaphores exist and are free, the map is fresh, no thread is in a call; any number of threads, connected or not. -/
def Start (H : Nat) (t : Sys V) : Prop := MapSys.Start H t.sys ∧ (∀ P, t.padj P = ⟨0, 0⟩) ∧ ∀ i, t.gone i = false

/-- Process `P` may be killed now: none of its threads is between the two writes of `free_nodes.push` or inside `clear` (C52). -/
def SafeKill (own : Nat → Nat) (H : Nat) (t : Sys V) : Act V → Prop
  | .kill P => ∀ (i : Nat) (p : RwLock.Proc (MapSys.Loc V)), t.sys.rw.procs[i]? = some p → own i = P → p.mode = .writing → ¬ p.loc.pc.fragile H
  | _ => True

/-- All kills of the execution are at such places. -/
def SafeKills (own : Nat → Nat) (N H : Nat) : Sys V → List (Act V) → Prop
  | _, [] => True
  | t, a :: as => SafeKill own H t a ∧ ∀ t' es, step own N H t a = some (t', es) → SafeKills own N H t' as

/-- Thread `i` is inside of a section. -/
def inside (t : Sys V) (i : Nat) : Prop := t.sys.rw.mode i = some .writing ∨ t.sys.rw.mode i = some .reading

end Verif.MapThreads
