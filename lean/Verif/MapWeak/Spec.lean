/-
  What the weak system is compared with: Verif.MapSys, in which every store is seen by all at once.
-/
import Verif.MapWeak.Model
import Verif.MapSys.Props

namespace Verif.MapWeak

open Verif.ShmMap Verif.MapSys

variable {V : Type}

/-- The same processes with one memory. -/
def Sys.strong (s : Sys V) (m : Map V) : MapSys.Sys V := ⟨⟨s.lk.exist, s.lk.sem, m, s.lk.procs⟩, s.pend⟩

/-- What the processes do, without the arrivals of stores. -/
def acts : List (Act V) → List (MapSys.Act V)
  | [] => []
  | .act a :: xs => a :: acts xs
  | .arrive _ _ :: xs => acts xs

/-- The semaphores exist and are free, all see the same fresh map, nobody is in a call; any number of processes, connected or not. -/
def Start (H : Nat) (s : Sys V) (m : Map V) : Prop :=
  RwLock.Start s.lk ∧ Init H m ∧ (∀ j, s.view j = m ∧ s.inc j = []) ∧ ∀ i, s.pend i = .idle

/-- No process is killed between the two writes of `free_nodes.push` or inside `clear` (C52). -/
def SafeKills (N H : Nat) : Sys V → List (Act V) → Prop
  | _, [] => True
  | s, x :: xs => (∀ i p, x = .act (.kill i) → s.lk.procs[i]? = some p → p.mode = .writing → ¬ p.loc.pc.fragile H) ∧
      ∀ s' es, step N H s x = some (s', es) → SafeKills N H s' xs

end Verif.MapWeak
