/-
  What a client of a reader/writer lock relies on when sections are nested.
-/
import Verif.MapNest.Model

namespace Verif.MapNest.Spec
open Verif.MapNest

/-- A process that holds the write lock holds it once and nothing else, and nobody else holds anything. -/
def Exclusive (s : State) : Prop :=
  ∀ (i : Nat) (p : Proc), s.procs[i]? = some p → Kind.write ∈ p.held →
    p.held = [Kind.write] ∧ ∀ (j : Nat) (q : Proc), j ≠ i → s.procs[j]? = some q → q.held = []

/-- How often the read lock is held. -/
def readers (s : State) : Nat := (s.procs.map (fun p => p.held.count Kind.read)).sum

/-- A fork inside of a section after which the child takes the locks of its parent for its own is not sound; every other step is. -/
def soundStep (s : State) : Label → Prop
  | .fork i true => ∀ p, s.procs[i]? = some p → p.held = []
  | _ => True

/-- The runs in which no child takes the locks of its parent for its own. -/
inductive Sound : State → List Label → State → Prop
  | nil (s : State) : Sound s [] s
  | cons {s s1 s' : State} {a : Label} {as : List Label} : soundStep s a → step s a = some s1 → Sound s1 as s' → Sound s (a :: as) s'

/-- In every continuation in which the process is not killed, its call does not return. -/
def Stuck (s : State) (i : Nat) : Prop :=
  ∀ (as : List Label) (s' : State), Sound s as s' → .kill i ∉ as →
    ∃ p c, s'.procs[i]? = some p ∧ p.wait = some c ∧ step s' (.ret i) = none

/-- Nobody gets a lock of kind `k`, in every continuation in which process `i` is not killed. -/
def Blocked (s : State) (i : Nat) (k : Kind) : Prop :=
  ∀ (as : List Label) (s' : State) (j : Nat) (q : Proc), Sound s as s' → .kill i ∉ as →
    s'.procs[j]? = some q → q.wait = some (.lock k) → step s' (.ret j) = none

end Verif.MapNest.Spec
