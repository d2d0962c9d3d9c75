import Verif.MapSys.Model
import Verif.ShmMap.Spec
/-
  Specification: the atomic map.  Every call takes effect in one instant between its call and its return, and returns what the finite map of
  Verif.ShmMap.Spec returns at that instant.  When a process is killed during a call, the operations of the call up to some point have taken effect, at most
  one of them is in doubt (it took effect completely or not at all), and at most one entry is lost.
-/
namespace Verif.MapSys.Spec

open Verif.ShmMap

variable {V : Type}

abbrev Bindings (V : Type) := ShmMap.Spec.Bindings V

/-- Several operations on the finite map with `lk` lost entries. -/
def stepsL (N lk : Nat) (l : Bindings V) : List (Op V) → Bindings V × Nat × List (Ret V)
  | [] => (l, lk, [])
  | o :: os =>
    let (l, lk, r) := ShmMap.Spec.stepL N lk l o
    let (l, lk, rs) := stepsL N lk l os
    (l, lk, r :: rs)

/-- What the calls mean: `insert(pairs, n)` inserts the pairs in their order, `erase(keys, n)` erases the keys in their order; a section of the client is what it does, in its order. -/
def meaning : Call V → List (Op V)
  | .op o => [o]
  | .insertMany ps => ps.map (fun (k, v) => .insert k v)
  | .eraseMany ks => ks.map (fun k => .erase k)
  | .readSection ks => ks.map (fun k => .read k)
  | .writeSection us => us.map (fun
    | .read k => .read k
    | .insert k v => .insert k v
    | .erase k => .erase k)

def isTrue : Ret V → Bool
  | .bool b => b
  | _ => false

/-- What a call returns when its operations returned `rs`: a batch returns true iff every operation did; a client that made a section of its own has seen all results. -/
def answer : Call V → List (Ret V) → List (Ret V)
  | .op _, rs => [rs.headD .unit]
  | .insertMany _, rs => [.bool (rs.all isTrue)]
  | .eraseMany _, rs => [.bool (rs.all isTrue)]
  | .readSection _, rs => rs
  | .writeSection _, rs => rs

/-- A process is not in a call, in a call that has not taken effect, or in a call that has. -/
inductive Status (V : Type) where
  | out
  | before (c : Call V)
  | after (rs : List (Ret V))

/-- The state of the atomic map. -/
structure State (V : Type) where
  map : Bindings V
  lost : Nat
  st : Nat → Status V

def State.set (s : State V) (i : Nat) (x : Status V) : State V := { s with st := fun j => if j = i then x else s.st j }

def State.init : State V := ⟨[], 0, fun _ => .out⟩

/-- The call `c` takes effect completely. -/
def State.effect (N : Nat) (s : State V) (c : Call V) : State V := { s with
  map := (stepsL N s.lost s.map (meaning c)).1
  lost := (stepsL N s.lost s.map (meaning c)).2.1 }

/-- What the call returns when it takes effect now. -/
def State.result (N : Nat) (s : State V) (c : Call V) : List (Ret V) := answer c (stepsL N s.lost s.map (meaning c)).2.2

/-- The call `c` takes effect up to some point: the operations `pre` completely, and the next one, if there is one, completely or not at all. -/
inductive Partial (N : Nat) (s : State V) (c : Call V) : State V → Prop where
  | pre {pre post} : (meaning c) = pre ++ post → Partial N s c { s with
      map := (stepsL N s.lost s.map pre).1
      lost := (stepsL N s.lost s.map pre).2.1 }
  | mid {pre o post l lk} : (meaning c) = pre ++ o :: post →
      (l = (stepsL N s.lost s.map pre).1 ∨ l = (stepsL N s.lost s.map (pre ++ [o])).1) → lk ≤ (stepsL N s.lost s.map pre).2.1 + 1 →
      Partial N s c { s with map := l, lost := lk }

/-- The histories of the atomic map. -/
inductive Atomic (N : Nat) : State V → List (Event V) → Prop where
  | nil {s} : Atomic N s []
  | call {s i c es} : s.st i = .out → Atomic N (s.set i (.before c)) es → Atomic N s (.call i c :: es)
  | effect {s i c es} : s.st i = .before c → Atomic N ((s.effect N c).set i (.after (s.result N c))) es → Atomic N s es
  | ret {s i r es} : s.st i = .after r → Atomic N (s.set i .out) es → Atomic N s (.ret i r :: es)
  | killedOut {s i es} : (∀ c, s.st i ≠ .before c) → Atomic N (s.set i .out) es → Atomic N s (.killed i :: es)
  /-- Process `i` sees every entry exactly once, in some order, all of them at one instant. -/
  | iterated {s i l es} : l.Perm s.map → (l.map (·.1)).Nodup → Atomic N s es → Atomic N s (.iterated i l :: es)
  | killedIn {s s' i c es} : s.st i = .before c → Partial N s c s' → Atomic N (s'.set i .out) es → Atomic N s (.killed i :: es)

end Verif.MapSys.Spec
