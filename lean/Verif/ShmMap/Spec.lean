import Verif.ShmMap.Model
/-
  Specification: a finite map with a capacity, as a list of bindings with distinct keys.
-/
namespace Verif.ShmMap.Spec

variable {V : Type}

abbrev Bindings (V : Type) := List (UInt64 × V)

def lookup (l : Bindings V) (k : UInt64) : Option V := (l.find? (fun p => decide (p.1 = k))).map (·.2)

def has (l : Bindings V) (k : UInt64) : Prop := k ∈ l.map (·.1)

instance (l : Bindings V) (k : UInt64) : Decidable (has l k) := by unfold has; infer_instance

/-- Bind `k` to `v` (replacing the value if `k` is bound). -/
def bind (l : Bindings V) (k : UInt64) (v : V) : Bindings V :=
  if has l k then l.map (fun p => if p.1 = k then (k, v) else p) else (k, v) :: l

def unbind (l : Bindings V) (k : UInt64) : Bindings V := l.filter (fun p => decide (p.1 ≠ k))

/-- The map of capacity `N`. -/
def step (N : Nat) (l : Bindings V) : Op V → Bindings V × Ret V
  | .read k => (l, .val (lookup l k))
  | .insert k v => if has l k ∨ l.length < N then (bind l k v, .bool true) else (l, .bool false)
  | .erase k => (unbind l k, .bool (decide (has l k)))
  | .clear => ([], .unit)
  | .size => (l, .num l.length)

def run (N : Nat) (l : Bindings V) : List (Op V) → Bindings V × List (Ret V)
  | [] => (l, [])
  | op :: ops =>
    let (l, r) := step N l op
    let (l, rs) := run N l ops
    (l, r :: rs)

/-! ## Killed processes -/

/-- The map when `lk` entries are lost: they count as stored (for `size` and for the capacity) until the next `clear`. -/
def stepL (N lk : Nat) (l : Bindings V) : Op V → Bindings V × Nat × Ret V
  | .clear => ([], 0, .unit)
  | .size => (l, lk, .num (l.length + lk))
  | op => ((step (N - lk) l op).1, lk, (step (N - lk) l op).2)

/-- An event: an operation is executed completely, or its process is killed after `n` of its writes to shared memory. -/
inductive Ev (V : Type) where
  | done (op : Op V)
  | killed (op : Op V) (n : Nat)

/-- What the clients of a map of capacity `N` may see: a completed operation behaves like the map's; an operation whose process was killed
has taken effect completely or not at all (which of the two is not determined), and at most one entry is lost. -/
inductive Sees (N : Nat) : Nat → Bindings V → List (Ev V) → List (Ret V) → Prop where
  | nil {lk l} : Sees N lk l [] []
  | done {lk l op es rs} : Sees N (stepL N lk l op).2.1 (stepL N lk l op).1 es rs →
      Sees N lk l (.done op :: es) ((stepL N lk l op).2.2 :: rs)
  | killed {lk lk' l l' op n es rs} : (l' = l ∨ l' = (stepL N lk l op).1) → lk' ≤ lk + 1 → Sees N lk' l' es rs →
      Sees N lk l (.killed op n :: es) rs

end Verif.ShmMap.Spec
