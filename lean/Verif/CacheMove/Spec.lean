/-
  What a program may expect of several caches: each is a value, given by its limits and the calls made to it so far.
-/
import Verif.CacheRef.Props
import Verif.CacheMove.Model

namespace Verif.CacheMove
open Cache CacheRef

variable {K V : Type} [DecidableEq K] [Inhabited V]

/-- A cache is a full one (with the limits and calls of its value), or a copy that can only be read, or has been moved from and waits for an assignment or its end. -/
inductive Val (K V : Type) where
  | full (max tmax : UInt64) (h : List (Op K V))
  | snap (max tmax : UInt64) (h : List (Op K V))
  | moved

abbrev Store (K V : Type) := Nat → Option (Val K V)

/-- The value that a copy of a cache has: a cache of its own if it is empty, otherwise one to be read. -/
inductive Copied (cap : V → UInt64) : Val K V → Val K V → Prop
  | empty (max tmax h) : contents cap max tmax h = [] → Copied cap (.full max tmax h) (.full max tmax h)
  | full (max tmax h) : Copied cap (.full max tmax h) (.snap max tmax h)
  | snap (max tmax h) : Copied cap (.snap max tmax h) (.snap max tmax h)

/-- What the statements do to the values, and which are allowed: calls on full caches; reading of copies, of keys whose entries are not outdated; copies, assignments, moves and
swaps. Not: calls on caches that have been moved from, changes of copies. -/
inductive VStep (cap : V → UInt64) : Store K V → Act K V → Store K V → Prop
  | new {σ : Store K V} {x : Nat} (max tmax) : σ x = none → VStep cap σ (.new x max tmax) (setO σ x (some (.full max tmax [])))
  | call {σ : Store K V} {x max tmax h} (o) : σ x = some (.full max tmax h) → Fits cap tmax (h ++ [o]) → VStep cap σ (.call x o) (setO σ x (some (.full max tmax (h ++ [o]))))
  | read {σ : Store K V} {x max tmax h} (k now) : σ x = some (.snap max tmax h) →
      (∀ e, Spec.lookup (contents cap max tmax h) k = some e → ¬ Spec.Expired tmax.toNat now.toNat e) → VStep cap σ (.call x (.get k now)) σ
  | copy {σ : Store K V} {x y v w} : σ x = none → σ y = some v → Copied cap v w → VStep cap σ (.copy x y) (setO σ x (some w))
  | assign {σ : Store K V} {x y u v w} : x ≠ y → σ x = some u → σ y = some v → Copied cap v w → VStep cap σ (.assign x y) (setO σ x (some w))
  | self {σ : Store K V} {x v} : σ x = some v → VStep cap σ (.assign x x) σ
  | move {σ : Store K V} {x y v} : σ x = none → σ y = some v → VStep cap σ (.move x y) (setO (setO σ y (some .moved)) x (some v))
  | moveAssign {σ : Store K V} {x y u v} : x ≠ y → σ x = some u → σ y = some v → VStep cap σ (.moveAssign x y) (setO (setO σ y (some .moved)) x (some v))
  | swap {σ : Store K V} {x y u v} : x ≠ y → σ x = some u → σ y = some v → VStep cap σ (.swap x y) (setO (setO σ y (some u)) x (some v))
  | destroy {σ : Store K V} {x v} : σ x = some v → VStep cap σ (.destroy x) (setO σ x none)

/-- Programs all of whose statements are allowed, and the values at the end. -/
inductive VRun (cap : V → UInt64) : Store K V → List (Act K V) → Store K V → Prop
  | nil (σ) : VRun cap σ [] σ
  | cons {σ σ' σ'' a as} : VStep cap σ a σ' → VRun cap σ' as σ'' → VRun cap σ (a :: as) σ''

/-- What `get` returns at time `now` from a cache with the value. -/
def answer (cap : V → UInt64) (k : K) (now : UInt64) : Val K V → Option V
  | .full max tmax h => found (contents cap max tmax h) tmax k now
  | .snap max tmax h => found (contents cap max tmax h) tmax k now
  | .moved => none

/-- Calls of `get` for `k` at time `now` are allowed. -/
def MayGet (cap : V → UInt64) (k : K) (now : UInt64) : Val K V → Prop
  | .full _ _ _ => True
  | .snap max tmax h => ∀ e, Spec.lookup (contents cap max tmax h) k = some e → ¬ Spec.Expired tmax.toNat now.toNat e
  | .moved => False

end Verif.CacheMove
