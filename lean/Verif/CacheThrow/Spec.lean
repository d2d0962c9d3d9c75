/-
  What a cache holds after calls some of which throw, in terms of the specification of the cache (Verif/Cache/Spec.lean).
-/
import Verif.Cache.Spec

namespace Verif.CacheThrow.Spec

open Cache.Spec

variable {K V : Type} [DecidableEq K]

inductive EventT (K V : Type) where
  | ev (e : Event K V)
  | noInsert (k : K)
  | noAssign (k : K) (left : V) (now : Nat)

/-- What a client expects: a call that throws has no effect. -/
def expected (cap : V → Nat) (max tmax : Nat) (l : List (Entry K V)) : EventT K V → List (Entry K V)
  | .ev e => after cap max tmax l e
  | _ => l

/-- What the code does for keys that are not there: an entry of size 0 with the value that the assignment left. -/
def actual (cap : V → Nat) (max tmax : Nat) (l : List (Entry K V)) : EventT K V → List (Entry K V)
  | .ev e => after cap max tmax l e
  | .noInsert _ => l
  | .noAssign k left now => l ++ [⟨k, left, 0, now⟩]

/-- The events before each throwing assignment have left no entry of its key. -/
def NewKeys (cap : V → Nat) (max tmax : Nat) : List (Entry K V) → List (EventT K V) → Prop
  | _, [] => True
  | l, e :: es => (match e with
      | .noAssign k _ _ => lookup l k = none
      | _ => True) ∧ NewKeys cap max tmax (actual cap max tmax l e) es

/-- The operations among them. -/
def events (h : List (EventT K V)) : List (Event K V) :=
  h.filterMap fun
    | .ev e => some e
    | _ => none

/-- The clock readings at which entries are made. -/
def times (h : List (EventT K V)) : List Nat :=
  h.flatMap fun
    | .ev (.set _ _ _ now) => [now]
    | .noAssign _ _ now => [now]
    | _ => []

/-- No sum of sizes and no time overflows 64 bits. -/
def FitsT (cap : V → Nat) (tmax : Nat) (h : List (EventT K V)) : Prop :=
  setSizes cap (events h) < 2 ^ 64 ∧ ∀ t ∈ times h, t + tmax < 2 ^ 64

end Verif.CacheThrow.Spec
