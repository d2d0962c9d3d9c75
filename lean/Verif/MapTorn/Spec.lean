import Verif.MapTorn.Model
import Verif.ShmMap.Spec
/-
  Specification: what may be left of an operation whose process is killed, when values consist of words.
-/
namespace Verif.MapTorn.Spec

open Verif.ShmMap Verif.ShmMap.Spec

variable {W : Type} {n : Nat}

/-- Every word of `u` is the word of `v` or of `w` at its place. -/
def Mixed (u v w : Val n W) : Prop := ∀ j, u j = v j ∨ u j = w j

/-- The bindings an operation may leave when its process is killed inside of it: those before it, those after it, and, in the case of an
insert over a key that is bound, the bindings with a mixture of the old and the new value under this key. -/
def Left (N lk : Nat) (l : Bindings (Val n W)) (op : Op (Val n W)) (l' : Bindings (Val n W)) : Prop :=
  l' = l ∨ l' = (stepL N lk l op).1 ∨
  ∃ k v old u, op = .insert k v ∧ lookup l k = some old ∧ Mixed u v old ∧ l' = bind l k u

/-- What the clients of a map of capacity `N` may see (cf. `Verif.ShmMap.Spec.Sees`). -/
inductive SeesMixed (N : Nat) : Nat → Bindings (Val n W) → List (Ev (Val n W)) → List (Ret (Val n W)) → Prop where
  | nil {lk l} : SeesMixed N lk l [] []
  | done {lk l op es rs} : SeesMixed N (stepL N lk l op).2.1 (stepL N lk l op).1 es rs →
      SeesMixed N lk l (.done op :: es) ((stepL N lk l op).2.2 :: rs)
  | killed {lk lk' l l' op c es rs} : Left N lk l op l' → lk' ≤ lk + 1 → SeesMixed N lk' l' es rs →
      SeesMixed N lk l (.killed op c :: es) rs

end Verif.MapTorn.Spec
