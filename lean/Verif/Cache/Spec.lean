/-
  Independent specification of `coda_cache` (properties C40–C44): the list of entries in order of their last set,
  oldest first.  Sizes and times are natural numbers here.
-/
namespace Verif.Cache.Spec

variable {K V : Type} [DecidableEq K]

structure Entry (K V : Type) where
  key : K
  val : V
  size : Nat
  time : Nat

/-- What a client did. -/
inductive Event (K V : Type) where
  | get (k : K) (now : Nat)
  | set (k : K) (v : V) (do_update_time : Bool) (now : Nat)
  | erase (k : K)

def lookup (l : List (Entry K V)) (k : K) : Option (Entry K V) := l.find? (fun e => decide (e.key = k))

def remove (l : List (Entry K V)) (k : K) : List (Entry K V) := l.filter (fun e => decide (e.key ≠ k))

def total (l : List (Entry K V)) : Nat := (l.map (·.size)).sum

/-- Drop the oldest entries until the rest fits. -/
def evict (max : Nat) : List (Entry K V) → List (Entry K V)
  | [] => []
  | e :: l => if total (e :: l) ≤ max then e :: l else evict max l

/-- An entry is outdated iff there is a lifetime limit and it is older. -/
def Expired (tmax now : Nat) (e : Entry K V) : Prop := tmax ≠ 0 ∧ e.time + tmax < now

instance (tmax now : Nat) (e : Entry K V) : Decidable (Expired tmax now e) := by unfold Expired; infer_instance

/-- The effect of an event on the contents. -/
def after (cap : V → Nat) (max tmax : Nat) (l : List (Entry K V)) : Event K V → List (Entry K V)
  | .get k now => match lookup l k with
    | some e => if Expired tmax now e then remove l k else l
    | none => l
  | .set k v u now => match lookup l k with
    | some e => remove l k ++ [⟨k, v, cap v, if u then now else e.time⟩]
    | none => evict max (l ++ [⟨k, v, cap v, now⟩])
  | .erase k => remove l k

/-- The contents after a history of events, from the empty cache. -/
def contents (cap : V → Nat) (max tmax : Nat) (h : List (Event K V)) : List (Entry K V) :=
  h.foldl (after cap max tmax) []

/-- The value of the most recent set of a key that is not followed by an erase of the key. -/
def lastSet (h : List (Event K V)) (k : K) : Option V :=
  h.foldl (fun r ev => match ev with
    | .set k' v _ _ => if k' = k then some v else r
    | .erase k' => if k' = k then none else r
    | .get _ _ => r) none

/-- The sizes of all values ever set, added up. -/
def setSizes (cap : V → Nat) (h : List (Event K V)) : Nat :=
  (h.map (fun ev => match ev with
    | .set _ v _ _ => cap v
    | _ => 0)).sum

/-- All values ever set are together smaller than 2^64 bytes, and no clock reading at a set comes within `tmax` of 2^64. -/
def Fits (cap : V → Nat) (tmax : Nat) (h : List (Event K V)) : Prop :=
  setSizes cap h < 2 ^ 64 ∧ ∀ ev ∈ h, match ev with
    | .set _ _ _ now => now + tmax < 2 ^ 64
    | _ => True

end Verif.Cache.Spec
