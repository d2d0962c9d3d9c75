/-
  Model of coda/log_array.hpp.  The array is a list of MaxLog elements; an index outside is undefined behaviour.
-/
import Verif.Mem

namespace Verif.LogArray

/-- The loop of get_by_value with size_t arithmetic: coda/log_array.hpp:119-123. -/
def loop (i j : Nat) : Nat :=
  if h : i = 0 then j else loop (i / 2) ((j + 1) % 2 ^ 64)
termination_by i
decreasing_by omega

variable {T : Type}

/-- `get_at`, read access: coda/log_array.hpp:94-101. -/
def get_at (a : List T) (i : Nat) : Res T :=
  match a[i]? with
  | some x => .ok x
  | none => .ub

/-- The index `get_by_value` hands to get_at; `maxlog` is `max_log_value`: coda/log_array.hpp:116-126. -/
def index (maxlog i : Nat) : Nat :=
  let j := loop i (2 ^ 64 - 1)
  if j < maxlog then j else maxlog - 1

/-- `get_by_value`, read access.  `get_by_value`, read access: coda/log_array.hpp:115-126. -/
def get_by_value (a : List T) (i : Nat) : Res T := get_at a (index a.length i)

/-- `get_by_value(i) = x`: the reference is assigned to.  `get_by_value(i) = v`: coda/log_array.hpp:115-126. -/
def set_by_value (a : List T) (i : Nat) (x : T) : Res (List T) :=
  if index a.length i < a.length then .ok (a.set (index a.length i) x) else .ub

/-- The loop of swap from index `i`, `n` more iterations: coda/log_array.hpp:102-112 (two different objects). -/
def swapLoop : Nat → Nat → List T → List T → Res (List T × List T)
  | 0, _, a, b => .ok (a, b)
  | n + 1, i, a, b =>
    match a[i]?, b[i]? with
    | some x, some y => swapLoop n (i + 1) (a.set i y) (b.set i x)
    | _, _ => .ub

/-- `swap`: coda/log_array.hpp:102-112. -/
def swap (a b : List T) : Res (List T × List T) := swapLoop a.length 0 a b

end Verif.LogArray
