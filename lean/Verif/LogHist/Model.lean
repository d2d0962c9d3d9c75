import Verif.LogArray.Model
/-
  Model of log_array<T, MaxLog> as an array of counters, coda/log_array.hpp: a new array, `get_by_value(v)++`, and swap, for the fundamental types T.

  A cell is `none` as long as it has no value (it is indeterminate: reading it is undefined behaviour).  The types are those of 64-bit Linux with signed char.  A cell of type float or double holds a whole number here: a counter
  that begins at 0 never holds anything else.
-/
namespace Verif.LogHist

open Verif.LogArray

/-- The types of elements: those for which coda/log_array.hpp:21-79 specialises the constructor, and other fundamental types. -/
inductive Ty where
  | char | uchar | ushort | short | int | uint | long | ulong | double | float
  | schar | llong | ullong | ldouble
  deriving DecidableEq

/-- The value of `log_array_value_holder<T>().value`: 0 in the specialisations coda/log_array.hpp:21-79, none otherwise (coda/log_array.hpp:16-19: the member is not initialised). -/
def initial : Ty → Option Int
  | .char => some 0
  | .uchar => some 0
  | .ushort => some 0
  | .short => some 0
  | .int => some 0
  | .uint => some 0
  | .long => some 0
  | .ulong => some 0
  | .double => some 0
  | .float => some 0
  | .schar => none
  | .llong => none
  | .ullong => none
  | .ldouble => none

/-- A new array, coda/log_array.hpp:88-93. -/
def create (t : Ty) (maxlog : Nat) : List (Option Int) := List.replicate maxlog (initial t)

/-- What `++` does at the largest number: wrap around, undefined behaviour, or nothing (the result is rounded down).  Environment: arithmetic of the types of coda/log_array.hpp:21-79. -/
inductive Top where
  | wraps (lo hi : Int)
  | traps (hi : Int)
  | stays (hi : Int)

/-- Environment: arithmetic of the types of coda/log_array.hpp:21-79.  float and double have 24 and 53 bits, long double 64; the sum with 1 is rounded to even. -/
def top : Ty → Top
  | .char => .wraps (-2 ^ 7) (2 ^ 7 - 1)
  | .schar => .wraps (-2 ^ 7) (2 ^ 7 - 1)
  | .uchar => .wraps 0 (2 ^ 8 - 1)
  | .ushort => .wraps 0 (2 ^ 16 - 1)
  | .short => .wraps (-2 ^ 15) (2 ^ 15 - 1)
  | .int => .traps (2 ^ 31 - 1)
  | .uint => .wraps 0 (2 ^ 32 - 1)
  | .long => .traps (2 ^ 63 - 1)
  | .llong => .traps (2 ^ 63 - 1)
  | .ulong => .wraps 0 (2 ^ 64 - 1)
  | .ullong => .wraps 0 (2 ^ 64 - 1)
  | .double => .stays (2 ^ 53)
  | .float => .stays (2 ^ 24)
  | .ldouble => .stays (2 ^ 64)

/-- `x + 1` in a type.  Environment: arithmetic of the types of coda/log_array.hpp:21-79. -/
def plus1 (x : Int) : Top → Res Int
  | .wraps lo hi => .ok (if x = hi then lo else x + 1)
  | .traps hi => if x = hi then .ub else .ok (x + 1)
  | .stays hi => .ok (if x = hi then x else x + 1)

/-- `a.get_by_value(v)++`, coda/log_array.hpp:115-126. -/
def record (t : Ty) (a : List (Option Int)) (v : Nat) : Res (List (Option Int)) :=
  match get_by_value a v with
  | .ub => .ub
  | .ok none => .ub
  | .ok (some x) =>
    match plus1 x (top t) with
    | .ub => .ub
    | .ok y => set_by_value a v (some y)

/-- The same for one value after the other, coda/log_array.hpp:115-126. -/
def recordAll (t : Ty) (a : List (Option Int)) : List Nat → Res (List (Option Int))
  | [] => .ok a
  | v :: vs =>
    match record t a v with
    | .ub => .ub
    | .ok a' => recordAll t a' vs

/-- `swap`, coda/log_array.hpp:102-112: every cell of both arrays is read, so it must have a value.  Simplified: copies of an indeterminate `unsigned char` are allowed, but these cells begin with 0. -/
def swapCells (a b : List (Option Int)) : Res (List (Option Int) × List (Option Int)) :=
  if (a ++ b).all Option.isSome then swap a b else .ub

end Verif.LogHist
