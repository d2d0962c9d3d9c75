import Verif.MapSweep.Model
/-
  Specification of C187: what a loop that changes the map should do, on the list of bindings, and what the in-place loop does instead.
-/
namespace Verif.MapSweep.Spec

variable {V : Type}

/-- The bindings that remain when every one that satisfies `p` is erased. -/
def keep (p : UInt64 → V → Bool) (l : List (UInt64 × V)) : List (UInt64 × V) := l.filter (fun e => !p e.1 e.2)

/-- The bindings with every value replaced. -/
def update (g : UInt64 → V → V) (l : List (UInt64 × V)) : List (UInt64 × V) := l.map (fun e => (e.1, g e.1 e.2))

/-- Two keys share a bucket when they are equal modulo the number of buckets. -/
def inBucket (H b : Nat) (l : List (UInt64 × V)) : List (UInt64 × V) := l.filter (fun e => decide (e.1.toNat % H = b))

/-- A list up to and including the first element that satisfies `q`. -/
def upto (q : α → Bool) : List α → List α
  | [] => []
  | x :: xs => if q x then [x] else x :: upto q xs

/-- What the in-place loop sees of the entries `l`: in each bucket the entries up to and including the first that satisfies `p`. -/
def seen (H : Nat) (p : UInt64 → V → Bool) (l : List (UInt64 × V)) : List (UInt64 × V) :=
  (List.range H).flatMap fun b => upto (fun e => p e.1 e.2) (inBucket H b l)

/-- What the in-place loop leaves of the entries `l`: in each bucket all but the first that satisfies `p`. -/
def left (H : Nat) (p : UInt64 → V → Bool) (l : List (UInt64 × V)) : List (UInt64 × V) :=
  (List.range H).flatMap fun b => (inBucket H b l).eraseP (fun e => p e.1 e.2)

end Verif.MapSweep.Spec
