import Verif.ShmMap.Model
/-
  A process changes the map inside its own iteration `for (it = m.begin(); it != m.end(); ++it) { … }`, while no other process uses the map
  (it is alone, or it holds the writer lock around the loop and calls the unprotected_ functions).
  coda/shm_hash_map.hpp:84-159 (const_iterator, begin, end), coda/shm_hash_map.tcc:221-325 (unprotected_insert, unprotected_erase).

  The loops are client code: three usual ways to write them.  `fuel` bounds the number of rounds, a loop that needs more is `.ub`.
-/
namespace Verif.MapSweep

open Verif.ShmMap

variable {V : Type}

/-- `if (p(key, value)) m.erase(key);` (coda/shm_hash_map.tcc:174-181, 279-325). -/
def eraseIf (N H : Nat) (p : UInt64 → V → Bool) (m : Map V) (key : UInt64) (v : V) : Res (Map V) :=
  if p key v then do
    let (m, _) ← erase N H m key
    .ok m
  else .ok m

/-- The entry is erased while the iterator still points at it, then the iterator is advanced:
`for (it = begin(); it != end(); ++it) if (p(it.key(), it.value())) erase(it.key());` (coda/shm_hash_map.hpp:99-159; operator++ reads
`next` of the erased node).  Returns the map and the pairs the loop saw. -/
def sweepHere (N H : Nat) (p : UInt64 → V → Bool) : Nat → Map V → Iter → Res (Map V × List (UInt64 × V))
  | 0, m, it => if it = end_ then .ok (m, []) else .ub
  | fuel + 1, m, it =>
    if it = end_ then .ok (m, [])
    else if it.2 < N then do
      let m1 ← eraseIf N H p m (m.key it.2) (m.val it.2)
      let it' ← incr N H m1 it
      let (m2, l) ← sweepHere N H p fuel m1 it'
      .ok (m2, (m.key it.2, m.val it.2) :: l)
    else .ub

/-- The iterator is advanced before the entry is erased:
`for (it = begin(); it != end(); ) { k = it.key(); v = it.value(); ++it; if (p(k, v)) erase(k); }` (coda/shm_hash_map.hpp:99-159). -/
def sweepAhead (N H : Nat) (p : UInt64 → V → Bool) : Nat → Map V → Iter → Res (Map V × List (UInt64 × V))
  | 0, m, it => if it = end_ then .ok (m, []) else .ub
  | fuel + 1, m, it =>
    if it = end_ then .ok (m, [])
    else if it.2 < N then do
      let it' ← incr N H m it
      let m1 ← eraseIf N H p m (m.key it.2) (m.val it.2)
      let (m2, l) ← sweepAhead N H p fuel m1 it'
      .ok (m2, (m.key it.2, m.val it.2) :: l)
    else .ub

/-- The value of the current entry is replaced:
`for (it = begin(); it != end(); ++it) insert(it.key(), g(it.key(), it.value()));` (coda/shm_hash_map.hpp:99-159,
coda/shm_hash_map.tcc:148-155, 221-277). -/
def sweepSet (N H : Nat) (g : UInt64 → V → V) : Nat → Map V → Iter → Res (Map V × List (UInt64 × V))
  | 0, m, it => if it = end_ then .ok (m, []) else .ub
  | fuel + 1, m, it =>
    if it = end_ then .ok (m, [])
    else if it.2 < N then do
      let (m1, _) ← insert N H m (m.key it.2) (g (m.key it.2) (m.val it.2))
      let it' ← incr N H m1 it
      let (m2, l) ← sweepSet N H g fuel m1 it'
      .ok (m2, (m.key it.2, m.val it.2) :: l)
    else .ub

end Verif.MapSweep
