import Verif.MapFree.Model
import Verif.MapWeak.Model
/-
  Model of the map used without any lock on processors that delay and reorder stores: `unprotected_insert`, `unprotected_erase` and `unprotected_read`, coda/shm_hash_map.hpp:74-76,
  coda/shm_hash_map.tcc:117-137, 221-325.

  As in Verif.MapWeak every process has a view of its own of the segment: a store changes the view of the process that makes it at once and arrives at every other process later, separately,
  in any order in which stores to one word stay in their order.  No call takes a lock, so no call waits for anything to arrive.  The code and its simplifications are those of Verif.MapFree.
-/
namespace Verif.WeakFree

open Verif.ShmPool Verif.ShmMap Verif.MapSys
open Verif.MapFree (FAct FEvent)

variable {V : Type}

/-- The views of the segment, the stores that have not arrived at a process yet, and for each process the place in its call, if it is in one.  coda/shm_hash_map.tcc:117-137, 221-325. -/
structure WSys (V : Type) where
  view : Nat → Map V
  inc : Nat → List (Wr V)
  pc : Nat → Option (Pc V)

/-- What can happen: a process calls or makes a step (coda/shm_hash_map.tcc:117-137, 221-325), or the `k`-th store on its way to process `j` arrives. -/
inductive WAct (V : Type) where
  | act (a : FAct V)
  | arrive (j k : Nat)

/-- Bookkeeping: calls of coda/shm_hash_map.tcc:117-137, 221-325 without the lock. -/
def WSys.set (s : WSys V) (i : Nat) (t : Option (Pc V)) : WSys V := { s with pc := fun j => if j = i then t else s.pc j }

/-- A store, or nothing, and the place after it: the store is in the view of process `i`, and on its way to all others; a store outside of the segment is undefined behaviour.
coda/shm_hash_map.tcc:117-137, 221-325. -/
def WSys.store (N H : Nat) (s : WSys V) (i : Nat) : Option (Wr V) × Pc V → WSys V
  | (none, pc) => s.set i (some pc)
  | (some w, pc) =>
    match w.apply N H (s.view i) with
    | .ok m => ({ s with
        view := fun j => if j = i then m else s.view j,
        inc := fun j => if j = i then s.inc j else s.inc j ++ [w] } : WSys V).set i (some pc)
    | .ub => s.set i (some .ub)

/-- The `k`-th of the stores (coda/shm_hash_map.tcc:221-325) that are on their way to process `j` arrives; none before it is to the same word. -/
def WSys.arrive (N H : Nat) (s : WSys V) (j k : Nat) : Option (WSys V) :=
  match (s.inc j)[k]? with
  | some w =>
    if ∀ u ∈ (s.inc j).take k, MapWeak.cell u ≠ MapWeak.cell w then
      some { s with
        view := fun i => if i = j then MapWeak.store N H (s.view j) w else s.view i,
        inc := fun i => if i = j then (s.inc j).eraseIdx k else s.inc i }
    else none
  | none => none

/-- The successor, if the step is possible, and what is seen of it.  coda/shm_hash_map.tcc:117-137, 221-325: one access to shared memory, or the return. -/
def step (N H : Nat) (s : WSys V) : WAct V → Option (WSys V × List (FEvent V))
  | .arrive j k => (s.arrive N H j k).map (fun s => (s, []))
  | .act (.call i u) =>
    match s.pc i with
    | none => some (s.set i (some (start u.op)), [.call i u])
    | some _ => none
  | .act (.go i) =>
    match s.pc i with
    | none => none
    | some (.ret r) => some (s.set i none, [.ret i r])
    | some pc => some (s.store N H i (pc.step N H (s.view i)), [])

/-- A sequence of steps: the state afterwards and what was seen.  Bookkeeping: calls of coda/shm_hash_map.tcc:117-137, 221-325 without the lock. -/
def exec (N H : Nat) (s : WSys V) : List (WAct V) → Option (WSys V × List (FEvent V))
  | [] => some (s, [])
  | a :: as =>
    match step N H s a with
    | none => none
    | some (s', es) =>
      match exec N H s' as with
      | none => none
      | some (s'', es') => some (s'', es ++ es')

end Verif.WeakFree
