import Verif.MapSys.Model
/-
  Model of the map used without any lock: `unprotected_insert`, `unprotected_erase` and `unprotected_read`, coda/shm_hash_map.hpp:74-76, coda/shm_hash_map.tcc:117-137, 221-325.

  The code of the three calls is that of Verif.MapSys (`Pc.step`: one access to shared memory in each step); the steps of all processes interleave freely and nobody waits for anybody.
  Simplification: where the source reads a word twice in a row (`objects[el].next` at coda/shm_hash_map.tcc:237-239, the two counters of the pool) `Pc.step` reads it once.  For the
  process that alone stores into the map the two reads agree; with several such processes this is one of the ways to compile the code, which is enough for a refutation.
  A killed process is one that makes no more steps.
-/
namespace Verif.MapFree

open Verif.ShmPool Verif.ShmMap Verif.MapSys

variable {V : Type}

/-- The segment, and for each process the place in its call, if it is in one.  coda/shm_hash_map.tcc:117-137, 221-325. -/
structure FSys (V : Type) where
  mem : Map V
  pc : Nat → Option (Pc V)

/-- Bookkeeping: calls of coda/shm_hash_map.tcc:117-137, 221-325 without the lock. -/
inductive FAct (V : Type) where
  | call (i : Nat) (u : Unprot V)  -- process `i` calls unprotected_read, unprotected_insert or unprotected_erase
  | go (i : Nat)                   -- a step of this call

/-- What is seen: a process calls, its call returns.  coda/shm_hash_map.tcc:117-137, 221-325. -/
inductive FEvent (V : Type) where
  | call (i : Nat) (u : Unprot V)
  | ret (i : Nat) (r : Ret V)

/-- Bookkeeping: calls of coda/shm_hash_map.tcc:117-137, 221-325 without the lock. -/
def FSys.set (s : FSys V) (i : Nat) (t : Option (Pc V)) : FSys V := { s with pc := fun j => if j = i then t else s.pc j }

/-- A store, or nothing, and the place after it; a store outside of the segment is undefined behaviour.  coda/shm_hash_map.tcc:117-137, 221-325. -/
def FSys.store (N H : Nat) (s : FSys V) (i : Nat) : Option (Wr V) × Pc V → FSys V
  | (none, pc) => s.set i (some pc)
  | (some w, pc) =>
    match w.apply N H s.mem with
    | .ok m => ({ s with mem := m } : FSys V).set i (some pc)
    | .ub => s.set i (some .ub)

/-- The successor, if the step is possible, and what is seen of it.  coda/shm_hash_map.tcc:117-137, 221-325: one access to shared memory, or the return. -/
def step (N H : Nat) (s : FSys V) : FAct V → Option (FSys V × List (FEvent V))
  | .call i u =>
    match s.pc i with
    | none => some (s.set i (some (start u.op)), [.call i u])
    | some _ => none
  | .go i =>
    match s.pc i with
    | none => none
    | some (.ret r) => some (s.set i none, [.ret i r])
    | some pc => some (s.store N H i (pc.step N H s.mem), [])

/-- A sequence of steps: the state afterwards and what was seen.  Bookkeeping: calls of coda/shm_hash_map.tcc:117-137, 221-325 without the lock. -/
def exec (N H : Nat) (s : FSys V) : List (FAct V) → Option (FSys V × List (FEvent V))
  | [] => some (s, [])
  | a :: as =>
    match step N H s a with
    | none => none
    | some (s', es) =>
      match exec N H s' as with
      | none => none
      | some (s'', es') => some (s'', es ++ es')

end Verif.MapFree
