/-
  Model of coda/shm_hash_map.tcc with values whose assignment may throw an exception.  `insert` and `read` copy the value between
  lock and unlock (coda/shm_hash_map.tcc:139-155, 221-277), and nothing catches.  Processes go on after an exception, or end; calls of any number
  of processes one after the other (they are atomic: C117), with the semaphores and the SEM_UNDO adjustments of Verif/RwLock/Model.lean.
  Simplified: a call that has to wait is noted and leaves everything as it is; sections of the client are left out, batches are in Verif.ThrowMany.
-/
import Verif.ShmMap.Model
import Verif.RwLock.Model

namespace Verif.MapThrow
open Verif.ShmPool Verif.ShmMap Verif.RwLock

variable {V : Type}

/-- The map, the semaphores, and the adjustments of each process: coda/shm_hash_map.hpp:56-65, coda/shm_hash_map.tcc:459-522. -/
structure State (V : Type) where
  sem : Vals
  adj : Nat → Vals
  map : Map V

/-- What a call gives: it returns, it throws the exception of the value, or it waits for the lock; coda/shm_hash_map.tcc:102-213. -/
inductive Reply (V : Type) where
  | ret (r : Ret V)
  | exc
  | waits
  deriving DecidableEq

/-- The lock that a call takes: coda/shm_hash_map.tcc:105, 142, 151, 177, 203. -/
def lockOf : Op V → List SemBuf
  | .read _ => lock_read_rw
  | .size => lock_read_rw
  | _ => lock_write_rw

/-- and the release: coda/shm_hash_map.tcc:107, 144, 153, 179, 212. -/
def unlockOf : Op V → List SemBuf
  | .read _ => unlock_read_rw
  | .size => unlock_read_rw
  | _ => unlock_write_rw

/-- A call without an exception: coda/shm_hash_map.tcc:102-213. -/
def call (N H : Nat) (s : State V) (i : Nat) (op : Op V) : Res (State V × Reply V) :=
  match semop s.sem (s.adj i) (lockOf op) with
  | none => .ok (s, .waits)
  | some (sem, a) => do
    let (m, r) ← step N H s.map op
    match semop sem a (unlockOf op) with
    | none => .ok (s, .waits)
    | some (sem, a) => .ok (⟨sem, put s.adj i a, m⟩, .ret r)

/-- The writes up to the assignment of the value: coda/shm_hash_map.tcc:233, 253, 269. -/
def upto : List (Wr V) → List (Wr V)
  | [] => []
  | .val i v :: _ => [.val i v]
  | w :: ws => w :: upto ws

/-- Is a value assigned at all?  coda/shm_hash_map.tcc:233, 253, 269. -/
def copies : List (Wr V) → Bool
  | [] => false
  | .val _ _ :: _ => true
  | _ :: ws => copies ws

/-- A call in which the assignment of the value throws, if it comes to one: `insert` coda/shm_hash_map.tcc:148-155 with 233, 253, 269, which leaves `part` in the
node; `read` coda/shm_hash_map.tcc:139-146 with 127.  The exception leaves the function: the lock is not released.  The other calls assign no values. -/
def throws (N H : Nat) (s : State V) (i : Nat) (op : Op V) (part : V) : Res (State V × Reply V) :=
  match op with
  | .insert k v =>
    match semop s.sem (s.adj i) lock_write_rw with
    | none => .ok (s, .waits)
    | some (sem, a) => do
      let (_, ws) ← unprotected_insert N H s.map k part
      if copies ws then do
        let m ← applyM N H s.map (upto ws)
        .ok (⟨sem, put s.adj i a, m⟩, .exc)
      else call N H s i (.insert k v)
  | .read k =>
    match semop s.sem (s.adj i) lock_read_rw with
    | none => .ok (s, .waits)
    | some (sem, a) => do
      let r ← unprotected_read N H s.map k
      if r.isSome then .ok (⟨sem, put s.adj i a, s.map⟩, .exc)
      else call N H s i (.read k)
  | op => call N H s i op

/-- The end of a process: the kernel applies the adjustments of coda/shm_hash_map.tcc:459-522. -/
def ends (s : State V) (i : Nat) : State V := ⟨undo s.sem (s.adj i), put s.adj i ⟨0, 0⟩, s.map⟩

/-- Bookkeeping: process `i` calls (coda/shm_hash_map.tcc:102-213), with or without an exception, or ends. -/
inductive Ev (V : Type) where
  | call (i : Nat) (op : Op V)
  | throws (i : Nat) (op : Op V) (part : V)
  | ends (i : Nat)

/-- A history of calls of coda/shm_hash_map.tcc:102-213 and the replies to them. -/
def run (N H : Nat) (s : State V) : List (Ev V) → Res (State V × List (Reply V))
  | [] => .ok (s, [])
  | .call i op :: es => do
    let (s, r) ← call N H s i op
    let (s, rs) ← run N H s es
    .ok (s, r :: rs)
  | .throws i op part :: es => do
    let (s, r) ← throws N H s i op part
    let (s, rs) ← run N H s es
    .ok (s, r :: rs)
  | .ends i :: es => run N H (ends s i) es

end Verif.MapThrow
