import Verif.MapIter.Model
/-
  Model of `unprotected_read` called without the lock, coda/shm_hash_map.hpp:76, coda/shm_hash_map.tcc:117-137, while other processes use the map.

  Its code is that of Verif.MapSys (places `rdHash` to `rdVal`, one read of shared memory in each step); these steps interleave with those of all processes of Verif.MapSys.
-/
namespace Verif.MapPeek

open Verif.ShmPool Verif.ShmMap Verif.MapSys

variable {V : Type}

/-- The processes of Verif.MapSys and the calls of `unprotected_read` without the lock (at most one for each process).  Bookkeeping: such calls (coda/shm_hash_map.tcc:117-137) besides the
calls of coda/shm_hash_map.tcc:102-325. -/
structure PSys (V : Type) where
  sys : Sys V
  peek : Nat → Option (Pc V)

/-- Bookkeeping: calls of coda/shm_hash_map.tcc:117-137 without the lock, besides the calls of coda/shm_hash_map.tcc:102-325. -/
inductive PAct (V : Type) where
  | sys (a : Act V)             -- anything that can happen in Verif.MapSys
  | peek (i : Nat) (k : UInt64) -- process `i` calls unprotected_read(k, out) without the lock
  | look (i : Nat)              -- a step of this call

/-- What is seen: the events of Verif.MapSys, and such a call returns (`none`: false; `some v`: true and `out = v`).  coda/shm_hash_map.tcc:117-137. -/
inductive PEvent (V : Type) where
  | sys (e : Event V)
  | looked (i : Nat) (r : Ret V)

/-- Bookkeeping: calls of coda/shm_hash_map.tcc:117-137 without the lock. -/
def PSys.set (s : PSys V) (i : Nat) (t : Option (Pc V)) : PSys V := { s with peek := fun j => if j = i then t else s.peek j }

/-- After a step of Verif.MapSys: the call of a killed process is gone.  Bookkeeping: calls of coda/shm_hash_map.tcc:117-137 without the lock. -/
def afterSys (s : PSys V) (sys : Sys V) : Act V → PSys V
  | .kill i => ({ s with sys := sys } : PSys V).set i none
  | _ => { s with sys := sys }

/-- The successor, if the step is possible, and what is seen of it.  coda/shm_hash_map.tcc:117-137: one read of shared memory, or the return. -/
def step (N H : Nat) (s : PSys V) : PAct V → Option (PSys V × List (PEvent V))
  | .sys a => (MapSys.step N H s.sys a).map (fun q => (afterSys s q.1 a, q.2.map .sys))
  | .peek i k =>
    match s.peek i with
    | none => if MapIter.connected s.sys i then some (s.set i (some (start (.read k))), []) else none
    | some _ => none
  | .look i =>
    match s.peek i with
    | none => none
    | some (.ret r) => some (s.set i none, [.looked i r])
    | some pc => some (s.set i (some (pc.step N H s.sys.rw.mem).2), [])

/-- A sequence of steps: the state afterwards and what was seen.  Bookkeeping: calls of coda/shm_hash_map.tcc:117-137 without the lock. -/
def exec (N H : Nat) (s : PSys V) : List (PAct V) → Option (PSys V × List (PEvent V))
  | [] => some (s, [])
  | a :: as =>
    match step N H s a with
    | none => none
    | some (s', es) =>
      match exec N H s' as with
      | none => none
      | some (s'', es') => some (s'', es ++ es')

end Verif.MapPeek
