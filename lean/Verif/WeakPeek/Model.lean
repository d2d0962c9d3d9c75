import Verif.MapWeak.Model
/-
  Model of `unprotected_read` called without the lock, coda/shm_hash_map.hpp:76, coda/shm_hash_map.tcc:117-137, on processors that delay and reorder stores.

  The memory, its views and the calls that take the lock are those of Verif.MapWeak.  The call makes no system call: it reads the view of its process, one word in each step.
-/
namespace Verif.WeakPeek

open Verif.ShmPool Verif.ShmMap Verif.MapSys

variable {V : Type}

/-- The processes of Verif.MapWeak and the calls of `unprotected_read` without the lock (at most one for each process).  Bookkeeping: such calls (coda/shm_hash_map.tcc:117-137) besides the
calls of coda/shm_hash_map.tcc:102-325. -/
structure WSys (V : Type) where
  sys : MapWeak.Sys V
  peek : Nat → Option (Pc V)

/-- Bookkeeping: calls of coda/shm_hash_map.tcc:117-137 without the lock, besides the calls of coda/shm_hash_map.tcc:102-325. -/
inductive WAct (V : Type) where
  | sys (a : MapWeak.Act V)     -- anything that can happen in Verif.MapWeak
  | peek (i : Nat) (k : UInt64) -- process `i` calls unprotected_read(k, out) without the lock
  | look (i : Nat)              -- a step of this call

/-- What is seen: the events of Verif.MapSys, and such a call returns (`none`: false; `some v`: true and `out = v`).  coda/shm_hash_map.tcc:117-137. -/
inductive WEvent (V : Type) where
  | sys (e : Event V)
  | looked (i : Nat) (r : Ret V)

/-- Bookkeeping: calls of coda/shm_hash_map.tcc:117-137 without the lock. -/
def WSys.set (s : WSys V) (i : Nat) (t : Option (Pc V)) : WSys V := { s with peek := fun j => if j = i then t else s.peek j }

/-- After a step of Verif.MapWeak: the call of a killed process is gone.  Bookkeeping: calls of coda/shm_hash_map.tcc:117-137 without the lock. -/
def afterSys (s : WSys V) (sys : MapWeak.Sys V) : MapWeak.Act V → WSys V
  | .act (.kill i) => ({ s with sys := sys } : WSys V).set i none
  | _ => { s with sys := sys }

/-- The process is connected.  Bookkeeping: calls of coda/shm_hash_map.tcc:117-137 without the lock. -/
def connected (s : MapWeak.Sys V) (i : Nat) : Bool :=
  match s.lk.mode i with
  | some .out | some .reading | some .writing => true
  | _ => false

/-- The successor, if the step is possible, and what is seen of it.  coda/shm_hash_map.tcc:117-137: one read of shared memory, or the return. -/
def step (N H : Nat) (s : WSys V) : WAct V → Option (WSys V × List (WEvent V))
  | .sys a => (MapWeak.step N H s.sys a).map (fun q => (afterSys s q.1 a, q.2.map .sys))
  | .peek i k =>
    match s.peek i with
    | none => if connected s.sys i then some (s.set i (some (start (.read k))), []) else none
    | some _ => none
  | .look i =>
    match s.peek i with
    | none => none
    | some (.ret r) => some (s.set i none, [.looked i r])
    | some pc => some (s.set i (some (pc.step N H (s.sys.view i)).2), [])

/-- A sequence of steps: the state afterwards and what was seen.  Bookkeeping: calls of coda/shm_hash_map.tcc:117-137 without the lock. -/
def exec (N H : Nat) (s : WSys V) : List (WAct V) → Option (WSys V × List (WEvent V))
  | [] => some (s, [])
  | a :: as =>
    match step N H s a with
    | none => none
    | some (s', es) =>
      match exec N H s' as with
      | none => none
      | some (s'', es') => some (s'', es ++ es')

end Verif.WeakPeek
