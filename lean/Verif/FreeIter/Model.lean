import Verif.MapFree.Model
import Verif.MapIter.Model
/-
  Model of loops with an iterator (coda/shm_hash_map.hpp:84-160) over a map that is changed without any lock: `unprotected_insert`, `unprotected_erase` and `unprotected_read`,
  coda/shm_hash_map.hpp:74-76, coda/shm_hash_map.tcc:117-137, 221-325, as in Verif.MapFree.  The steps of the loop are those of Verif.MapIter.
-/
namespace Verif.FreeIter

open Verif.ShmPool Verif.ShmMap Verif.MapSys
open Verif.MapFree (FAct FEvent FSys)
open Verif.MapIter (It)

variable {V : Type}

/-- The processes of Verif.MapFree and their iterations (at most one for each process).  Bookkeeping: iterations (coda/shm_hash_map.hpp:84-160) besides the calls of
coda/shm_hash_map.tcc:117-137, 221-325. -/
structure ISys (V : Type) where
  free : FSys V
  it : Nat → Option (It V)

/-- A step of a call, or of a loop.  Bookkeeping: iterations (coda/shm_hash_map.hpp:84-160) besides the calls of coda/shm_hash_map.tcc:117-137, 221-325. -/
inductive IAct (V : Type) where
  | free (a : FAct V)  -- anything that can happen in Verif.MapFree
  | begin (i : Nat)    -- process `i` calls begin()
  | iter (i : Nat)     -- a step of its iteration

/-- What is seen: calls and returns, and the list of entries a loop has met when it reaches end().  Bookkeeping: iterations (coda/shm_hash_map.hpp:84-160) besides the calls of
coda/shm_hash_map.tcc:117-137, 221-325. -/
inductive IEvent (V : Type) where
  | free (e : FEvent V)
  | iterated (i : Nat) (l : List (UInt64 × V))

/-- Bookkeeping: iterations (coda/shm_hash_map.hpp:84-160) besides the calls of coda/shm_hash_map.tcc:117-137, 221-325. -/
def ISys.setIt (s : ISys V) (i : Nat) (t : Option (It V)) : ISys V := { s with it := fun j => if j = i then t else s.it j }

/-- The successor, if the step is possible, and what is seen of it.  A step of a call (coda/shm_hash_map.tcc:117-137, 221-325), begin() (coda/shm_hash_map.hpp:143-154), or a step of a loop
(coda/shm_hash_map.hpp:84-160). -/
def step (N H : Nat) (s : ISys V) : IAct V → Option (ISys V × List (IEvent V))
  | .free a =>
    match MapFree.step N H s.free a with
    | none => none
    | some (f, es) => some ({ s with free := f }, es.map .free)
  | .begin i =>
    match s.it i with
    | none => some (s.setIt i (some ⟨.bScan 0, []⟩), [])
    | some _ => none
  | .iter i =>
    match s.it i with
    | none => none
    | some t =>
      if t.pc = .done then some (s.setIt i none, [.iterated i t.seen])
      else some (s.setIt i (some (t.step N H s.free.mem)), [])

/-- A sequence of steps: the state afterwards and what was seen.  Bookkeeping: iterations (coda/shm_hash_map.hpp:84-160) besides the calls of coda/shm_hash_map.tcc:117-137, 221-325. -/
def exec (N H : Nat) (s : ISys V) : List (IAct V) → Option (ISys V × List (IEvent V))
  | [] => some (s, [])
  | a :: as =>
    match step N H s a with
    | none => none
    | some (s', es) =>
      match exec N H s' as with
      | none => none
      | some (s'', es') => some (s'', es ++ es')

end Verif.FreeIter
