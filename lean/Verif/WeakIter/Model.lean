import Verif.MapWeak.Model
import Verif.MapIter.Model
/-
  Model of iteration over a shm::hash_map, coda/shm_hash_map.hpp:84-160, on processors that delay and reorder stores.

  The memory, its views and the calls are those of Verif.MapWeak; the loop is that of Verif.MapIter.  begin(), ++ and the accessors make no system call: they read the view of
  their process, one word in each step.
-/
namespace Verif.WeakIter

open Verif.ShmPool Verif.ShmMap Verif.MapSys
open Verif.MapIter (It)

variable {V : Type}

/-- The processes of Verif.MapWeak and their iterations (at most one for each process).  Bookkeeping: iterations (coda/shm_hash_map.hpp:84-160) besides the calls of coda/shm_hash_map.tcc:102-325. -/
structure ISys (V : Type) where
  sys : MapWeak.Sys V
  it : Nat → Option (It V)

/-- Bookkeeping: iterations (coda/shm_hash_map.hpp:84-160) besides the calls of coda/shm_hash_map.tcc:102-325. -/
inductive IAct (V : Type) where
  | sys (a : MapWeak.Act V) -- anything that can happen in Verif.MapWeak
  | begin (i : Nat)         -- process `i` calls begin()
  | iter (i : Nat)          -- a step of its iteration

/-- Bookkeeping: iterations (coda/shm_hash_map.hpp:84-160) besides the calls of coda/shm_hash_map.tcc:102-325. -/
def ISys.setIt (s : ISys V) (i : Nat) (t : Option (It V)) : ISys V := { s with it := fun j => if j = i then t else s.it j }

/-- The process is connected, in a critical section or not.  Bookkeeping: iterations (coda/shm_hash_map.hpp:84-160) besides the calls of coda/shm_hash_map.tcc:102-325. -/
def connected (s : MapWeak.Sys V) (i : Nat) : Bool :=
  match s.lk.mode i with
  | some .out | some .reading | some .writing => true
  | _ => false

/-- After a step of Verif.MapWeak: the iteration of a killed process is gone.  Bookkeeping: iterations (coda/shm_hash_map.hpp:84-160) besides the calls of coda/shm_hash_map.tcc:102-325. -/
def afterSys (s : ISys V) (sys : MapWeak.Sys V) : MapWeak.Act V → ISys V
  | .act (.kill i) => ({ s with sys := sys } : ISys V).setIt i none
  | _ => { s with sys := sys }

/-- The successor, if the step is possible, and what is seen of it: an iteration that reaches end() has seen its list.  coda/shm_hash_map.hpp:84-160: one read of shared memory. -/
def step (N H : Nat) (s : ISys V) : IAct V → Option (ISys V × List (Event V))
  | .sys a => (MapWeak.step N H s.sys a).map (fun q => (afterSys s q.1 a, q.2))
  | .begin i =>
    match s.it i with
    | none => if connected s.sys i then some (s.setIt i (some ⟨.bScan 0, []⟩), []) else none
    | some _ => none
  | .iter i =>
    match s.it i with
    | none => none
    | some t =>
      if t.pc = .done then some (s.setIt i none, [.iterated i t.seen])
      else some (s.setIt i (some (t.step N H (s.sys.view i))), [])

/-- A sequence of steps: the state afterwards and what was seen.  Bookkeeping: iterations (coda/shm_hash_map.hpp:84-160) besides the calls of coda/shm_hash_map.tcc:102-325. -/
def exec (N H : Nat) (s : ISys V) : List (IAct V) → Option (ISys V × List (Event V))
  | [] => some (s, [])
  | a :: as =>
    match step N H s a with
    | none => none
    | some (s', es) =>
      match exec N H s' as with
      | none => none
      | some (s'', es') => some (s'', es ++ es')

end Verif.WeakIter
