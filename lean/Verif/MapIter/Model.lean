/-
  Model of iteration over a shm::hash_map that other processes use at the same time, coda/shm_hash_map.hpp:84-160.

  The iterator takes no lock.  Its code is a program whose steps are single reads of shared memory, as in Verif.MapSys; where the source reads a word twice
  (`pool[position_in_pool].next`, :106 and :108; `hash[i]`, :115 and :118) there are two steps.  These steps interleave with those of all processes of Verif.MapSys.
-/
import Verif.MapSys.Model

namespace Verif.MapIter

open Verif.ShmPool Verif.ShmMap Verif.MapSys

variable {V : Type}

/-- A place in the client's loop `for (it = begin(); it != end(); ++it) { key(); value(); }`.  `h` is position_in_hash, `e` is position_in_pool.  A client's loop over coda/shm_hash_map.hpp:84-160. -/
inductive ItPc where
  | bScan (i : Nat)               -- begin, coda/shm_hash_map.hpp:145-152: i < _HASH_SIZE; el = hash[i]
  | test (h e : Nat)              -- it != end(), :99-102
  | key (h e : Nat)               -- key(), :132-135
  | val (h e : Nat) (k : UInt64)  -- value(), :137-140
  | next1 (h e : Nat)             -- operator++, :106: pool[position_in_pool].next != -1
  | next2 (h e : Nat)             -- :108: position_in_pool = pool[position_in_pool].next
  | scan1 (i : Nat)               -- :113-115: i < _HASH_SIZE; hash[i] != -1
  | scan2 (i : Nat)               -- :117-118: position_in_hash = i; position_in_pool = hash[i]
  | done
  | ub                            -- an access outside of `objects`
  deriving DecidableEq

/-- An iteration: where it is and the entries seen so far.  A client's loop over coda/shm_hash_map.hpp:84-160. -/
structure It (V : Type) where
  pc : ItPc
  seen : List (UInt64 × V)

/-- One step.  Reads are of `m`.  One read of coda/shm_hash_map.hpp:99-155. -/
def It.step (N H : Nat) (m : Map V) (t : It V) : It V :=
  match t.pc with
  | .bScan i => if i < H then (if m.hash i ≠ NONE then { t with pc := .test i (m.hash i) } else { t with pc := .bScan (i + 1) }) else { t with pc := .test NONE NONE }
  | .test h e => if h ≠ NONE ∨ e ≠ NONE then { t with pc := .key h e } else { t with pc := .done }
  | .key h e => if e < N then { t with pc := .val h e (m.key e) } else { t with pc := .ub }
  | .val h e k => { pc := .next1 h e, seen := t.seen ++ [(k, m.val e)] }
  | .next1 h e => if m.next e ≠ NONE then { t with pc := .next2 h e } else { t with pc := .scan1 (h + 1) }
  | .next2 h e => { t with pc := .test h (m.next e) }
  | .scan1 i => if i < H then (if m.hash i ≠ NONE then { t with pc := .scan2 i } else { t with pc := .scan1 (i + 1) }) else { t with pc := .test NONE NONE }
  | .scan2 i => { t with pc := .test i (m.hash i) }
  | .done => t
  | .ub => t

/-- The processes of Verif.MapSys and their iterations (at most one for each process).  Bookkeeping: iterations (coda/shm_hash_map.hpp:84-160) besides the calls of coda/shm_hash_map.tcc:102-325. -/
structure ISys (V : Type) where
  sys : Sys V
  it : Nat → Option (It V)

/-- Bookkeeping: iterations (coda/shm_hash_map.hpp:84-160) besides the calls of coda/shm_hash_map.tcc:102-325. -/
inductive IAct (V : Type) where
  | sys (a : Act V)    -- anything that can happen in Verif.MapSys
  | begin (i : Nat)    -- process `i` calls begin()
  | iter (i : Nat)     -- a step of its iteration

/-- Bookkeeping: iterations (coda/shm_hash_map.hpp:84-160) besides the calls of coda/shm_hash_map.tcc:102-325. -/
def ISys.setIt (s : ISys V) (i : Nat) (t : Option (It V)) : ISys V := { s with it := fun j => if j = i then t else s.it j }

/-- The process is connected, in a critical section or not.  Bookkeeping: iterations (coda/shm_hash_map.hpp:84-160) besides the calls of coda/shm_hash_map.tcc:102-325. -/
def connected (s : Sys V) (i : Nat) : Bool :=
  match s.rw.mode i with
  | some .out | some .reading | some .writing => true
  | _ => false

/-- After a step of Verif.MapSys: the iteration of a killed process is gone.  Bookkeeping: iterations (coda/shm_hash_map.hpp:84-160) besides the calls of coda/shm_hash_map.tcc:102-325. -/
def afterSys (s : ISys V) (sys : Sys V) : Act V → ISys V
  | .kill i => ({ s with sys := sys } : ISys V).setIt i none
  | _ => { s with sys := sys }

/-- The successor, if the step is possible, and what is seen of it: an iteration that reaches end() has seen its list.  Bookkeeping: iterations (coda/shm_hash_map.hpp:84-160) besides the calls of coda/shm_hash_map.tcc:102-325. -/
def step (N H : Nat) (s : ISys V) : IAct V → Option (ISys V × List (Event V))
  | .sys a => (MapSys.step N H s.sys a).map (fun q => (afterSys s q.1 a, q.2))
  | .begin i =>
    match s.it i with
    | none => if connected s.sys i then some (s.setIt i (some ⟨.bScan 0, []⟩), []) else none
    | some _ => none
  | .iter i =>
    match s.it i with
    | none => none
    | some t =>
      if t.pc = .done then some (s.setIt i none, [.iterated i t.seen])
      else some (s.setIt i (some (t.step N H s.sys.rw.mem)), [])

/-- A sequence of steps: the state afterwards and what was seen.  Bookkeeping: iterations (coda/shm_hash_map.hpp:84-160) besides the calls of coda/shm_hash_map.tcc:102-325. -/
def exec (N H : Nat) (s : ISys V) : List (IAct V) → Option (ISys V × List (Event V))
  | [] => some (s, [])
  | a :: as =>
    match step N H s a with
    | none => none
    | some (s', es) =>
      match exec N H s' as with
      | none => none
      | some (s'', es') => some (s'', es ++ es')

end Verif.MapIter
