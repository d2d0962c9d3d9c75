/-
  Model of the public lock functions of shm::hash_map (coda/shm_hash_map.hpp:78-82, coda/shm_hash_map.tcc:459-522) as programs may use
  them: sections inside of sections, calls that lock by themselves (`read`, `insert`, `erase`, `clear`, `size`: coda/shm_hash_map.tcc:102-213)
  inside of a section, and fork.  Any number of processes, every interleaving, kills at any point.  The semaphores and `semop` are
  those of Verif/RwLock/Model.lean.  Simplified: what is done to the map inside of the sections is left out.
-/
import Verif.RwLock.Model

namespace Verif.MapNest
open Verif.RwLock

/-- The calls lock_read_rw, unlock_read_rw, lock_write_rw, unlock_write_rw: coda/shm_hash_map.hpp:78-82. -/
inductive Kind where
  | read
  | write
  deriving DecidableEq, Repr

/-- The calls: lock_read_rw, lock_write_rw, unlock_read_rw, unlock_write_rw.  (`read` and `size` are lock_read_rw and unlock_read_rw,
the other operations lock_write_rw and unlock_write_rw.)  The calls lock_read_rw, unlock_read_rw, lock_write_rw, unlock_write_rw: coda/shm_hash_map.hpp:78-82. -/
inductive Call where
  | lock (k : Kind)
  | unlock (k : Kind)
  deriving DecidableEq, Repr

/-- The array that the call gives to semop, coda/shm_hash_map.tcc:459-522. -/
def Call.ops : Call → List SemBuf
  | .lock .read => lock_read_rw
  | .lock .write => lock_write_rw
  | .unlock .read => unlock_read_rw
  | .unlock .write => unlock_write_rw

/-- A process: the locks it has taken and not released, in its own view, the call it is in (semop has not returned), and the
adjustments that the kernel keeps for it.  The processes and semaphores: the sections entered with coda/shm_hash_map.tcc:459-522 and not left yet. -/
structure Proc where
  alive : Bool
  held : List Kind
  wait : Option Call
  adj : Vals
  deriving DecidableEq

/-- The processes and semaphores: the sections entered with coda/shm_hash_map.tcc:459-522 and not left yet. -/
structure State where
  sem : Vals
  procs : List Proc

/-- n connected processes; the semaphores as connect_sem leaves them, coda/shm_hash_map.tcc:401-410. -/
def start (n : Nat) : State := ⟨⟨0, 0⟩, List.replicate n ⟨true, [], none, ⟨0, 0⟩⟩⟩

/-- The processes and semaphores: the sections entered with coda/shm_hash_map.tcc:459-522 and not left yet. -/
inductive Label where
  | call (i : Nat) (c : Call)       -- process i calls; it releases only what it holds, in its own view
  | ret (i : Nat)                   -- semop succeeds, the call returns
  | kill (i : Nat)                  -- process i ends: the kernel applies its adjustments
  | fork (i : Nat) (knows : Bool)   -- process i forks outside of the calls; `knows`: the program of the child goes on as if it held the locks of its parent
  deriving DecidableEq

/-- What the process holds after the call.  Which sections are open after the call; coda/shm_hash_map.tcc:459-522. -/
def Call.after (c : Call) (h : List Kind) : List Kind :=
  match c with
  | .lock k => k :: h
  | .unlock k => h.erase k

/-- Which sections are open after the call; coda/shm_hash_map.tcc:459-522. -/
def Call.legal (c : Call) (h : List Kind) : Bool :=
  match c with
  | .lock _ => true
  | .unlock k => h.contains k

/-- The successor, if the step is possible.  The child of fork(2) has no adjustments (semop(2)).  Bookkeeping: calls of coda/shm_hash_map.tcc:459-522, forks and ends of processes in any order. -/
def step (s : State) : Label → Option State
  | .call i c =>
    match s.procs[i]? with
    | none => none
    | some p =>
      if p.alive && p.wait.isNone && c.legal p.held then
        some { s with procs := s.procs.set i { p with wait := some c } }
      else none
  | .ret i =>
    match s.procs[i]? with
    | none => none
    | some p =>
      match p.wait with
      | none => none
      | some c =>
        match semop s.sem p.adj c.ops with
        | none => none
        | some (v, adj) => some ⟨v, s.procs.set i { p with wait := none, held := c.after p.held, adj := adj }⟩
  | .kill i =>
    match s.procs[i]? with
    | none => none
    | some p => if p.alive then some ⟨undo s.sem p.adj, s.procs.set i ⟨false, [], none, ⟨0, 0⟩⟩⟩ else none
  | .fork i knows =>
    match s.procs[i]? with
    | none => none
    | some p =>
      if p.alive && p.wait.isNone then
        some { s with procs := s.procs ++ [⟨true, if knows then p.held else [], none, ⟨0, 0⟩⟩] }
      else none

/-- Bookkeeping: calls of coda/shm_hash_map.tcc:459-522, forks and ends of processes in any order. -/
def run (s : State) : List Label → Option State
  | [] => some s
  | a :: as =>
    match step s a with
    | none => none
    | some s => run s as

end Verif.MapNest
