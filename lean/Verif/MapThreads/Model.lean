/-
  Model of threads that use a shared hash map, coda/shm_hash_map.tcc:102-325, 459-522: any number of processes, each with any number of threads,
  which make calls at the same time on one object of class shm::hash_map (or on one each: an object holds addresses and the number of the semaphores, which no
  call changes, coda/shm_hash_map.hpp:56-65).

  Over Verif.MapSys, whose "processes" are the threads here.  The difference is what the kernel does: the adjustments of SEM_UNDO belong to the process, not to the
  thread (threads are made with CLONE_SYSVSEM), and are applied once, when the process ends, with all its threads.  A thread can end alone: it is cancelled or throws inside of a
  section, and nothing is undone.
  Simplification: a thread that leaves a section without releasing the lock makes no further call.
-/
import Verif.MapSys.Model

namespace Verif.MapThreads

open Verif.ShmPool Verif.ShmMap
open Verif.MapSys (Call Pend Event Loc)

variable {V : Type}

/-- The semaphores, the memory and the threads (their fields `adj` are not used); the adjustments of each process; the threads that have left a section without a release.
coda/shm_hash_map.tcc:459-522 (SEM_UNDO). -/
structure Sys (V : Type) where
  sys : MapSys.Sys V
  padj : Nat → RwLock.Vals
  gone : Nat → Bool

/-- What can happen: the steps of Verif.MapSys for a thread, coda/shm_hash_map.tcc:102-213; a thread ends where it is; a process is killed; a thread in place of a dead one. -/
inductive Act (V : Type) where
  | connect (i : Nat)
  | call (i : Nat) (c : Call V)
  | lock (i : Nat)
  | body (i : Nat)
  | unlock (i : Nat)
  | ret (i : Nat)
  | exit (i : Nat)       -- an exception of `_Type`'s assignment (coda/shm_hash_map.tcc:127, :233, :251, :270) or the end of the thread in a section of its own
  | kill (P : Nat)
  | spawn (i : Nat)

/-- A `semop` of thread `i = p` of process `P`: coda/shm_hash_map.tcc:470, 484, 504, 518.  The adjustments are those of the process. -/
def Sys.sem (t : Sys V) (P i : Nat) (p : RwLock.Proc (Loc V)) (ops : List RwLock.SemBuf) (m : RwLock.Mode) (l : Loc V) : Option (Sys V) :=
  match RwLock.semop t.sys.rw.sem (t.padj P) ops with
  | some (v, a) => some { t with
      sys := { t.sys with rw := { t.sys.rw with sem := v, procs := t.sys.rw.procs.set i { p with mode := m, loc := l } } }
      padj := fun Q => if Q = P then a else t.padj Q }
  | none => none

/-- The threads of a process end: those from number `k` on.  Environment: the end of a process that uses coda/shm_hash_map.tcc:102-213. -/
def killAll (own : Nat → Nat) (P : Nat) : Nat → List (RwLock.Proc (Loc V)) → List (RwLock.Proc (Loc V))
  | _, [] => []
  | k, p :: ps => (if own k = P ∧ p.mode ≠ .dead then { p with mode := .dead } else p) :: killAll own P (k + 1) ps

/-- The numbers of these threads.  Environment: the end of a process that uses coda/shm_hash_map.tcc:102-213. -/
def victims (own : Nat → Nat) (P : Nat) : Nat → List (RwLock.Proc (Loc V)) → List Nat
  | _, [] => []
  | k, p :: ps => if own k = P ∧ p.mode ≠ .dead then k :: victims own P (k + 1) ps else victims own P (k + 1) ps

/-- A process ends: its threads end where they are, and its adjustments are applied.  coda/shm_hash_map.tcc:459-522 (SEM_UNDO). -/
def Sys.kill (own : Nat → Nat) (t : Sys V) (P : Nat) : Sys V := { t with
  sys := {
    rw := { t.sys.rw with sem := RwLock.undo t.sys.rw.sem (t.padj P), procs := killAll own P 0 t.sys.rw.procs }
    pend := fun i => if i ∈ victims own P 0 t.sys.rw.procs then .idle else t.sys.pend i }
  padj := fun Q => if Q = P then ⟨0, 0⟩ else t.padj Q
  gone := fun i => if i ∈ victims own P 0 t.sys.rw.procs then false else t.gone i }

/-- A step of a thread that does not touch the semaphores: as in Verif.MapSys, coda/shm_hash_map.tcc:102-213. -/
def Sys.plain (N H : Nat) (t : Sys V) (a : MapSys.Act V) : Option (Sys V × List (Event V)) :=
  (MapSys.step N H t.sys a).map (fun r => ({ t with sys := r.1 }, r.2))

/-- The successor, if the step is possible, and what is seen of it; thread `i` belongs to process `own i`.  coda/shm_hash_map.tcc:102-213: every call is lock, body, unlock, return. -/
def step (own : Nat → Nat) (N H : Nat) (t : Sys V) : Act V → Option (Sys V × List (Event V))
  | .connect i => if t.gone i then none else t.plain N H (.connect i)
  | .call i c => if t.gone i then none else t.plain N H (.call i c)
  | .lock i =>
    if t.gone i then none
    else match t.sys.pend i, t.sys.rw.procs[i]? with
    | .called c, some p =>
      if p.mode = .out then
        (if c.reads then t.sem (own i) i p RwLock.lock_read_rw .reading (.begin c) else t.sem (own i) i p RwLock.lock_write_rw .writing (.begin c)).map (fun t => (t, []))
      else none
    | _, _ => none
  | .body i => if t.gone i then none else t.plain N H (.body i)
  | .unlock i =>
    if t.gone i then none
    else match t.sys.pend i, t.sys.rw.procs[i]? with
    | .called c, some p =>
      if p.loc.finished then
        (if p.mode = .writing then t.sem (own i) i p RwLock.unlock_write_rw .out p.loc
         else if p.mode = .reading then t.sem (own i) i p RwLock.unlock_read_rw .out p.loc
         else none).map (fun t => ({ t with sys := t.sys.setPend i (.returning (c.result p.loc)) }, []))
      else none
    | _, _ => none
  | .ret i => if t.gone i then none else t.plain N H (.ret i)
  | .exit i => if t.gone i then none else some ({ t with gone := fun j => if j = i then true else t.gone j }, [])
  | .kill P => some (t.kill own P, (victims own P 0 t.sys.rw.procs).map .killed)
  | .spawn i => if t.gone i then none else t.plain N H (.spawn i)

/-- A sequence of steps: the state afterwards and what was seen.  Bookkeeping: threads that make calls of coda/shm_hash_map.tcc:102-213 in any order. -/
def exec (own : Nat → Nat) (N H : Nat) (t : Sys V) : List (Act V) → Option (Sys V × List (Event V))
  | [] => some (t, [])
  | a :: as =>
    match step own N H t a with
    | none => none
    | some (t', es) =>
      match exec own N H t' as with
      | none => none
      | some (t'', es') => some (t'', es ++ es')

end Verif.MapThreads
