/-
  Model of what the classes do when the semaphores are removed by somebody else, `ipcrm -s` or semctl(IPC_RMID), coda/shm_hash_map.tcc:379-522 and
  coda/shm_queue.tcc:187-339, 385-403.

  A removed set is gone at once: processes that wait in semop are woken with EIDRM, later calls fail with EINVAL; the adjustments of SEM_UNDO for it are dropped
  (semctl(2)).  The next connect_sem makes a new set with another number.  The shared memory is not removed.
  Simplifications: connect_sem is one step (its races are C81 and C129); numbers of sets are not used again.
-/
import Verif.RwLock.Model

namespace Verif.IpcRm

/-! ### the hash map -/

/-- A process that uses the map, coda/shm_hash_map.hpp:56-65: where it is, the set it has in `sem_id`, its adjustments for that set. -/
inductive Mode where
  | fresh
  | out
  | reading
  | writing
  | dead
  deriving DecidableEq

/-- See `Mode`.  coda/shm_hash_map.hpp:56-65. -/
structure Proc where
  mode : Mode
  gen : Nat
  adj : RwLock.Vals
  deriving DecidableEq

/-- The set under the key now, the number of the next one, the values of all sets, the processes: coda/shm_hash_map.tcc:379-412. -/
structure Map where
  cur : Option Nat
  next : Nat
  vals : Nat → RwLock.Vals
  procs : List Proc

/-- What can happen: the calls of coda/shm_hash_map.tcc:379-522, the removal of the set, the end of a process. -/
inductive Label where
  | connect (i : Nat)
  | lockR (i : Nat)
  | lockW (i : Nat)
  | unlock (i : Nat)
  | disconnect (i : Nat)
  | rm
  | kill (i : Nat)
  deriving DecidableEq

/-- Process `i = p` calls semop and is in mode `m` afterwards; on a set that is gone semop fails and the call throws: coda/shm_hash_map.tcc:470-473, 484-487, 504-507, 518-521.
The second component: it threw. -/
def Map.sem (s : Map) (i : Nat) (p : Proc) (ops : List RwLock.SemBuf) (m : Mode) : Option (Map × Bool) :=
  if s.cur = some p.gen then
    match RwLock.semop (s.vals p.gen) p.adj ops with
    | some (v, a) => some ({ s with vals := fun g => if g = p.gen then v else s.vals g, procs := s.procs.set i ⟨m, p.gen, a⟩ }, false)
    | none => none
  else some ({ s with procs := s.procs.set i { p with mode := .out, adj := ⟨0, 0⟩ } }, true)

/-- `connect_sem`: coda/shm_hash_map.tcc:394-411. -/
def Map.connect (s : Map) (i : Nat) : Map :=
  match s.cur with
  | some g => { s with procs := s.procs.set i ⟨.out, g, ⟨0, 0⟩⟩ }
  | none => { s with cur := some s.next, next := s.next + 1, vals := fun g => if g = s.next then ⟨0, 0⟩ else s.vals g, procs := s.procs.set i ⟨.out, s.next, ⟨0, 0⟩⟩ }

/-- The end of a process: its adjustments are applied, unless the set is gone.  Environment of coda/shm_hash_map.tcc:459-522. -/
def Map.kill (s : Map) (i : Nat) (p : Proc) : Map :=
  { s with vals := fun g => if g = p.gen ∧ s.cur = some p.gen then RwLock.undo (s.vals p.gen) p.adj else s.vals g, procs := s.procs.set i { p with mode := .dead, adj := ⟨0, 0⟩ } }

/-- The successor, if the step is possible, and whether the call threw: coda/shm_hash_map.tcc:379-522. -/
def Map.step (s : Map) : Label → Option (Map × Bool)
  | .connect i =>
    match s.procs[i]? with
    | some p => if p.mode = .fresh then some (s.connect i, false) else none
    | none => none
  | .lockR i =>
    match s.procs[i]? with
    | some p => if p.mode = .out then s.sem i p RwLock.lock_read_rw .reading else none
    | none => none
  | .lockW i =>
    match s.procs[i]? with
    | some p => if p.mode = .out then s.sem i p RwLock.lock_write_rw .writing else none
    | none => none
  | .unlock i =>
    match s.procs[i]? with
    | some p =>
      if p.mode = .writing then s.sem i p RwLock.unlock_write_rw .out
      else if p.mode = .reading then s.sem i p RwLock.unlock_read_rw .out
      else none
    | none => none
  | .disconnect i =>
    match s.procs[i]? with
    | some p => if p.mode = .out then some ({ s with procs := s.procs.set i { p with mode := .fresh } }, false) else none
    | none => none
  | .rm => some ({ s with cur := none }, false)
  | .kill i =>
    match s.procs[i]? with
    | some p => if p.mode = .dead then none else some (s.kill i p, false)
    | none => none

/-- Bookkeeping: several steps of coda/shm_hash_map.tcc:379-522. -/
def Map.exec (s : Map) : List Label → Option Map
  | [] => some s
  | a :: as =>
    match s.step a with
    | some (s', _) => s'.exec as
    | none => none

/-! ### the critical section of the queue -/

/-- The set under the key now, the next number, the value of SEM_ID_0 of all sets; the processes: inside or not, and the set in `sem_id`, none when not connected.
coda/shm_queue.tcc:187-219. -/
structure Lock where
  cur : Option Nat
  next : Nat
  val : Nat → Int
  procs : List (Bool × Option Nat)

/-- What can happen: the calls of coda/shm_queue.tcc:187-219, 385-403 and the removal of the set. -/
inductive LLabel where
  | connect (i : Nat)
  | lock (i : Nat)
  | unlock (i : Nat)
  | disconnect (i : Nat)
  | rm
  deriving DecidableEq

/-- `lock_queue`, coda/shm_queue.tcc:385-393: the result of semop is not looked at. -/
def Lock.lock (s : Lock) (i g : Nat) : Option Lock :=
  if s.cur = some g then
    if 1 ≤ s.val g then some { s with val := fun h => if h = g then s.val g - 1 else s.val h, procs := s.procs.set i (true, some g) } else none
  else some { s with procs := s.procs.set i (true, some g) }

/-- `unlock_queue`, coda/shm_queue.tcc:395-403. -/
def Lock.unlock (s : Lock) (i g : Nat) : Lock :=
  if s.cur = some g then { s with val := fun h => if h = g then s.val g + 1 else s.val h, procs := s.procs.set i (false, some g) }
  else { s with procs := s.procs.set i (false, some g) }

/-- `connect_sem`, coda/shm_queue.tcc:202-218. -/
def Lock.connect (s : Lock) (i : Nat) : Lock :=
  match s.cur with
  | some g => { s with procs := s.procs.set i (false, some g) }
  | none => { s with cur := some s.next, next := s.next + 1, val := fun h => if h = s.next then 1 else s.val h, procs := s.procs.set i (false, some s.next) }

/-- The successor, if the step is possible: coda/shm_queue.tcc:187-219, 233-249, 385-403. -/
def Lock.step (s : Lock) : LLabel → Option Lock
  | .connect i => if s.procs[i]? = some (false, none) then some (s.connect i) else none
  | .lock i =>
    match s.procs[i]? with
    | some (false, some g) => s.lock i g
    | _ => none
  | .unlock i =>
    match s.procs[i]? with
    | some (true, some g) => some (s.unlock i g)
    | _ => none
  | .disconnect i =>
    match s.procs[i]? with
    | some (false, some _) => some { s with procs := s.procs.set i (false, none) }
    | _ => none
  | .rm => some { s with cur := none }

/-- Bookkeeping: several steps of coda/shm_queue.tcc:187-219, 385-403. -/
def Lock.exec (s : Lock) : List LLabel → Option Lock
  | [] => some s
  | a :: as =>
    match s.step a with
    | some s' => s'.exec as
    | none => none

/-! ### the boxes of the queue -/

/-- The queue between calls: the set under the key now, the next number, the values of SEM_ID_QUEUE_COUNT of all sets, the boxes from `start` to `end` of the ring
(coda/shm_queue.hpp:28-37), which holds `room` boxes. -/
structure Boxes (B : Type) where
  cur : Option Nat
  next : Nat
  count : Nat → Nat
  ring : List B
  room : Nat

variable {B : Type}

/-- `flush` of a handle with the set `g`: coda/shm_queue.tcc:313-339; the result of the semop that counts the box is not looked at. -/
def Boxes.flush (s : Boxes B) (g : Nat) (b : B) : Boxes B :=
  if s.ring.length < s.room then
    { s with ring := s.ring ++ [b], count := fun h => if h = g ∧ s.cur = some g then s.count g + 1 else s.count h }
  else s

/-- `unflush` of a handle with the set `g` that does not wait longer than it has to: coda/shm_queue.tcc:264-299.  semtimedop fails when the count is 0 and when the set is gone. -/
def Boxes.unflush (s : Boxes B) (g : Nat) : Boxes B × Option B :=
  if s.cur = some g ∧ 0 < s.count g then
    ({ s with ring := s.ring.tail, count := fun h => if h = g then s.count g - 1 else s.count h }, s.ring.head?)
  else (s, none)

/-- `connect_sem`: the set of the handle.  coda/shm_queue.tcc:202-218. -/
def Boxes.connect (s : Boxes B) : Boxes B × Nat :=
  match s.cur with
  | some g => (s, g)
  | none => ({ s with cur := some s.next, next := s.next + 1, count := fun h => if h = s.next then 0 else s.count h }, s.next)

/-- The set is removed.  Environment of coda/shm_queue.tcc:187-219. -/
def Boxes.rm (s : Boxes B) : Boxes B := { s with cur := none }

/-- A call on a handle with the set that the process has connected to: coda/shm_queue.hpp:86-90. -/
inductive BCall (B : Type) where
  | flush (b : B)
  | unflush

/-- Bookkeeping: calls of handles with the set `g`, one after the other, and the boxes that unflush gave: coda/shm_queue.tcc:264-339. -/
def Boxes.calls (s : Boxes B) (g : Nat) : List (BCall B) → Boxes B × List (Option B)
  | [] => (s, [])
  | .flush b :: cs => (s.flush g b).calls g cs
  | .unflush :: cs =>
    let r := s.unflush g
    let q := r.1.calls g cs
    (q.1, r.2 :: q.2)

end Verif.IpcRm
