/-
  Model of coda/shm_queue.{hpp,tcc}: a ring of boxes in shared memory with two semaphores, as a transition system: any number of processes,
  every interleaving of single memory accesses, kills, interrupted system calls.

  `size` is info->size, `bs` is info->box_size (both never change after connect).  The semaphores are those of Verif/RwLock/Model.lean:
  number 0 (SEM_ID_0) is `Num.R`, number 1 (SEM_ID_QUEUE_COUNT) is `Num.W`.
  The fields `acc`, `rcv`, `lost` are history: what was accepted and received in order, and how many units of the counting semaphore were
  lost by kills or by a failed semop; no step depends on them.
-/
import Verif.RwLock.Model

namespace Verif.ShmQueue

open RwLock (Vals SemBuf semop undo)

/-- Where a process is inside `flush` (f…) or `unflush` (u…); `k` counts copied bytes.  The places of flush and unflush: coda/shm_queue.tcc:264-299, 313-339. -/
inductive Mode where
  | idle
  | f0            -- flush: before lock_queue
  | f1            -- before the test for a full ring
  | f2 (k : Nat)  -- copy_to: `k` bytes copied
  | f4            -- after `info->end++`
  | f5            -- after `info->end %= info->size`
  | f6            -- before unlock_queue
  | u0            -- unflush: before semtimedop
  | u1            -- before lock_queue
  | u2 (k : Nat)  -- copy_from: `k` bytes copied
  | u3 (k : Nat)  -- memset: `k` bytes cleared
  | u5            -- after `info->start++`
  | u6            -- before unlock_queue
  | dead
  deriving DecidableEq

/-- A process: its current_box and its semaphore adjustments.  The segment (coda/shm_queue.hpp:28-37, 64), the semaphores and the current boxes (:62) of the processes. -/
structure Proc where
  mode : Mode
  cb : List UInt8
  adj : Vals

/-- Shared state.  The segment (coda/shm_queue.hpp:28-37, 64), the semaphores and the current boxes (:62) of the processes. -/
structure State where
  start : Nat
  end_ : Nat
  mem : Nat → UInt8
  sem : Vals
  procs : List Proc
  ub : Bool
  acc : List (List UInt8)
  rcv : List (List UInt8)
  lost : Nat

/-- Bookkeeping: the accesses of coda/shm_queue.tcc:264-299, 313-339 in any order, signals and timeouts. -/
inductive Label where
  | flush (i : Nat) (b : List UInt8)   -- process `i` calls flush with `b` in its current box
  | unflush (i : Nat)                  -- process `i` calls unflush
  | timeout (i : Nat)                  -- semtimedop of unflush fails: coda/shm_queue.tcc:279-282
  | adv (i : Nat)                      -- the next access of process `i`
  | intr (i : Nat)                     -- the semop of lock_queue is interrupted by a signal; its result is ignored: coda/shm_queue.tcc:385-393
  | kill (i : Nat)

/-- The segment (coda/shm_queue.hpp:28-37, 64), the semaphores and the current boxes (:62) of the processes. -/
def State.upd (s : State) (i : Nat) (p : Proc) : State := { s with procs := s.procs.set i p }

/-- `lock_queue`, coda/shm_queue.tcc:385-393. -/
def lock_queue : List SemBuf := [⟨.R, -1, true⟩]

/-- `unlock_queue`, coda/shm_queue.tcc:395-403. -/
def unlock_queue : List SemBuf := [⟨.R, 1, true⟩]

/-- coda/shm_queue.tcc:326-330. -/
def count_up : List SemBuf := [⟨.W, 1, false⟩]

/-- coda/shm_queue.tcc:269-272 (sem_flg without SEM_UNDO). -/
def count_down : List SemBuf := [⟨.W, -1, false⟩]

/-- A blocking `semop`: no step while it waits.  Environment: semop(2) and semtimedop(2), called at coda/shm_queue.tcc:279, 330, 392, 402. -/
def State.doSem (s : State) (i : Nat) (p : Proc) (ops : List SemBuf) (m : Mode) : Option State :=
  match semop s.sem p.adj ops with
  | some (v, adj) => some ({ s with sem := v }.upd i { p with mode := m, adj := adj })
  | none => none

/-- `ptr[k]` with `ptr = boxes + x * info->box_size` (uint32_t product).  `boxes + i * info->box_size`: coda/shm_queue.tcc:286, 321. -/
def addr (bs x k : Nat) : Nat := (x * bs) % 2 ^ 32 + k

/-- Store to the boxes; outside of them it is undefined behaviour.  The segment (coda/shm_queue.hpp:28-37, 64), the semaphores and the current boxes (:62) of the processes. -/
def State.store (size bs : Nat) (s : State) (a : Nat) (v : UInt8) : State :=
  if a < size * bs then { s with mem := fun x => if x = a then v else s.mem x } else { s with ub := true }

/-- One access of process `i`, coda/shm_queue.tcc:264-299 (unflush), 313-339 (flush). -/
def adv (size bs : Nat) (s : State) (i : Nat) (p : Proc) : Option State :=
  match p.mode with
  | .idle => none
  | .dead => none
  | .f0 => s.doSem i p lock_queue .f1
  | .f1 =>
    if size = 0 then some { s with ub := true }
    else if ((s.end_ + 1) % 2 ^ 32) % size ≠ s.start then some (s.upd i { p with mode := .f2 0 })
    else some (s.upd i { p with mode := .f6 })
  | .f2 k =>
    if k < bs then some ((s.store size bs (addr bs s.end_ k) (p.cb.getD k 0)).upd i { p with mode := .f2 (k + 1) })
    else some ({ s with end_ := (s.end_ + 1) % 2 ^ 32, acc := s.acc ++ [p.cb] }.upd i { p with mode := .f4 })
  | .f4 => if size = 0 then some { s with ub := true } else some ({ s with end_ := s.end_ % size }.upd i { p with mode := .f5 })
  | .f5 =>
    match semop s.sem p.adj count_up with
    | some (v, adj) => some ({ s with sem := v }.upd i { p with mode := .f6, adj := adj })
    | none => some ({ s with lost := s.lost + 1 }.upd i { p with mode := .f6 })
  | .f6 => s.doSem i { p with cb := List.replicate bs 0 } unlock_queue .idle
  | .u0 => s.doSem i p count_down .u1
  | .u1 => s.doSem i p lock_queue (.u2 0)
  | .u2 k =>
    if k < bs then
      if addr bs s.start k < size * bs then
        some (s.upd i { p with mode := .u2 (k + 1), cb := p.cb.set k (s.mem (addr bs s.start k)) })
      else some { s with ub := true }
    else some (s.upd i { p with mode := .u3 0 })
  | .u3 k =>
    if k < bs then some ((s.store size bs (addr bs s.start k) 0).upd i { p with mode := .u3 (k + 1) })
    else some ({ s with start := (s.start + 1) % 2 ^ 32, rcv := s.rcv ++ [p.cb] }.upd i { p with mode := .u5 })
  | .u5 => if size = 0 then some { s with ub := true } else some ({ s with start := s.start % size }.upd i { p with mode := .u6 })
  | .u6 => s.doSem i p unlock_queue .idle

/-- Does the process have taken (unflush) or not yet given (flush) a unit of the counting semaphore?.  The places of flush and unflush: coda/shm_queue.tcc:264-299, 313-339. -/
def Mode.unit : Mode → Bool
  | .f4 | .f5 | .u1 | .u2 _ | .u3 _ => true
  | _ => false

/-- The successor, if the step is possible.  Bookkeeping: the accesses of coda/shm_queue.tcc:264-299, 313-339 in any order, signals and timeouts. -/
def step (size bs : Nat) (s : State) : Label → Option State
  | .flush i b =>
    match s.procs[i]? with
    | some p => if p.mode = .idle ∧ b.length = bs then some (s.upd i { p with mode := .f0, cb := b }) else none
    | none => none
  | .unflush i =>
    match s.procs[i]? with
    | some p => if p.mode = .idle then some (s.upd i { p with mode := .u0 }) else none
    | none => none
  | .timeout i =>
    match s.procs[i]? with
    | some p => if p.mode = .u0 then some (s.upd i { p with mode := .idle }) else none
    | none => none
  | .adv i =>
    match s.procs[i]? with
    | some p => adv size bs s i p
    | none => none
  | .intr i =>
    match s.procs[i]? with
    | some p =>
      if p.mode = .f0 then some (s.upd i { p with mode := .f1 })
      else if p.mode = .u1 then some (s.upd i { p with mode := .u2 0 })
      else none
    | none => none
  | .kill i =>
    match s.procs[i]? with
    | some p =>
      if p.mode = .dead then none
      else some ({ s with sem := undo s.sem p.adj, lost := s.lost + (if p.mode.unit then 1 else 0) }.upd i
        { p with mode := .dead, adj := ⟨0, 0⟩ })
    | none => none

/-- Bookkeeping: the accesses of coda/shm_queue.tcc:264-299, 313-339 in any order, signals and timeouts. -/
def exec (size bs : Nat) (s : State) : List Label → Option State
  | [] => some s
  | a :: as =>
    match step size bs s a with
    | some s' => exec size bs s' as
    | none => none

end Verif.ShmQueue
