/-
  Model of shm_queue::queue<>::connect (coda/shm_queue.tcc:119-174, 187-231) step by step, for any number of processes that connect to one key file with the same parameters, at
  any time, while others use the queue or are killed.

  System V semaphores: semget with IPC_CREAT makes a set of two values 0, or finds the one that is there; SETVAL sets a value and clears the adjustments of every process for it; an
  operation with SEM_UNDO is undone when its process ends.  Shared memory segments are zero when they are made.
  What the connected processes do with the queue is arbitrary: any change `f` of the memory behind the parameters (`D`: start, end, registers, boxes) inside a critical section, and any
  change of the counting semaphore.  Interrupted semop calls: C82.  Other parameters: C106.
-/
namespace Verif.QueueMake

/-- Where a process is.  The places of coda/shm_queue.tcc:119-174, 187-231. -/
inductive Mode where
  | out              -- not connected
  | c1               -- connect_sem: semget(key, 2, 0) failed, before semget(key, 2, IPC_CREAT): coda/shm_queue.tcc:202-204
  | c2               -- before SETVAL of SEM_ID_0: :209
  | c3               -- before SETVAL of SEM_ID_QUEUE_COUNT: :214
  | c4               -- before lock_queue: :228
  | s0               -- connect_shm: before shmget without IPC_CREAT: :136
  | s1               -- before shmget with IPC_CREAT: :138
  | s2 (created : Bool) -- attached, before `if (created)` and memset: :155-157
  | s3               -- before info->box_size = BOX_SIZE: :158
  | s4               -- before info->size = MAX_BOXES_IN_QUEUE: :159
  | s5               -- before the comparison of the parameters: :164
  | s6               -- before unlock_queue: :230
  | idle             -- connected, in no critical section
  | inside           -- connected, between lock_queue and unlock_queue of some operation
  | crashed          -- NULL dereferenced (info is 0): :167-169
  | dead
  deriving DecidableEq

/-- The segment: the two parameters and the rest, coda/shm_queue.hpp:28-37. -/
structure Seg (D : Type) where
  box_size : Nat
  size : Nat
  mem : D

/-- `sem`: the values of SEM_ID_0 and SEM_ID_QUEUE_COUNT, if the set exists; `adj`: the adjustments for SEM_ID_0. -/
structure State (D : Type) where
  sem : Option (Int × Int)
  shm : Option (Seg D)
  mode : Nat → Mode
  adj : Nat → Int

variable {D : Type}

/-- Nothing exists, nobody is connected.  Bookkeeping: processes that connect (coda/shm_queue.tcc:221-231) and disconnect (:233-249) in any order. -/
def init : State D := ⟨none, none, fun _ => .out, fun _ => 0⟩

/-- Bookkeeping: processes that connect (coda/shm_queue.tcc:221-231) and disconnect (:233-249) in any order. -/
inductive Label (D : Type) where
  | adv (i : Nat)                -- the next step of connect
  | enter (i : Nat)              -- lock_queue of an operation
  | body (i : Nat) (f : D → D)   -- a step inside the critical section
  | leave (i : Nat)              -- unlock_queue
  | count (i : Nat) (x : Int)    -- semop on the counting semaphore
  | disconnect (i : Nat)         -- coda/shm_queue.tcc:233-249
  | kill (i : Nat)

/-- Bookkeeping: processes that connect (coda/shm_queue.tcc:221-231) and disconnect (:233-249) in any order. -/
def upd {A : Type} (f : Nat → A) (i : Nat) (x : A) : Nat → A := fun j => if j = i then x else f j

/-- Bookkeeping: processes that connect (coda/shm_queue.tcc:221-231) and disconnect (:233-249) in any order. -/
def State.go (s : State D) (i : Nat) (m : Mode) : State D := { s with mode := upd s.mode i m }

/-- The largest value of a semaphore, semop(2) called at coda/shm_queue.tcc:392, 402. -/
def SEMVMX : Int := 32767

/-- lock_queue, coda/shm_queue.tcc:385-393; none: it waits. -/
def State.lock (s : State D) (i : Nat) (m : Mode) : Option (State D) :=
  match s.sem with
  | some (l, c) => if 1 ≤ l then some ({ s with sem := some (l - 1, c), adj := upd s.adj i (s.adj i + 1) }.go i m) else none
  | none => none

/-- unlock_queue, coda/shm_queue.tcc:395-403; its failure (ERANGE) is ignored. -/
def State.unlock (s : State D) (i : Nat) (m : Mode) : Option (State D) :=
  match s.sem with
  | some (l, c) =>
    if l + 1 ≤ SEMVMX then some ({ s with sem := some (l + 1, c), adj := upd s.adj i (s.adj i - 1) }.go i m) else some (s.go i m)
  | none => none

/-- The process ends: its adjustment is added, a negative value becomes 0. -/
def State.fin (s : State D) (i : Nat) (m : Mode) : State D :=
  { s with sem := s.sem.map (fun (v : Int × Int) => (if v.1 + s.adj i < 0 then 0 else v.1 + s.adj i, v.2)), adj := upd s.adj i 0 }.go i m

/-- The next step of connect(bs, n) in process `i`, coda/shm_queue.tcc:119-174, 187-231 (ftok, shmat and the system calls do not fail for another reason); `zero` is the memory of a new segment. -/
def adv (bs n : Nat) (zero : D) (s : State D) (i : Nat) : Option (State D) :=
  match s.mode i with
  | .out => some (s.go i (if s.sem.isSome then .c4 else .c1))
  | .c1 => some ({ s with sem := some (s.sem.getD (0, 0)) }.go i .c2)
  | .c2 => some ({ s with sem := s.sem.map (fun (v : Int × Int) => (1, v.2)), adj := fun _ => 0 }.go i .c3)
  | .c3 => some ({ s with sem := s.sem.map (fun (v : Int × Int) => (v.1, 0)) }.go i .c4)
  | .c4 => s.lock i .s0
  | .s0 => some (s.go i (if s.shm.isSome then .s2 false else .s1))
  | .s1 => some ({ s with shm := some (s.shm.getD ⟨0, 0, zero⟩) }.go i (.s2 true))
  | .s2 true => some ({ s with shm := some ⟨0, 0, zero⟩ }.go i .s3)
  | .s2 false => some (s.go i .s5)
  | .s3 => some ({ s with shm := s.shm.map (fun (g : Seg D) => { g with box_size := bs }) }.go i .s4)
  | .s4 => some ({ s with shm := s.shm.map (fun (g : Seg D) => { g with size := n }) }.go i .s5)
  | .s5 =>
    match s.shm with
    | some g => if bs ≠ g.box_size ∨ n ≠ g.size then some (s.fin i .crashed) else some (s.go i .s6)
    | none => none
  | .s6 => s.unlock i .idle
  | .idle => none
  | .inside => none
  | .crashed => none
  | .dead => none

/-- The successor, if the step is possible: connect, and the shape of every operation of a connected queue (lock_queue, accesses, unlock_queue; semop on the counting semaphore),
coda/shm_queue.tcc:251-403. -/
def step (bs n : Nat) (zero : D) (s : State D) : Label D → Option (State D)
  | .adv i => adv bs n zero s i
  | .enter i => if s.mode i = .idle then s.lock i .inside else none
  | .body i f =>
    if s.mode i = .inside then some { s with shm := s.shm.map (fun (g : Seg D) => { g with mem := f g.mem }) } else none
  | .leave i => if s.mode i = .inside then s.unlock i .idle else none
  | .count i x =>
    match s.sem with
    | some (l, c) =>
      if (s.mode i = .idle ∨ s.mode i = .inside) ∧ 0 ≤ c + x ∧ c + x ≤ SEMVMX then some { s with sem := some (l, c + x) } else none
    | none => none
  | .disconnect i => if s.mode i = .idle then some (s.go i .out) else none
  | .kill i => if s.mode i = .dead ∨ s.mode i = .crashed then none else some (s.fin i .dead)

/-- Bookkeeping: processes that connect (coda/shm_queue.tcc:221-231) and disconnect (:233-249) in any order. -/
def exec (bs n : Nat) (zero : D) (s : State D) : List (Label D) → Option (State D)
  | [] => some s
  | a :: as =>
    match step bs n zero s a with
    | some t => exec bs n zero t as
    | none => none

end Verif.QueueMake
