/-
  Model of the reader/writer lock of shm::hash_map, coda/shm_hash_map.tcc:379-412, 459-522 (connect_sem, lock_*, unlock_*), as a transition system:
  any number of processes, every interleaving of their steps, kills at any point.

  The kernel's System V semaphores: an array of two values; `semop` executes an array of operations atomically or blocks; with SEM_UNDO
  the kernel keeps an adjustment per process and applies it when the process ends; SETVAL sets a value and clears the adjustments of
  every process for that semaphore (semop(2), semctl(2)).

  The protected memory `M` and the local state `L` of the code inside a critical section are arbitrary: `wbody` is one step of a writer's
  body (it reads and writes memory), `rbody` one step of a reader's body (it only reads memory).
-/
namespace Verif.RwLock

/-- mySEM_R, mySEM_W of coda/shm_hash_map.tcc:3-4. -/
inductive Num where
  | R
  | W
  deriving DecidableEq

/-- `struct sembuf`.  struct sembuf: coda/shm_hash_map.tcc:462-468, 479-482, 493-502, 513-516. -/
structure SemBuf where
  num : Num
  op : Int
  undo : Bool

/-- The two values (of the set or of a process's adjustments).  The two semaphores of coda/shm_hash_map.tcc:3-4. -/
structure Vals where
  r : Int
  w : Int
  deriving DecidableEq

/-- The two semaphores of coda/shm_hash_map.tcc:3-4. -/
def Vals.get (v : Vals) : Num → Int
  | .R => v.r
  | .W => v.w

/-- The two semaphores of coda/shm_hash_map.tcc:3-4. -/
def Vals.set (v : Vals) : Num → Int → Vals
  | .R, x => { v with r := x }
  | .W, x => { v with w := x }

/-- SEMVMX.  Environment: semop(2) with SEM_UNDO as called at coda/shm_hash_map.tcc:470, 484, 504, 518, and semctl(SETVAL) at :402, :407. -/
def SEMVMX : Int := 32767

/-- One operation of `semop`; `none`: it has to wait (or fails with ERANGE).  Environment: semop(2) with SEM_UNDO as called at coda/shm_hash_map.tcc:470, 484, 504, 518, and semctl(SETVAL) at :402, :407. -/
def semop1 (v : Int) (op : Int) : Option Int :=
  if op = 0 then (if v = 0 then some v else none)
  else if 0 ≤ v + op ∧ v + op ≤ SEMVMX then some (v + op)
  else none

/-- `semop(sem_id, ops, n)`: all operations or none; values and adjustments of the calling process afterwards.  Environment: semop(2) with SEM_UNDO as called at coda/shm_hash_map.tcc:470, 484, 504, 518, and semctl(SETVAL) at :402, :407. -/
def semop (v adj : Vals) : List SemBuf → Option (Vals × Vals)
  | [] => some (v, adj)
  | b :: bs =>
    match semop1 (v.get b.num) b.op with
    | none => none
    | some x => semop (v.set b.num x) (if b.undo then adj.set b.num (adj.get b.num - b.op) else adj) bs

/-- `lock_read_rw`, coda/shm_hash_map.tcc:459-474. -/
def lock_read_rw : List SemBuf := [⟨.W, 0, true⟩, ⟨.R, 1, true⟩]

/-- `unlock_read_rw`, coda/shm_hash_map.tcc:476-488. -/
def unlock_read_rw : List SemBuf := [⟨.R, -1, true⟩]

/-- `lock_write_rw`, coda/shm_hash_map.tcc:490-508. -/
def lock_write_rw : List SemBuf := [⟨.R, 0, true⟩, ⟨.W, 0, true⟩, ⟨.W, 1, true⟩]

/-- `unlock_write_rw`, coda/shm_hash_map.tcc:510-522. -/
def unlock_write_rw : List SemBuf := [⟨.W, -1, true⟩]

/-- End of a process: the adjustment is added, a negative value becomes 0. -/
def undo1 (v adj : Int) : Int := if v + adj < 0 then 0 else v + adj

/-- Environment: semop(2) with SEM_UNDO as called at coda/shm_hash_map.tcc:470, 484, 504, 518, and semctl(SETVAL) at :402, :407. -/
def undo (v adj : Vals) : Vals := ⟨undo1 v.r adj.r, undo1 v.w adj.w⟩

/-- Where a process is.  Where the processes are: connect_sem (coda/shm_hash_map.tcc:379-412), between the calls, inside of a section (coda/shm_hash_map.tcc:459-522). -/
inductive Mode where
  | fresh          -- not connected
  | missing        -- connect_sem: semget(key, 2, 0) failed
  | setR           -- semget(IPC_CREAT) succeeded, before SETVAL of mySEM_R
  | setW           -- before SETVAL of mySEM_W
  | out            -- connected, outside any critical section
  | reading
  | writing
  | dead
  deriving DecidableEq

/-- Where the processes are: connect_sem (coda/shm_hash_map.tcc:379-412), between the calls, inside of a section (coda/shm_hash_map.tcc:459-522). -/
structure Proc (L : Type) where
  mode : Mode
  loc : L
  adj : Vals

/-- Where the processes are: connect_sem (coda/shm_hash_map.tcc:379-412), between the calls, inside of a section (coda/shm_hash_map.tcc:459-522). -/
structure State (M L : Type) where
  exist : Bool
  sem : Vals
  mem : M
  procs : List (Proc L)

/-- What can happen; every label names the process.  Bookkeeping: the steps of coda/shm_hash_map.tcc:379-412, 459-522 in any order, and kills. -/
inductive Label (L : Type) where
  | get (i : Nat)              -- connect_sem finds the set: coda/shm_hash_map.tcc:394
  | getMissing (i : Nat)       -- connect_sem does not find it: :394
  | create (i : Nat)           -- :396
  | setR (i : Nat)             -- :402
  | setW (i : Nat)             -- :407
  | lockR (i : Nat) (l : L)    -- read, size: with arguments `l`
  | lockW (i : Nat) (l : L)    -- insert, erase, clear
  | body (i : Nat)             -- a step of the code inside the critical section
  | unlock (i : Nat)
  | kill (i : Nat)
  | spawn (i : Nat)            -- a new process in place of a dead one

variable {M L : Type}

/-- Where the processes are: connect_sem (coda/shm_hash_map.tcc:379-412), between the calls, inside of a section (coda/shm_hash_map.tcc:459-522). -/
def State.mode (s : State M L) (i : Nat) : Option Mode := (s.procs[i]?).map (·.mode)

/-- Replace process `i`.  Where the processes are: connect_sem (coda/shm_hash_map.tcc:379-412), between the calls, inside of a section (coda/shm_hash_map.tcc:459-522). -/
def State.upd (s : State M L) (i : Nat) (p : Proc L) : State M L := { s with procs := s.procs.set i p }

/-- All adjustments for one semaphore are cleared (SETVAL).  Environment: semop(2) with SEM_UNDO as called at coda/shm_hash_map.tcc:470, 484, 504, 518, and semctl(SETVAL) at :402, :407. -/
def clearAdj (n : Num) (ps : List (Proc L)) : List (Proc L) := ps.map (fun p => { p with adj := p.adj.set n 0 })

/-- A `semop` of process `p = procs[i]` that then is in mode `m` with local state `l`.  Where the processes are: connect_sem (coda/shm_hash_map.tcc:379-412), between the calls, inside of a section (coda/shm_hash_map.tcc:459-522). -/
def State.doSem (s : State M L) (i : Nat) (p : Proc L) (ops : List SemBuf) (m : Mode) (l : L) : Option (State M L) :=
  match semop s.sem p.adj ops with
  | some (v, adj) => some ({ s with sem := v }.upd i ⟨m, l, adj⟩)
  | none => none

/-- The successor, if the step is possible.  Bookkeeping: the steps of coda/shm_hash_map.tcc:379-412, 459-522 in any order, and kills. -/
def step (wbody : M → L → M × L) (rbody : M → L → L) (s : State M L) : Label L → Option (State M L)
  | .get i =>
    match s.procs[i]? with
    | some p => if p.mode = .fresh ∧ s.exist = true then some (s.upd i { p with mode := .out }) else none
    | none => none
  | .getMissing i =>
    match s.procs[i]? with
    | some p => if p.mode = .fresh ∧ s.exist = false then some (s.upd i { p with mode := .missing }) else none
    | none => none
  | .create i =>
    match s.procs[i]? with
    | some p => if p.mode = .missing then some ({ s with exist := true }.upd i { p with mode := .setR }) else none
    | none => none
  | .setR i =>
    match s.procs[i]? with
    | some p =>
      if p.mode = .setR then
        some { s with
          sem := s.sem.set .R 0, procs := clearAdj .R (s.procs.set i { p with mode := .setW }) }
      else none
    | none => none
  | .setW i =>
    match s.procs[i]? with
    | some p =>
      if p.mode = .setW then
        some { s with
          sem := s.sem.set .W 0, procs := clearAdj .W (s.procs.set i { p with mode := .out }) }
      else none
    | none => none
  | .lockR i l =>
    match s.procs[i]? with
    | some p => if p.mode = .out then s.doSem i p lock_read_rw .reading l else none
    | none => none
  | .lockW i l =>
    match s.procs[i]? with
    | some p => if p.mode = .out then s.doSem i p lock_write_rw .writing l else none
    | none => none
  | .body i =>
    match s.procs[i]? with
    | some p =>
      if p.mode = .writing then
        some ({ s with mem := (wbody s.mem p.loc).1 }.upd i { p with loc := (wbody s.mem p.loc).2 })
      else if p.mode = .reading then some (s.upd i { p with loc := rbody s.mem p.loc })
      else none
    | none => none
  | .unlock i =>
    match s.procs[i]? with
    | some p =>
      if p.mode = .writing then s.doSem i p unlock_write_rw .out p.loc
      else if p.mode = .reading then s.doSem i p unlock_read_rw .out p.loc
      else none
    | none => none
  | .kill i =>
    match s.procs[i]? with
    | some p =>
      if p.mode = .dead then none
      else some ({ s with sem := undo s.sem p.adj }.upd i { p with mode := .dead, adj := ⟨0, 0⟩ })
    | none => none
  | .spawn i =>
    match s.procs[i]? with
    | some p => if p.mode = .dead then some (s.upd i { p with mode := .fresh }) else none
    | none => none

/-- A sequence of steps.  Bookkeeping: the steps of coda/shm_hash_map.tcc:379-412, 459-522 in any order, and kills. -/
def exec (wbody : M → L → M × L) (rbody : M → L → L) (s : State M L) : List (Label L) → Option (State M L)
  | [] => some s
  | a :: as =>
    match step wbody rbody s a with
    | some s' => exec wbody rbody s' as
    | none => none

end Verif.RwLock
