/-
  Model of the registers of coda/shm_queue.{hpp,tcc}: `set_register` and `get_register` in any number of processes, step by step, with kills and with semop calls that are interrupted by signals; the other
  calls of the class (flush, unflush) only as sections between `lock_queue` and `unlock_queue` that do not touch the registers.

  Semaphore 0 as in semop(2): a process that calls lock_queue waits while the value is 0; only a call that waits is interrupted (EINTR), and the result is ignored; all operations have SEM_UNDO: when a
  process ends, the sum of what it did is taken back, but the value does not get below 0.
-/
namespace Verif.QueueRegs

/-- The calls; `work` is any other call that locks the queue.  Offsets are of type uint8_t.  The calls set_register and get_register and their places: coda/shm_queue.tcc:347-371. -/
inductive Op where
  | set (off : UInt8) (v : UInt32)
  | get (off : UInt8)
  | work
  deriving DecidableEq

/-- Where a process is.  The calls set_register and get_register and their places: coda/shm_queue.tcc:347-371. -/
inductive Mode where
  | idle
  | enter (op : Op)               -- before lock_queue
  | cs (op : Op)                  -- before the access
  | leave (op : Op) (v : UInt32)  -- before unlock_queue
  | fin (v : UInt32)              -- before it returns `v`
  | dead
  deriving DecidableEq

/-- `adj` is what the kernel adds to the semaphore when the process ends; `own` says that the process got into its section by a semop that was not interrupted (no step depends on it).  The registers (coda/shm_queue.hpp:36), the semaphore of coda/shm_queue.tcc:385-403 and the processes. -/
structure Proc where
  mode : Mode
  adj : Int
  own : Bool
  deriving DecidableEq

/-- The registers (coda/shm_queue.hpp:36), the semaphore of coda/shm_queue.tcc:385-403 and the processes. -/
structure State where
  regs : UInt8 → UInt32
  sem : Int
  procs : List Proc

/-- What happens: a call, its access of the register, its return (with 0 for a call that returns nothing), the end of a process. -/
inductive Ev where
  | call (i : Nat) (op : Op)
  | acc (i : Nat) (op : Op) (v : UInt32)
  | ret (i : Nat) (v : UInt32)
  | kill (i : Nat)
  deriving DecidableEq

/-- Bookkeeping: the steps of coda/shm_queue.tcc:347-371, 385-403 in any order, kills and signals. -/
inductive Label where
  | call (i : Nat) (op : Op)
  | adv (i : Nat)
  | intr (i : Nat)
  | kill (i : Nat)

/-- The registers (coda/shm_queue.hpp:36), the semaphore of coda/shm_queue.tcc:385-403 and the processes. -/
def State.upd (s : State) (i : Nat) (p : Proc) : State := { s with procs := s.procs.set i p }

/-- `queue_info::registers_number`, coda/shm_queue.hpp:30. -/
def registers_number : Nat := 12

/-- The access inside of the section: coda/shm_queue.tcc:353, 366. -/
def access (r : UInt8 → UInt32) : Op → UInt32 × (UInt8 → UInt32)
  | .set o v => (0, fun x => if x = o then v else r x)
  | .get o => (r o, r)
  | .work => (0, r)

/-- Is the register there; otherwise the call does nothing: coda/shm_queue.tcc:350, 363. -/
def inRange : Op → Bool
  | .set o _ => decide (o.toNat < registers_number)
  | .get o => decide (o.toNat < registers_number)
  | .work => true

/-- One step of process `i`.  Bookkeeping: the steps of coda/shm_queue.tcc:347-371, 385-403 in any order, kills and signals. -/
def adv (s : State) (i : Nat) (p : Proc) : Option (State × List Ev) :=
  match p.mode with
  | .idle => none
  | .dead => none
  -- coda/shm_queue.tcc:385-393
  | .enter op => if 1 ≤ s.sem then some ({ s with sem := s.sem - 1 }.upd i ⟨.cs op, p.adj + 1, true⟩, []) else none
  | .cs op => some ({ s with regs := (access s.regs op).2 }.upd i { p with mode := .leave op (access s.regs op).1 }, [.acc i op (access s.regs op).1])
  -- coda/shm_queue.tcc:395-403; a value above SEMVMX: ERANGE, the result is ignored
  | .leave _ v => if s.sem + 1 ≤ 32767 then some ({ s with sem := s.sem + 1 }.upd i ⟨.fin v, p.adj - 1, false⟩, []) else some (s.upd i ⟨.fin v, p.adj, false⟩, [])
  | .fin v => some (s.upd i { p with mode := .idle }, [.ret i v])

/-- The successor and the events, if the step is possible.  Bookkeeping: the steps of coda/shm_queue.tcc:347-371, 385-403 in any order, kills and signals. -/
def step (s : State) : Label → Option (State × List Ev)
  -- coda/shm_queue.tcc:347-371
  | .call i op =>
    match s.procs[i]? with
    | some p =>
      if p.mode = .idle then
        if inRange op then some (s.upd i { p with mode := .enter op }, [.call i op])
        else some (s.upd i { p with mode := .fin 0 }, [.call i op, .acc i op 0])
      else none
    | none => none
  | .adv i =>
    match s.procs[i]? with
    | some p => adv s i p
    | none => none
  -- the semop of lock_queue waits and is interrupted
  | .intr i =>
    match s.procs[i]? with
    | some p =>
      match p.mode with
      | .enter op => if s.sem < 1 then some (s.upd i { p with mode := .cs op, own := false }, []) else none
      | _ => none
    | none => none
  | .kill i =>
    match s.procs[i]? with
    | some p =>
      if p.mode = .dead then none
      else some ({ s with sem := max 0 (min (s.sem + p.adj) 32767) }.upd i ⟨.dead, 0, false⟩, [.kill i])
    | none => none

/-- Bookkeeping: the steps of coda/shm_queue.tcc:347-371, 385-403 in any order, kills and signals. -/
def exec (s : State) : List Label → Option (State × List Ev)
  | [] => some (s, [])
  | a :: as =>
    match step s a with
    | some (s', es) =>
      match exec s' as with
      | some (t, es') => some (t, es ++ es')
      | none => none
    | none => none

/-- `n` processes connected to a new queue: coda/shm_queue.tcc:155-160, 202-218. -/
def init (n : Nat) : State := ⟨fun _ => 0, 1, List.replicate n ⟨.idle, 0, false⟩⟩

end Verif.QueueRegs
