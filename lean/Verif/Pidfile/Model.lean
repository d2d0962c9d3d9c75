/-
  Model of coda_mkpidf (coda/system.c) and coda_daemon_stop (coda/daemon.c) as a transition system: any number of processes that work
  on the same path, every interleaving of their system calls, every system call may fail, every process may be killed between any two
  of them.

  Files are numbered; a file stays as long as a process has it open, whether or not the path still leads to it.  A flock lock belongs
  to an open file, so that it is released when this is closed or the process ends.  Simplified: one call of coda_mkpidf at a time in a
  process, no fork within it, log messages left out, all processes use the same path, nobody else changes the file.  A write that does
  not fail writes at least one byte.
-/
namespace Verif.Pidfile

/-- Where a process is; the number is the file it has opened (history from `run` on, where it is closed).  `full`: whether the write was
complete.  The places of `coda_mkpidf`: coda/system.c:57-116. -/
inductive Mode where
  | idle                          -- has not called coda_mkpidf, or has stopped after a success
  | called                        -- before open: coda/system.c:62
  | opened (n : Nat)              -- before flock(LOCK_EX|LOCK_NB): 65
  | locked (n : Nat)              -- before fstat: 74
  | fresh (n : Nat)               -- st_size was 0; before write: 90-97
  | wrote (n : Nat) (full : Bool) -- before flock(LOCK_UN): 104
  | unlocked (n : Nat) (full : Bool) -- before close: 110
  | run (n : Nat) (full : Bool)   -- coda_mkpidf returned 0: 115
  | bad (n : Nat)                 -- error path, before flock(LOCK_UN): 77, 85, 92, 99
  | bad2 (n : Nat)                -- error path, before close: 68, 78, 86, 93, 100, 106
  | failed                        -- coda_mkpidf returned -1
  | dead
  deriving DecidableEq

/-- A file: its bytes and the process that holds the lock.  Environment: the pid file, its lock (flock(2)) and the processes; used at coda/system.c:57-116, coda/daemon.c:115-131. -/
structure File where
  data : List UInt8
  lock : Option Nat
  deriving DecidableEq

/-- Environment: the pid file, its lock (flock(2)) and the processes; used at coda/system.c:57-116, coda/daemon.c:115-131. -/
structure State where
  path : Option Nat      -- the file the path leads to
  file : Nat → File
  next : Nat             -- number of files that were created
  proc : Nat → Mode

/-- Environment: the pid file, its lock (flock(2)) and the processes; used at coda/system.c:57-116, coda/daemon.c:115-131. -/
def init : State := ⟨none, fun _ => ⟨[], none⟩, 0, fun _ => .idle⟩

/-- Environment: the pid file, its lock (flock(2)) and the processes; used at coda/system.c:57-116, coda/daemon.c:115-131. -/
def State.upd (s : State) (i : Nat) (m : Mode) : State := { s with proc := fun j => if j = i then m else s.proc j }

/-- Environment: the pid file, its lock (flock(2)) and the processes; used at coda/system.c:57-116, coda/daemon.c:115-131. -/
def State.setFile (s : State) (n : Nat) (f : File) : State := { s with file := fun k => if k = n then f else s.file k }

/-- The lock of file `n` is released if process `i` holds it: flock(LOCK_UN), close, and the end of a process.  Environment: the pid file, its lock (flock(2)) and the processes; used at coda/system.c:57-116, coda/daemon.c:115-131. -/
def State.release (s : State) (i n : Nat) : State :=
  if (s.file n).lock = some i then s.setFile n { s.file n with lock := none } else s

/-- Decimal digits.  "%d" of coda/system.c:90. -/
def digits (n : Nat) : List UInt8 :=
  if h : n < 10 then [UInt8.ofNat (48 + n)] else digits (n / 10) ++ [UInt8.ofNat (48 + n % 10)]
decreasing_by omega

/-- `snprintf(buf, 32, "%d\n", (int) getpid())`: coda/system.c:90. -/
def text (pid : Nat) : List UInt8 := digits pid ++ [10]

/-- The steps of coda/system.c:57-116 and coda/daemon.c:123-131, errors of the system calls and kills. -/
inductive Label where
  | call (i : Nat)
  | go (i : Nat)            -- the next system call succeeds (flock: or finds the lock held)
  | short (i k : Nat)       -- the write writes only `k` bytes
  | err (i : Nat)           -- the next system call fails
  | kill (i : Nat)
  | stop (i : Nat)          -- coda_daemon_stop
  | stopErr (i : Nat)       -- coda_daemon_stop whose unlink fails
  deriving DecidableEq

/-- open(O_CREAT|O_RDWR): coda/system.c:62. -/
def open_ (s : State) (i : Nat) : State :=
  match s.path with
  | some n => s.upd i (.opened n)
  | none => { s with path := some s.next, next := s.next + 1, file := fun k => if k = s.next then ⟨[], none⟩ else s.file k }.upd i (.opened s.next)

/-- flock(LOCK_EX|LOCK_NB): coda/system.c:65-70. -/
def flock (s : State) (i n : Nat) : State :=
  match (s.file n).lock with
  | none => (s.setFile n { s.file n with lock := some i }).upd i (.locked n)
  | some _ => s.upd i (.bad2 n)

/-- fstat and the test of st_size: coda/system.c:74-88. -/
def fstat (s : State) (i n : Nat) : State :=
  if (s.file n).data.length > 0 then s.upd i (.bad n) else s.upd i (.fresh n)

/-- write at the beginning of the file: coda/system.c:97. -/
def write (s : State) (i n : Nat) (b : List UInt8) (full : Bool) : State :=
  (s.setFile n { s.file n with data := b ++ (s.file n).data.drop b.length }).upd i (.wrote n full)

/-- The next system call of process `i` succeeds.  Bookkeeping: the steps of coda/system.c:57-116 and coda/daemon.c:123-131 in any order. -/
def go (pid : Nat → Nat) (s : State) (i : Nat) : Option State :=
  match s.proc i with
  | .called => some (open_ s i)
  | .opened n => some (flock s i n)
  | .locked n => some (fstat s i n)
  | .fresh n => some (write s i n (text (pid i)) true)
  | .wrote n f => some ((s.release i n).upd i (.unlocked n f))
  | .unlocked n f => some ((s.release i n).upd i (.run n f))
  | .bad n => some ((s.release i n).upd i (.bad2 n))
  | .bad2 n => some ((s.release i n).upd i .failed)
  | _ => none

/-- The next system call of process `i` fails.  A close that fails closes nevertheless.  Bookkeeping: the steps of coda/system.c:57-116 and coda/daemon.c:123-131 in any order. -/
def err (s : State) (i : Nat) : Option State :=
  match s.proc i with
  | .called => some (s.upd i .failed)
  | .opened n => some (s.upd i (.bad2 n))
  | .locked n => some (s.upd i (.bad n))
  | .fresh n => some (s.upd i (.bad n))
  | .wrote n _ => some (s.upd i (.bad2 n))
  | .unlocked n _ => some ((s.release i n).upd i .failed)
  | .bad n => some (s.upd i (.bad2 n))
  | .bad2 n => some ((s.release i n).upd i .failed)
  | _ => none

/-- The end of process `i`: its files are closed.  Bookkeeping: the steps of coda/system.c:57-116 and coda/daemon.c:123-131 in any order. -/
def kill (s : State) (i : Nat) : State :=
  match s.proc i with
  | .opened n | .locked n | .fresh n | .wrote n _ | .unlocked n _ | .bad n | .bad2 n => (s.release i n).upd i .dead
  | _ => s.upd i .dead

/-- One step.  `strict`: coda_daemon_stop is called only after coda_mkpidf succeeded; otherwise also after it failed.
coda/daemon.c:103-131. -/
def step (strict : Bool) (pid : Nat → Nat) (s : State) : Label → Option State
  | .call i =>
    match s.proc i with
    | .idle | .failed => some (s.upd i .called)
    | _ => none
  | .go i => go pid s i
  | .short i k =>
    match s.proc i with
    | .fresh n => if 0 < k ∧ k < (text (pid i)).length then some (write s i n ((text (pid i)).take k) false) else none
    | _ => none
  | .err i => err s i
  | .kill i => some (kill s i)
  | .stop i =>
    match s.proc i with
    | .run _ _ => some ({ s with path := none }.upd i .idle)
    | .failed => if strict then none else some ({ s with path := none }.upd i .idle)
    | _ => none
  | .stopErr i =>
    match s.proc i with
    | .run _ _ => some (s.upd i .idle)
    | .failed => if strict then none else some (s.upd i .idle)
    | _ => none

/-- A history.  Bookkeeping: the steps of coda/system.c:57-116 and coda/daemon.c:123-131 in any order. -/
def exec (strict : Bool) (pid : Nat → Nat) (s : State) : List Label → Option State
  | [] => some s
  | l :: ls =>
    match step strict pid s l with
    | some t => exec strict pid t ls
    | none => none

end Verif.Pidfile
