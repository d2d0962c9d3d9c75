/-
  Model of what happens when a signal arrives while a program runs: coda_signal_handle (coda/daemon.c) logs a notice before it sets its flag.

  Any number of threads, every interleaving, signals at every moment, handlers within handlers.  log_fmt (coda/logger.h) is modelled by the two
  locks of the C library that it takes: localtime_r holds the lock of the time zone data, which is not recursive (neither function is
  async-signal-safe); fprintf holds the lock of stderr, which is recursive (flockfile).  The text is that of LogText and left out here.
-/
import Verif.Daemon.Model
import Verif.Logger.Model

namespace Verif.SigLog

open Daemon (Flags coda_signal_handle)
open Logger (Level written)

/-- Where a call of log_fmt is: coda/logger.h:53-71. -/
inductive Pc where
  | before      -- before localtime_r takes its lock: 59
  | inTime      -- in localtime_r, with the lock
  | after       -- before fprintf takes the lock of stderr: 63, 68
  | writing     -- in fprintf, with the lock
  deriving DecidableEq

/-- A call of log_fmt; `sig`: it is the notice of coda_signal_handle for this signal.  coda/daemon.c:176-177, 200-208. -/
structure Frame where
  pc : Pc
  sig : Option Nat
  deriving DecidableEq

/-- The lock of the time zone data, the lock of stderr with its depth, what each thread is doing (innermost call first; []: something else than
logging), the flags, log_level.  The locks of stdio that fprintf takes at coda/logger.h:63, 68 and the calls in progress. -/
structure State where
  tz : Option Nat
  err : Option (Nat × Nat)
  stack : Nat → List Frame
  flags : Flags
  log_level : Int

/-- The locks of stdio that fprintf takes at coda/logger.h:63, 68 and the calls in progress. -/
def init (log_level : Int) : State := ⟨none, none, fun _ => [], {}, log_level⟩

/-- The locks of stdio that fprintf takes at coda/logger.h:63, 68 and the calls in progress. -/
def State.upd (s : State) (i : Nat) (l : List Frame) : State := { s with stack := fun j => if j = i then l else s.stack j }

/-- The locks of stdio that fprintf takes at coda/logger.h:63, 68 and the calls in progress. -/
inductive Label where
  | call (i : Nat) (l : Level)      -- the program calls log_msg in thread i
  | signal (i n : Nat)              -- signal n is delivered to thread i
  | step (i : Nat)                  -- thread i goes on
  deriving DecidableEq

/-- The lock of stderr is taken by thread `i`; none: it has to wait.  Environment: flockfile and funlockfile inside of fprintf, coda/logger.h:63, 68. -/
def lockErr (i : Nat) : Option (Nat × Nat) → Option (Nat × Nat)
  | none => some (i, 1)
  | some (j, d) => if j = i then some (i, d + 1) else none

/-- It is released once.  Environment: flockfile and funlockfile inside of fprintf, coda/logger.h:63, 68. -/
def unlockErr : Option (Nat × Nat) → Option (Nat × Nat)
  | some (j, d + 2) => some (j, d + 1)
  | _ => none

/-- After log_notice the handler sets its flag: coda/daemon.c:176. -/
def finish (f : Flags) : Option Nat → Flags
  | some n => coda_signal_handle f n
  | none => f

/-- Thread `i` goes on; none: it has nothing to do here, or waits for a lock.  Bookkeeping: the steps of coda/logger.h:51-73 in any order, and signals handled by coda/daemon.c:200-208. -/
def go (s : State) (i : Nat) : Option State :=
  match s.stack i with
  | [] => none
  | f :: r =>
    match f.pc with
    | .before =>
      match s.tz with
      | none => some { s.upd i (⟨.inTime, f.sig⟩ :: r) with tz := some i }
      | some _ => none
    | .inTime => some { s.upd i (⟨.after, f.sig⟩ :: r) with tz := none }
    | .after =>
      match lockErr i s.err with
      | some e => some { s.upd i (⟨.writing, f.sig⟩ :: r) with err := some e }
      | none => none
    | .writing => some { s.upd i r with err := unlockErr s.err, flags := finish s.flags f.sig }

/-- One step.  Bookkeeping: the steps of coda/logger.h:51-73 in any order, and signals handled by coda/daemon.c:200-208. -/
def step (s : State) : Label → Option State
  | .call i l =>
    match s.stack i with
    | [] => some (if written l s.log_level then s.upd i [⟨.before, none⟩] else s)
    | _ :: _ => none
  | .signal i n =>
    some (if written .notice s.log_level then s.upd i (⟨.before, some n⟩ :: s.stack i) else { s with flags := coda_signal_handle s.flags n })
  | .step i => go s i

/-- A history.  Bookkeeping: the steps of coda/logger.h:51-73 in any order, and signals handled by coda/daemon.c:200-208. -/
def exec (s : State) : List Label → Option State
  | [] => some s
  | l :: ls =>
    match step s l with
    | some t => exec t ls
    | none => none

end Verif.SigLog
