/-
  Model of a process with one thread that uses the signal functions of coda/daemon.c: coda_signal_init, coda_signal_init_norestart, coda_signal_mask and coda_signal_handle with the masks,
  the pending signals and the handlers on the stack; its main program sets masks, clears flags and runs the loop
      while (!coda_terminate) slow_call();
  where slow_call is one system call that may block (accept, read, poll, ...).

  What Linux does (sigaction(2), signal(7)): a signal that arrives is pending; a signal that is pending and not blocked is delivered at some time; the handler runs with its signal and
  sa_mask blocked in addition, and its return restores the mask; a system call that was interrupted is started again if the handler has SA_RESTART, otherwise it returns EINTR.
  Simplifications: a default action ends the process (some ignore the signal or stop the process); the log messages of the handler are left out (C123); the flag is set in one step.
-/
import Verif.Daemon.Model

namespace Verif.SigProc

open Daemon

/-- sa_handler.  struct sigaction as set at coda/daemon.c:178-186. -/
inductive Hnd where
  | dfl | ign
  | coda          -- coda_signal_handle
  deriving DecidableEq

/-- struct sigaction: sa_handler, SA_RESTART, SA_RESETHAND, SA_NODEFER, sa_mask.  struct sigaction as set at coda/daemon.c:178-186. -/
structure Act where
  hand : Hnd
  restart : Bool
  reset : Bool
  nodefer : Bool
  smask : Nat → Bool

/-- A handler on the stack: its signal, whether it has set its flag, and the mask to restore.  A process: its flags (coda/daemon.c:195-198), the handlers (coda/daemon.c:200-208) that interrupted each other, its signal mask. -/
structure Frame where
  sig : Nat
  done : Bool
  saved : Nat → Bool

/-- Where the main program is: before the test of coda_terminate, between the test and the call, in the call, behind the loop.  A process: its flags (coda/daemon.c:195-198), the handlers (coda/daemon.c:200-208) that interrupted each other, its signal mask. -/
inductive Pc where
  | check | enter | call | out
  deriving DecidableEq

/-- A process: its flags (coda/daemon.c:195-198), the handlers (coda/daemon.c:200-208) that interrupted each other, its signal mask. -/
structure St where
  act : Nat → Act
  mask : Nat → Bool
  pend : Nat → Bool
  flags : Flags
  frames : List Frame
  gone : Bool
  pc : Pc
  eintr : Bool       -- the call has been interrupted and will return EINTR

/-- `signal(n, coda_signal_handle)` of glibc: SA_RESTART, sa_mask = {n}.  coda/daemon.c:178. -/
def bsdSignal (a : Nat → Act) (n : Nat) : Nat → Act := fun k => if k = n then ⟨.coda, true, false, false, fun j => j == n⟩ else a k

/-- CODA_SIG_INIT_NORESTART: the old action with another handler and without SA_RESTART.  coda/daemon.c:180-186. -/
def noRestart (a : Nat → Act) (n : Nat) : Nat → Act := fun k => if k = n then { a n with hand := .coda, restart := false } else a k

/-- `coda_signal_init`: coda/daemon.c:210-214 (signal and sigaction cannot fail for these numbers). -/
def coda_signal_init (s : St) : St := { s with act := sigList.foldl (fun a x => bsdSignal a x.1) s.act }

/-- `coda_signal_init_norestart`: coda/daemon.c:216-220. -/
def coda_signal_init_norestart (s : St) : St := { s with act := sigList.foldl (fun a x => noRestart a x.1) s.act }

/-- `coda_signal_mask(how, mask)`: coda/daemon.c:222-228 with sigprocmask; SIG_BLOCK = 0, SIG_UNBLOCK = 1, SIG_SETMASK = 2. -/
def coda_signal_mask (s : St) (how : Int) (m : UInt32) : Int × St :=
  if how = 0 then (0, { s with mask := fun n => s.mask n || (Daemon.coda_signal_mask m).contains n })
  else if how = 1 then (0, { s with mask := fun n => s.mask n && !(Daemon.coda_signal_mask m).contains n })
  else if how = 2 then (0, { s with mask := fun n => (Daemon.coda_signal_mask m).contains n })
  else (-1, s)

/-- `coda_terminate = 0` and the like in the main program.  A process: its flags (coda/daemon.c:195-198), the handlers (coda/daemon.c:200-208) that interrupted each other, its signal mask. -/
def clearFlag (f : Flags) : Hand → Flags
  | .terminate => { f with terminate := false }
  | .changecfg => { f with changecfg := false }
  | .rotatelog => { f with rotatelog := false }
  | .changebin => { f with changebin := false }
  | .ignoremsg => f

/-- Environment: the delivery of signals to the handler of coda/daemon.c:200-208, and the calls of coda/daemon.c:210-228. -/
inductive Ev where
  | raise (n : Nat)                      -- a signal arrives
  | deliver (n : Nat)                    -- a pending signal is delivered
  | body                                 -- the running handler sets its flag
  | ret                                  -- and returns
  | sigmask (how : Int) (m : UInt32)     -- coda_signal_mask
  | clear (h : Hand)                     -- the program clears a flag
  | test                                 -- while (!coda_terminate)
  | begin                                -- the call begins
  | finish                               -- the call returns by itself
  | intr                                 -- the call returns EINTR
  deriving DecidableEq

/-- The start of a handler.  Environment: the delivery of signals to the handler of coda/daemon.c:200-208, and the calls of coda/daemon.c:210-228. -/
def enterHandler (s : St) (n : Nat) : St :=
  { s with
    pend := fun k => if k = n then false else s.pend k
    act := fun k => if k = n ∧ (s.act n).reset = true then { s.act n with hand := .dfl } else s.act k
    frames := ⟨n, false, s.mask⟩ :: s.frames
    mask := fun k => s.mask k || (s.act n).smask k || (k == n && !(s.act n).nodefer)
    eintr := s.eintr || (s.pc == .call && s.frames.isEmpty && !(s.act n).restart) }

/-- Delivery.  Environment: the delivery of signals to the handler of coda/daemon.c:200-208, and the calls of coda/daemon.c:210-228. -/
def deliverTo (s : St) (n : Nat) : St :=
  match (s.act n).hand with
  | .dfl => { s with gone := true }
  | .ign => { s with pend := fun k => if k = n then false else s.pend k }
  | .coda => enterHandler s n

/-- The handler on top of the stack, or the main program if there is none, makes a step.  `none`: not possible now.  Environment: the delivery of signals to the handler of coda/daemon.c:200-208, and the calls of coda/daemon.c:210-228. -/
def userStep (s : St) : Ev → Option St
  | .body =>
    match s.frames with
    | f :: fs => if f.done then none else some { s with flags := coda_signal_handle s.flags f.sig, frames := { f with done := true } :: fs }
    | [] => none
  | .ret =>
    match s.frames with
    | f :: fs => if f.done then some { s with frames := fs, mask := f.saved } else none
    | [] => none
  | .sigmask how m => if s.frames.isEmpty && s.pc != .call then some (coda_signal_mask s how m).2 else none
  | .clear h => if s.frames.isEmpty && s.pc != .call then some { s with flags := clearFlag s.flags h } else none
  | .test => if s.frames.isEmpty && s.pc == .check then some { s with pc := if s.flags.terminate then .out else .enter } else none
  | .begin => if s.frames.isEmpty && s.pc == .enter then some { s with pc := .call, eintr := false } else none
  | .finish => if s.frames.isEmpty && s.pc == .call && !s.eintr then some { s with pc := .check } else none
  | .intr => if s.frames.isEmpty && s.pc == .call && s.eintr then some { s with pc := .check } else none
  | _ => none

/-- One step of the process or of its environment.  Environment: the delivery of signals to the handler of coda/daemon.c:200-208, and the calls of coda/daemon.c:210-228. -/
def step (s : St) (e : Ev) : Option St :=
  if s.gone then none else
  match e with
  | .raise n => some { s with pend := fun k => if k = n then true else s.pend k }
  | .deliver n => if s.pend n && !s.mask n then some (deliverTo s n) else none
  | e => userStep s e

/-- Environment: the delivery of signals to the handler of coda/daemon.c:200-208, and the calls of coda/daemon.c:210-228. -/
def run (s : St) : List Ev → Option St
  | [] => some s
  | e :: es =>
    match step s e with
    | some t => run t es
    | none => none

/-- A program before it calls coda_signal_init: no handler runs, nothing is pending.  Environment: the delivery of signals to the handler of coda/daemon.c:200-208, and the calls of coda/daemon.c:210-228. -/
def fresh (act : Nat → Act) (mask : Nat → Bool) : St := ⟨act, mask, fun _ => false, {}, [], false, .check, false⟩

end Verif.SigProc
