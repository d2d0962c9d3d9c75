/-
  Model of coda/synque.hpp used by threads that are cancelled (pthread_cancel).  The calls are those of Verif/Synque/Model.lean.
  Cancellation is deferred, the default of pthreads: a request takes effect at the next cancellation point of the thread.  The only one in
  the class is pthread_cond_wait (coda/synque.hpp:57, 85; pthread_mutex_lock and pthread_cond_signal are none): on entry,
  or while the thread waits; in the latter case the mutex is taken again first (pthread_cond_wait(3)).  The class installs no clean-up handler, so
  that the thread ends with the mutex locked.  Outside of calls a thread may reach cancellation points of the program.
-/
import Verif.Synque.Spec

namespace Verif.SynqueCancel
open Verif.Synque

variable {T : Type}

/-- The threads of Verif.Synque, coda/synque.hpp:30-114, and which of them are cancelled. -/
structure CState (T : Type) where
  base : State T
  req : List Nat    -- threads for which pthread_cancel was called
  dead : List Nat   -- threads that have ended

/-- The threads of Verif.Synque, coda/synque.hpp:30-114, and which of them are cancelled. -/
inductive CLabel (T : Type) where
  | base (l : Label T)
  | request (i : Nat)   -- pthread_cancel of thread i
  | cancel (i : Nat)    -- the request takes effect inside of get
  | leave (i : Nat)     -- the request takes effect outside of calls

/-- The thread that a label belongs to; none for a spurious wake-up.  The threads of Verif.Synque, coda/synque.hpp:30-114, and which of them are cancelled. -/
def actor : Label T → Option Nat
  | .add i _ | .signal i | .get i _ | .size i | .adv i | .sig i _ | .throw i => some i
  | .spur _ => none

/-- The threads of Verif.Synque, coda/synque.hpp:30-114, and which of them are cancelled. -/
def isDead (s : CState T) (l : Label T) : Bool :=
  match actor l with
  | some i => s.dead.contains i
  | none => false

/-- pthread_cond_wait is cancelled: on entry the thread owns the mutex (`g1` with an empty deque, coda/synque.hpp:49-57), while waiting it takes it again. -/
def cancelled (s : State T) (i : Nat) : Option (State T) :=
  match s.thr[i]? with
  | some (.g1 rq) => if s.d.isEmpty && rq.canwait then some (s.upd i .idle) else none
  | some (.gw _) => s.lock i .idle
  | _ => none

/-- Bookkeeping: the steps of coda/synque.hpp:30-114 and cancellations in any order. -/
def cstep (s : CState T) : CLabel T → Option (CState T)
  | .base l =>
    if isDead s l then none
    else match step s.base l with
      | some b => some { s with base := b }
      | none => none
  | .request i => some { s with req := i :: s.req }
  | .cancel i =>
    if s.req.contains i then
      match cancelled s.base i with
      | some b => some { s with base := b, dead := i :: s.dead }
      | none => none
    else none
  | .leave i =>
    if s.req.contains i && !s.dead.contains i then
      match s.base.thr[i]? with
      | some .idle => some { s with dead := i :: s.dead }
      | _ => none
    else none

/-- Bookkeeping: the steps of coda/synque.hpp:30-114 and cancellations in any order. -/
def crun (s : CState T) : List (CLabel T) → Option (CState T)
  | [] => some s
  | a :: as =>
    match cstep s a with
    | some s => crun s as
    | none => none

/-- `n` threads and an empty queue.  The threads of Verif.Synque, coda/synque.hpp:30-114, and which of them are cancelled. -/
def cinit (T : Type) (n : Nat) : CState T := ⟨init T n, [], []⟩

end Verif.SynqueCancel
