import Verif.Pidfile.Model
/-
  Pid files that are removed by hand: coda_mkpidf (coda/system.c:57-116) and coda_daemon_stop (coda/daemon.c:115-131) as in Verif.Pidfile, and an administrator who removes the file at any time
  (a process that was killed leaves its file behind, and coda_mkpidf refuses to start while it is there: coda/system.c:82-88).
-/
namespace Verif.PidRm

open Verif.Pidfile

/-- `rm path` by an administrator.  Environment: unlink(2) of the file that coda/system.c:62 opens. -/
def rm (s : State) : State := { s with path := none }

/-- The steps of Verif.Pidfile (coda/system.c:57-116, coda/daemon.c:123-131), and removals. -/
inductive Act where
  | step (l : Label)
  | rm
  deriving DecidableEq

/-- A history.  Bookkeeping: the steps of coda/system.c:57-116 and coda/daemon.c:123-131 and removals in any order; `none`: a step is not possible. -/
def hist (pid : Nat → Nat) (s : State) : List Act → Option State
  | [] => some s
  | .step l :: as =>
    match Pidfile.step true pid s l with
    | none => none
    | some t => hist pid t as
  | .rm :: as => hist pid (rm s) as

end Verif.PidRm
