/-
  Model of coda_daemon_load (coda/daemon.c): coda_signal_init, coda_daemon_fork and coda_mkpidf one after the other, in the process that was
  started and in the one that goes on in the background; and of log_die (coda/logger.h), a macro of two statements.
-/
import Verif.Daemon.Model
import Verif.Fd.Model
import Verif.Pidfile.Model
import Verif.Logger.Model

namespace Verif.Load

open Daemon (Getopt Proc coda_signal_init)
open Fd (Table DaemonEnv Fork Forked coda_daemon_fork)

/-- What the system calls do.  Environment: the outcomes of the system calls of coda/daemon.c:62-121. -/
structure Env where
  sig : Nat → Bool           -- signal(n) works
  fork : Option Nat          -- the number of the new process
  setsidOk : Bool
  null : Option Int          -- open("/dev/null")
  dup0Ok : Bool
  dup1Ok : Bool
  closeOk : Bool
  pidOk : Bool               -- the system calls of coda_mkpidf work

/-- Environment: the outcomes of the system calls of coda/daemon.c:62-121. -/
def Env.daemon (e : Env) (f : Fork) : DaemonEnv := ⟨f, e.setsidOk, e.null, e.dup0Ok, e.dup1Ok, e.closeOk⟩

/-- A process when coda_daemon_load is over: it has left with exit(status), or the function has returned.  How a process leaves `coda_daemon_load`: coda/daemon.c:103-121. -/
inductive End where
  | exit (pid : Nat) (status : Int)
  | ret (pid : Nat) (r : Int) (p : Proc) (t : Table)

/-- `coda_mkpidf` on a file that nobody else uses: coda/system.c:57-116; see Pidfile for several processes and all steps.  The file: none if it is
not there. -/
def coda_mkpidf (pid : Nat) (file : Option (List UInt8)) (ok : Bool) : Int × Option (List UInt8) :=
  if ok = false then (-1, file)
  else match file with
    | some (c :: r) => (-1, some (c :: r))
    | _ => (0, some (Pidfile.text pid))

/-- The last part of `coda_daemon_load`: coda/daemon.c:115-120, in process `pid`. -/
def writePid (opt : Getopt) (e : Env) (pid : Nat) (p : Proc) (t : Table) (file : Option (List UInt8)) : End × Option (List UInt8) :=
  match opt.pid with
  | none => (.ret pid 0 p t, file)
  | some _ =>
    let m := coda_mkpidf pid file e.pidOk
    if 0 > m.1 then (.ret pid (-1) p t, m.2) else (.ret pid 0 p t, m.2)

/-- After coda_daemon_fork in process `pid`: coda/daemon.c:110-113. -/
def afterFork (opt : Getopt) (e : Env) (pid : Nat) (p : Proc) (f : Forked) (file : Option (List UInt8)) : End × Option (List UInt8) :=
  match f with
  | .exited => (.exit pid 0, file)
  | .ret r t => if 0 > r then (.ret pid (-1) p t, file) else writePid opt e pid p t file

/-- `coda_daemon_load`: coda/daemon.c:103-121, called in process `pid`; the ends of all processes that come out of it, and the pid file. -/
def coda_daemon_load (opt : Getopt) (e : Env) (pid : Nat) (p : Proc) (t : Table) (file : Option (List UInt8)) :
    List End × Option (List UInt8) :=
  let a := coda_signal_init e.sig p
  if 0 > a.1 then ([.ret pid (-1) a.2 t], file)
  else if opt.daemon then
    match e.fork with
    | none =>
      let x := afterFork opt e pid a.2 (coda_daemon_fork t (e.daemon .error)) file
      ([x.1], x.2)
    | some kid =>
      let x := afterFork opt e pid a.2 (coda_daemon_fork t (e.daemon .parent)) file
      let y := afterFork opt e kid a.2 (coda_daemon_fork t (e.daemon .child)) x.2
      ([x.1, y.1], y.2)
  else
    let x := writePid opt e pid a.2 t file
    ([x.1], x.2)

/-! log_die -/

/-- Statements of C, as far as needed.  The statements that the macro `log_die`, coda/logger.h:31, expands to, and their execution in C. -/
inductive Stmt where
  | log (l : Logger.Level)      -- do { … } while (0)
  | exit (status : Int)
  | next                        -- any other statement
  | ite (c : Bool) (s : Stmt)   -- if (c) s

/-- EXIT_FAILURE.  The statements that the macro `log_die`, coda/logger.h:31, expands to, and their execution in C. -/
def EXIT_FAILURE : Int := 1

/-- What `log_die(err,fmt,...);` becomes: coda/logger.h:31. -/
def log_die : List Stmt := [.log .emerg, .exit EXIT_FAILURE]

/-- `if (c)` before the statements of a text: it takes the first one.  The statements that the macro `log_die`, coda/logger.h:31, expands to, and their execution in C. -/
def ifThen (c : Bool) : List Stmt → List Stmt
  | [] => []
  | s :: r => .ite c s :: r

/-- What a program does: the messages that are logged, and the status it ends with.  The statements that the macro `log_die`, coda/logger.h:31, expands to, and their execution in C. -/
structure Run where
  logged : List Logger.Level := []
  status : Option Int := none
  nexts : Nat := 0              -- other statements that were executed
  deriving DecidableEq

/-- One statement.  The statements that the macro `log_die`, coda/logger.h:31, expands to, and their execution in C. -/
def exec1 (r : Run) : Stmt → Run
  | .log l => { r with logged := r.logged ++ [l] }
  | .exit n => { r with status := some n }
  | .next => { r with nexts := r.nexts + 1 }
  | .ite c s => if c then exec1 r s else r

/-- Statements one after the other, until the program ends.  The statements that the macro `log_die`, coda/logger.h:31, expands to, and their execution in C. -/
def exec (r : Run) : List Stmt → Run
  | [] => r
  | s :: l => if r.status.isSome then r else exec (exec1 r s) l

end Verif.Load
