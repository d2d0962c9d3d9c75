/-
  What the manual of the signal functions says, as lists.
-/
import Verif.Daemon.Model

namespace Verif.SigProc.Spec

/-- The signals that set coda_terminate: SIGINT, SIGTERM. -/
def terminate : List Nat := [2, 15]
/-- SIGHUP. -/
def changecfg : List Nat := [1]
/-- SIGUSR1. -/
def rotatelog : List Nat := [10]
/-- SIGUSR2. -/
def changebin : List Nat := [12]
/-- The signals that are only logged: QUIT, TRAP, PIPE, ALRM, CHLD, CONT, TSTP, TTIN, TTOU, URG, XCPU, XFSZ, VTALRM, PROF, WINCH, SYS. -/
def quiet : List Nat := [3, 5, 13, 14, 17, 18, 20, 21, 22, 23, 24, 25, 26, 27, 28, 31]

def handled (n : Nat) : Prop := n ∈ terminate ∨ n ∈ changecfg ∨ n ∈ rotatelog ∨ n ∈ changebin ∨ n ∈ quiet

/-- The signals of a flag. -/
def sigsOf : Daemon.Hand → List Nat
  | .terminate => terminate
  | .changecfg => changecfg
  | .rotatelog => rotatelog
  | .changebin => changebin
  | .ignoremsg => []

/-- The flag. -/
def flagOf (f : Daemon.Flags) : Daemon.Hand → Bool
  | .terminate => f.terminate
  | .changecfg => f.changecfg
  | .rotatelog => f.rotatelog
  | .changebin => f.changebin
  | .ignoremsg => false

/-- The mask after a call with SIG_BLOCK (0), SIG_UNBLOCK (1), SIG_SETMASK (2): only handled signals whose bit is set count. -/
def maskAfter (old : Nat → Prop) (how : Int) (m : Nat) (n : Nat) : Prop :=
  let named := handled n ∧ m.testBit n = true
  if how = 0 then old n ∨ named
  else if how = 1 then old n ∧ ¬ named
  else if how = 2 then named
  else old n

end Verif.SigProc.Spec
