/-
  What a program expects of signals.
-/
import Verif.SigLog.Model

namespace Verif.SigLog

/-- The flag of a signal is set (Linux numbers): SIGINT 2 and SIGTERM 15, SIGHUP 1, SIGUSR1 10, SIGUSR2 12. -/
def Noticed (f : Daemon.Flags) (n : Nat) : Prop :=
  (n = 2 ∨ n = 15 → f.terminate = true) ∧ (n = 1 → f.changecfg = true) ∧ (n = 10 → f.rotatelog = true) ∧ (n = 12 → f.changebin = true)

/-- Thread `i` is inside of localtime_r, in its innermost call. -/
def InTime (s : State) (i : Nat) : Prop := ∃ f r, s.stack i = f :: r ∧ f.pc = .inTime

/-- No signal that is logged arrives at a thread that is inside of localtime_r. -/
def Safe (s : State) : List Label → Prop
  | [] => True
  | l :: ls => (∀ i n, l = .signal i n → 6 ≤ s.log_level → ¬ InTime s i) ∧ ∀ t, step s l = some t → Safe t ls

/-- The handler for signal `n` has started in thread `i` and has not returned. -/
def Pending (s : State) (i n : Nat) : Prop := ∃ f ∈ s.stack i, f.sig = some n

/-- Nothing but threads that go on. -/
def OnlySteps (ls : List Label) : Prop := ∀ l ∈ ls, ∃ i, l = .step i

end Verif.SigLog
