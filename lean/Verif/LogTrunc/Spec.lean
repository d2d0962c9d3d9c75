import Verif.LogTrunc.Model
/-
  What the files should contain, in terms of the calls alone.
-/
namespace Verif.LogTrunc

/-- The lines that are logged to file `f`, in order; `cur`: the file that each process logs to. -/
def linesTo (f : Nat) (cur : Nat → Nat) : List Act → List (List UInt8)
  | [] => []
  | .create p g :: as => linesTo f (put cur p g) as
  | .fork p q :: as => linesTo f (put cur q (cur p)) as
  | .log p line :: as => (if cur p = f then [line] else []) ++ linesTo f cur as
  | .copy _ :: as => linesTo f cur as
  | .truncate _ :: as => linesTo f cur as

/-- The file that each process logs to afterwards. -/
def logsTo (cur : Nat → Nat) : List Act → Nat → Nat
  | [] => cur
  | .create p g :: as => logsTo (put cur p g) as
  | .fork p q :: as => logsTo (put cur q (cur p)) as
  | _ :: as => logsTo cur as

/-- The file that each process logs to now. -/
def World.logs (w : World) (p : Nat) : Nat := (w.desc (w.err p)).file

/-- A world in which every process that logs to file `f` has got its descriptor from log_create (or by fork from one that has). -/
def Created (w : World) (f : Nat) : Prop := (∀ p, w.err p < w.fresh) ∧ ∀ p, w.logs p = f → (w.desc (w.err p)).append = true

end Verif.LogTrunc
