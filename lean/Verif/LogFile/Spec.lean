/-
  What the log files should contain, in terms of the calls alone.
-/
import Verif.LogFile.Model

namespace Verif.LogFile

/-- A write to a file. -/
structure Entry where
  file : Nat
  item : Rec
  deriving DecidableEq

/-- The part of a thread's log that is due: lines begun, number of the next part, parts not yet written. -/
structure Due where
  lines : Nat
  part : Nat
  rest : List (List UInt8)

/-- The parts that thread `t` of process `p` has written, in order, by its calls and the success of its writes alone. -/
def due (p t : Nat) : List Act → Due → List Rec
  | [], _ => []
  | .log q u parts :: as, d => if q = p ∧ u = t then due p t as ⟨d.lines + 1, 0, parts⟩ else due p t as d
  | .write q u ok :: as, d =>
    if q = p ∧ u = t then
      match d.rest with
      | [] => due p t as d
      | x :: r => (if ok then [⟨p, t, d.lines - 1, d.part, x⟩] else []) ++ due p t as ⟨d.lines, d.part + 1, r⟩
    else due p t as d
  | _ :: as, d => due p t as d

/-- What file `f` gets from a sequence of writes. -/
def into (f : Nat) (h : List Entry) : List Rec := (h.filter (·.file = f)).map (·.item)

/-- What thread `t` of process `p` writes in a sequence of writes. -/
def by' (p t : Nat) (h : List Entry) : List Rec := (h.map (·.item)).filter (fun r => r.proc = p ∧ r.thr = t)

/-- All threads are outside of the functions of the log, and descriptor 2 of each process is open. -/
def Calm (w : World) : Prop := (∀ p t, w.pc p t = .idle) ∧ (∀ p, w.lock p = none) ∧ (∀ p, w.tab p STDERR ≠ none)

/-- The lines that thread `t` of process `p` has logged, each as the list of its parts. -/
def calls (p t : Nat) : List Act → List (List (List UInt8))
  | [] => []
  | .log q u parts :: as => if q = p ∧ u = t then parts :: calls p t as else calls p t as
  | _ :: as => calls p t as

/-- The text of a file. -/
def text (rs : List Rec) : List UInt8 := rs.flatMap (·.data)

end Verif.LogFile
