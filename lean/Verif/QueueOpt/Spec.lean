/-
  What the caller of unflush expects (C136): a box if there is one; otherwise it waits for the given time, or until another process puts a box into its queue.  The queues
  are those of Verif.QueueApi.Spec.
-/
import Verif.QueueApi.Spec
import Verif.QueueOpt.Model

namespace Verif.QueueOpt.Spec
open Verif.QueueApi Verif.QueueApi.Spec

/-- The boxes in the queue to which `h` is connected. none: it is not connected. -/
def boxes (s : State) (h : Nat) : Option (List (List UInt8)) := (s.us h).key.bind fun k => (s.qs k).map (·.items)

/-- `h` is connected, and its queue is empty. -/
def starved (s : State) (h : Nat) : Bool := match boxes s h with | some [] => true | _ => false

/-- A call that does not wait. -/
def quick (s : State) (op : Op) : Option (State × List Answer) :=
  match QueueApi.Spec.step s op with
  | none => none
  | some (s, r) => some (s, [⟨r, 0⟩])

/-- unflush, if nothing happens meanwhile: it waits for `usec` microseconds if there is no box and the caller is ready to wait. -/
def unflush (s : State) (h : Nat) (nowait : Bool) (usec : Int) : Option (State × List Answer) :=
  if starved s h && !nowait then some (s, [⟨.bool false, usec * 1000⟩]) else quick s (.unflush h)

/-- One step after the other. -/
def both (a : Option (State × List Answer)) (f : State → Option (State × List Answer)) : Option (State × List Answer) :=
  match a with
  | none => none
  | some (s, x) =>
    match f s with
    | none => none
    | some (s, y) => some (s, x ++ y)

/-- none: not specified. The caller must not use SEM_UNDO, and a time is not negative.
race: `h` calls unflush, and `g` calls flush `t` nanoseconds later. If `h` is still waiting, it gets the box of `g` then (if that goes to its queue). -/
def step (s : State) : XOp → Option (State × List Answer)
  | .call op => quick s op
  | .unflush h f usec => if f.undo = true ∨ usec < 0 then none else unflush s h f.nowait usec
  | .race h f usec t g =>
    if f.undo = true ∨ usec < 0 ∨ h = g then none
    else if starved s h && !f.nowait && decide ((t : Int) < usec * 1000) then
      match QueueApi.Spec.step (QueueApi.Spec.flush s g) (.unflush h) with
      | some (s', .bool true) => some (s', [⟨.bool true, t⟩, ⟨.unit, 0⟩])
      | _ => some (QueueApi.Spec.flush s g, [⟨.bool false, usec * 1000⟩, ⟨.unit, 0⟩])
    else both (unflush s h f.nowait usec) fun s => quick s (.flush g)
  | .exit h => quick s (.disconnect h)

def run (s : State) : List XOp → Option (State × List Answer)
  | [] => some (s, [])
  | op :: ops => both (step s op) fun s => run s ops

end Verif.QueueOpt.Spec
