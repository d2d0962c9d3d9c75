import Verif.QueueSegRm.Model
import Verif.QueueApi.Spec
/-
  Specification for C175: each removal starts a new queue.  The queues and handles are those of C105; the queue of the key file `k` after `g` removals has the name `segId k g`.
-/
namespace Verif.QueueSegRm.Spec

open Verif.QueueApi Verif.SegRm
open Verif.QueueApi.Spec (State)

/-- A call with the key file `key` under the name `segId key (gen key)`. -/
def name (gen : Nat → Nat) : Op → Op
  | .connect h key bs max env => .connect h (segId key (gen key)) bs max env
  | op => op

/-- The queue of this name is the one that its key file has now. -/
def current (gen : Nat → Nat) (id : Nat) : Bool := decide (id = segId (Nat.unpair id).1 (gen (Nat.unpair id).1))

/-- The handle is not connected to a queue whose segment was removed. -/
def fresh (gen : Nat → Nat) (s : State) (h : Nat) : Bool :=
  match (s.us h).key with
  | none => true
  | some id => current gen id

/-- A handle of a removed queue does not send, receive or count. -/
def allowed (gen : Nat → Nat) (s : State) : Op → Bool
  | .flush h => fresh gen s h
  | .unflush h => fresh gen s h
  | .put h _ => fresh gen s h
  | .count h => fresh gen s h
  | _ => true

/-- The key file has no queue, or one without boxes. -/
def noBoxes (gen : Nat → Nat) (s : State) (key : Nat) : Bool :=
  match s.qs (segId key (gen key)) with
  | none => true
  | some q => q.items.isEmpty

/-- A history in which queues are removed when they are empty, and their handles only disconnect, use their box and registers; none: something else happens. -/
def run (gen : Nat → Nat) (s : State) : List Ev → Option ((Nat → Nat) × State × List Reply)
  | [] => some (gen, s, [])
  | .rm key :: es => if noBoxes gen s key then run (set gen key (gen key + 1)) s es else none
  | .call op :: es =>
    if allowed gen s op then
      match QueueApi.Spec.step s (name gen op) with
      | none => none
      | some (s, r) =>
        match run gen s es with
        | none => none
        | some (gen, s, rs) => some (gen, s, r :: rs)
    else none

end Verif.QueueSegRm.Spec
