/-
  Specification of queue objects (C151): each object has a box of its own; a copy of an object that is not connected is an object that is not connected.  Copies of connected objects are not specified.
-/
import Verif.QueueCopy.Model

namespace Verif.QueueCopy.Spec

/-- An object: whether it is connected, its box, the position in it. -/
structure User where
  on : Bool
  buf : List UInt8
  pos : Nat
  deriving DecidableEq

structure State where
  us : Nat → Option User
  ring : List (List UInt8)

def State.init : State := ⟨fun _ => none, []⟩

def State.set (s : State) (h : Nat) (u : Option User) : State := { s with us := fun j => if j = h then u else s.us j }

/-- The box goes to the queue, if there is room; then it is empty. -/
def flush (room : Nat) (s : State) (h : Nat) (u : User) : State :=
  { (s.set h (some ⟨u.on, List.replicate u.buf.length 0, 0⟩)) with ring := if u.on && decide (s.ring.length < room) then s.ring ++ [u.buf] else s.ring }

/-- `m` at position `p`. -/
def write (b : List UInt8) (p : Nat) (m : List UInt8) : List UInt8 := b.take p ++ m ++ b.drop (p + m.length)

def tryPut (s : State) (h : Nat) (u : User) (m : List UInt8) : Option State :=
  if u.pos + m.length ≤ u.buf.length then some (s.set h (some ⟨u.on, write u.buf u.pos m, u.pos + m.length⟩)) else none

/-- One call; none: not specified. -/
def step (bs room : Nat) (s : State) : Op → Option (State × Reply)
  | .make h =>
    match s.us h with
    | some _ => none
    | none => some (s.set h (some ⟨false, [], 0⟩), .unit)
  | .copy h g =>
    match s.us h, s.us g with
    | some u, none => if u.on then none else some (s.set g (some u), .unit)
    | _, _ => none
  | .assign h g =>
    match s.us h, s.us g with
    | some u, some v => if h = g then some (s, .unit) else if u.on || v.on then none else some (s.set g (some u), .unit)
    | _, _ => none
  | .connect h =>
    match s.us h with
    | none => none
    | some u => if u.on then some (s, .threw) else some (s.set h (some ⟨true, List.replicate bs 0, 0⟩), .unit)
  | .put h m =>
    match s.us h with
    | none => none
    | some u =>
      match tryPut s h u m with
      | some s => some (s, .bool true)
      | none =>
        let s := flush room s h u
        match tryPut s h ⟨u.on, List.replicate u.buf.length 0, 0⟩ m with
        | some s => some (s, .bool true)
        | none => some (s, .bool false)
  | .get h k =>
    match s.us h with
    | none => none
    | some u => if u.pos + k ≤ u.buf.length then some (s.set h (some ⟨u.on, u.buf, u.pos + k⟩), .data (some ((u.buf.drop u.pos).take k))) else some (s, .data none)
  | .flush h =>
    match s.us h with
    | none => none
    | some u => some (flush room s h u, .unit)
  | .unflush h =>
    match s.us h with
    | none => none
    | some u =>
      if u.on then
        match s.ring with
        | [] => some (s, .bool false)
        | b :: rest => some ({ (s.set h (some ⟨true, b, 0⟩)) with ring := rest }, .bool true)
      else some (s, .bool false)
  | .disconnect h =>
    match s.us h with
    | none => none
    | some _ => some (s.set h (some ⟨false, [], 0⟩), .unit)
  | .destroy h =>
    match s.us h with
    | none => none
    | some _ => some (s.set h none, .unit)

def run (bs room : Nat) (s : State) : List Op → Option (State × List Reply)
  | [] => some (s, [])
  | op :: ops =>
    match step bs room s op with
    | none => none
    | some (s, r) =>
      match run bs room s ops with
      | none => none
      | some (s, rs) => some (s, r :: rs)

end Verif.QueueCopy.Spec
