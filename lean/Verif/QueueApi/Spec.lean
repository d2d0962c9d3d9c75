/-
  Specification of the queue as its users see it (C105): for each key a first-in first-out list of boxes and twelve registers; for each handle a box.
-/
import Verif.QueueApi.Model

namespace Verif.QueueApi.Spec

/-- A queue: the parameters it was created with, the boxes in it, the oldest first, and its registers. -/
structure Queue where
  bs : Nat
  max : Nat
  items : List (List UInt8)
  regs : Nat → Nat

/-- A handle: the queue it is connected to, its box and the position in it. -/
structure User where
  key : Option Nat
  buf : List UInt8
  pos : Nat

structure State where
  qs : Nat → Option Queue
  us : Nat → User

def State.init : State := ⟨fun _ => none, fun _ => ⟨none, [], 0⟩⟩

/-- Parameters that the implementation is made for: at least one box, no more than the semaphore can count, a size that is a 32 bit number. -/
def Fit (bs max : Nat) : Bool := decide (1 ≤ max ∧ max ≤ 32768 ∧ max * bs < 2 ^ 32 ∧ bs < 2 ^ 32)

def zeros (n : Nat) : List UInt8 := List.replicate n 0

/-- A box is appended, unless there are `max - 1` boxes already. -/
def push (q : Queue) (b : List UInt8) : Queue := if q.items.length + 1 < q.max then { q with items := q.items ++ [b] } else q

/-- The box of the handle goes to its queue; then it is empty. -/
def flush (s : State) (h : Nat) : State :=
  let u := s.us h
  let s' := match u.key with
    | none => s
    | some k => match s.qs k with
      | none => s
      | some q => { s with qs := set s.qs k (some (push q u.buf)) }
  { s' with us := set s'.us h ⟨u.key, zeros u.buf.length, 0⟩ }

/-- `m` at position `p`. -/
def write (b : List UInt8) (p : Nat) (m : List UInt8) : List UInt8 := b.take p ++ m ++ b.drop (p + m.length)

/-- The message is put into the box if there is room. -/
def tryPut (s : State) (h : Nat) (m : List UInt8) : Option State :=
  let u := s.us h
  if u.pos + m.length ≤ u.buf.length then some { s with us := set s.us h ⟨u.key, write u.buf u.pos m, u.pos + m.length⟩ } else none

/-- One call: the new state and the reply; none: not specified. -/
def step (s : State) : Op → Option (State × Reply)
  | .connect h key bs max env =>
    match (s.us h).key with
    | some _ => some (s, .threw)
    | none =>
      if env.ftok = false then some (s, .threw)
      else if env.semget && env.shmget && env.shmat then
        let go (q : Queue) : State := ⟨set s.qs key (some q), set s.us h ⟨some key, zeros bs, 0⟩⟩
        match s.qs key with
        | none => if Fit bs max then some (go ⟨bs, max, [], fun _ => 0⟩, .unit) else none
        | some q => if bs = q.bs ∧ max = q.max then some (go q, .unit) else none
      else none
  | .disconnect h => some ({ s with us := set s.us h ⟨none, [], 0⟩ }, .unit)
  | .flush h => some (flush s h, .unit)
  | .unflush h =>
    match (s.us h).key with
    | none => some (s, .bool false)
    | some k =>
      match s.qs k with
      | none => some (s, .bool false)
      | some q =>
        match q.items with
        | [] => some (s, .bool false)
        | b :: rest => some (⟨set s.qs k (some { q with items := rest }), set s.us h ⟨some k, b, 0⟩⟩, .bool true)
  | .put h m =>
    match tryPut s h m with
    | some s => some (s, .bool true)
    | none =>
      match tryPut (flush s h) h m with
      | some s => some (s, .bool true)
      | none => some (flush s h, .bool false)
  | .get h k =>
    let u := s.us h
    if u.pos + k ≤ u.buf.length then some ({ s with us := set s.us h ⟨u.key, u.buf, u.pos + k⟩ }, .data (some ((u.buf.drop u.pos).take k)))
    else some (s, .data none)
  | .count h =>
    match (s.us h).key with
    | none => some (s, .num (-1))
    | some k =>
      match s.qs k with
      | none => some (s, .num (-1))
      | some q => some (s, .num q.items.length)
  | .setReg h off v =>
    if off < 12 then
      match (s.us h).key with
      | none => none
      | some k =>
        match s.qs k with
        | none => none
        | some q => some ({ s with qs := set s.qs k (some { q with regs := set q.regs off v }) }, .unit)
    else some (s, .unit)
  | .getReg h off =>
    if off < 12 then
      match (s.us h).key with
      | none => none
      | some k =>
        match s.qs k with
        | none => none
        | some q => some (s, .num (q.regs off))
    else some (s, .num 0)

/-- A history of calls; none: one of them is not specified. -/
def run (s : State) : List Op → Option (State × List Reply)
  | [] => some (s, [])
  | op :: ops =>
    match step s op with
    | none => none
    | some (s, r) =>
      match run s ops with
      | none => none
      | some (s, rs) => some (s, r :: rs)

end Verif.QueueApi.Spec
