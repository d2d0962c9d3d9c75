/-
  What a program expects of a queue object that its threads share (C163).
-/
import Verif.QueueThreads.Model

namespace Verif.QueueThreads

/-- An object that one thread uses: the bytes of the current box, the place in it, the boxes sent, the number of flushes and unflushes. -/
structure Q where
  buf : List UInt8
  pos : Nat
  out : List (List UInt8)
  nf : Nat
  nu : Nat
  deriving DecidableEq

/-- A new object with boxes of `bs` bytes. -/
def Q.new (bs : Nat) : Q := ⟨List.replicate bs 0, 0, [], 0, 0⟩

/-- The box is sent, if there is room, and is empty again. -/
def Q.flush (ok : Nat → Bool) (q : Q) : Q :=
  { q with buf := List.replicate q.buf.length 0, pos := 0, out := if ok q.nf then q.out ++ [q.buf] else q.out, nf := q.nf + 1 }

/-- The message is added to the box. -/
def Q.add (q : Q) (m : List UInt8) : Q := { q with buf := patch q.buf q.pos m, pos := q.pos + m.length }

/-- One call on an object that nobody else uses. -/
def Q.call (K : Nat) (ok : Nat → Bool) (rx : Nat → Option (List UInt8)) (q : Q) : Call → Q × Ret
  | .put m =>
    if q.pos + K ≤ q.buf.length then (q.add m, .bool true)
    else if K ≤ q.buf.length then ((q.flush ok).add m, .bool true)
    else (q.flush ok, .bool false)
  | .flush => (q.flush ok, .void)
  | .get =>
    if q.pos + K ≤ q.buf.length then ({ q with pos := q.pos + K }, .msg (some ((q.buf.drop q.pos).take K)))
    else (q, .msg none)
  | .unflush =>
    match rx q.nu with
    | none => ({ q with nu := q.nu + 1 }, .bool false)
    | some b => ({ q with buf := b, pos := 0, nu := q.nu + 1 }, .bool true)

/-- Calls one after the other, and what they return. -/
def Q.calls (K : Nat) (ok : Nat → Bool) (rx : Nat → Option (List UInt8)) (q : Q) : List Call → Q × List (Call × Ret)
  | [] => (q, [])
  | c :: cs =>
    let r := q.call K ok rx c
    let rs := Q.calls K ok rx r.1 cs
    (rs.1, (c, r.2) :: rs.2)

/-- The object as the threads leave it. -/
def St.q (s : St) : Q := ⟨s.buf, s.pos, s.out, s.nf, s.nu⟩

/-- No call is in progress. -/
def quiet (s : St) : Prop := ∀ p ∈ s.thr, p = .idle

/-- The calls in the order in which they began. -/
def started : List Label → List Call
  | [] => []
  | .call _ c :: ls => c :: started ls
  | .adv _ :: ls => started ls

/-- All messages have `K` bytes. -/
def sized (K : Nat) (ls : List Label) : Prop := ∀ i m, Label.call i (.put m) ∈ ls → m.length = K

/-- A box of `bs` bytes with these messages, filled up with zeros. -/
def boxOf (bs : Nat) (ms : List (List UInt8)) : List UInt8 := ms.flatten ++ List.replicate (bs - ms.flatten.length) 0

/-- The messages that the calls put. -/
def putsOf : List Call → List (List UInt8)
  | [] => []
  | .put m :: cs => m :: putsOf cs
  | _ :: cs => putsOf cs

end Verif.QueueThreads
