/-
  What users of a queue see: who writes, who reads, and which message came from where.
-/
import Verif.QueueMsg.Model

namespace Verif.QueueMsg.Spec

variable {M : Type}

/-- One message on its way: the process that sent it, the one that got it, and the message. -/
structure Way (M : Type) where
  src : Nat
  dst : Nat
  msg : M

/-- The messages of `h` from, and to, a process. -/
def fromProc (h : List (Way M)) (i : Nat) : List M := (h.filter (fun x => x.src = i)).map (·.msg)
def toProc (h : List (Way M)) (j : Nat) : List M := (h.filter (fun x => x.dst = j)).map (·.msg)

/-- A process for which `writes` holds calls only put and flush; another one only unflush and get. -/
def inRole (writes : Nat → Bool) : Label M → Bool
  | .put i _ => writes i
  | .flush i => writes i
  | .unflush i => !writes i
  | .timeout i => !writes i
  | .get i => !writes i
  | .adv _ => true

/-- Process `i` is about to find that the ring is full: it has the lock, is before the test of coda/shm_queue.tcc:319, and the next place of `end` is `start`. -/
def findsFull (size : Nat) (w : World M) (i : Nat) : Prop := ∃ p, w.q.procs[i]? = some p ∧ p.mode = .f1 ∧ ((w.q.end_ + 1) % 2 ^ 32) % size = w.q.start

/-- In this run no flush finds the ring full. -/
def roomy (size bs K : Nat) (ser : M → List UInt8) (des : List UInt8 → Option M) (w : World M) : List (Label M) → Prop
  | [] => True
  | a :: as => (∀ i, a = .adv i → ¬ findsFull size w i) ∧ ∀ w', step size bs K ser des w a = some w' → roomy size bs K ser des w' as

/-- In this run every call of unflush, and the end of the run, comes after a `get` that would return false: the box is read up. -/
def readsUp (size bs K : Nat) (ser : M → List UInt8) (des : List UInt8 → Option M) (w : World M) : List (Label M) → Prop
  | [] => ∀ j, (w.loc j).box.get K des = none
  | a :: as => (∀ j, a = .unflush j → (w.loc j).box.get K des = none) ∧ ∀ w', step size bs K ser des w a = some w' → readsUp size bs K ser des w' as

/-- Not a call of process `i`: a step inside of a call, or of another process. -/
def noCall (i : Nat) : Label M → Bool
  | .adv _ => true
  | .put j _ => !(j == i)
  | .flush j => !(j == i)
  | .unflush j => !(j == i)
  | .timeout j => !(j == i)
  | .get j => !(j == i)

end Verif.QueueMsg.Spec
