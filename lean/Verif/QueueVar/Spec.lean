/-
  What users of a queue with messages of different sizes see (C155).  `Way`, `toProc`, `fromProc` are those of Verif/QueueMsg/Spec.lean.
-/
import Verif.QueueVar.Model
import Verif.QueueMsg.Spec

namespace Verif.QueueVar.Spec

open VarBox (Class)

variable {M : Type}

/-- What the user's class has to satisfy, for the messages `ok` that are sent: `serialize` writes `size()` bytes, at least `lo` ≥ 1; `deserialize` reads back what `serialize` wrote, whatever
follows, and returns false on `lo` zero bytes or more.  Objects that are never sent, an empty one for instance, may have any size. -/
structure Contract (T : Class M) (lo : Nat) (ok : M → Prop) : Prop where
  len : ∀ m, ok m → (T.ser m).length = T.size m
  pos : 1 ≤ lo
  low : ∀ m, ok m → lo ≤ T.size m
  back : ∀ m rest, ok m → T.des (T.ser m ++ rest) = .ok (some m)
  zeros : ∀ j, lo ≤ j → T.des (List.replicate j 0) = .ok none

/-- A process for which `writes` holds calls only put, with messages `ok`, and flush; another one only unflush and get, with objects whose size is at least `lo`.  Anybody may be killed. -/
def inRole (T : Class M) (lo : Nat) (ok : M → Prop) (writes : Nat → Bool) : Label M → Prop
  | .put i m => writes i = true ∧ ok m
  | .flush i => writes i = true
  | .unflush i => writes i = false
  | .timeout i => writes i = false
  | .get i h => writes i = false ∧ lo ≤ T.size h
  | .adv _ => True
  | .kill _ => True

/-- Process `i` is not at one of three places: between `info->end++` and `info->end %= info->size` with `end` behind the last box, between the same two statements for `start`, and inside of the
memset that clears a box after at least one byte was cleared. -/
def harmless (size : Nat) (q : ShmQueue.State) (i : Nat) : Prop :=
  ∀ p, q.procs[i]? = some p → (p.mode = .f4 → q.end_ < size) ∧ (p.mode = .u5 → q.start < size) ∧ ∀ k, p.mode = .u3 k → k = 0

/-- All kills of a run are harmless. -/
def harmlessKills (size bs : Nat) (T : Class M) (w : World M) : List (Label M) → Prop
  | [] => True
  | a :: as => (∀ i, a = .kill i → harmless size w.q i) ∧ ∀ w', step size bs T w a = .ok (some w') → harmlessKills size bs T w' as

/-- Process `i` is about to find that the ring is full: it has the lock, is before the test of coda/shm_queue.tcc:319, and the next place of `end` is `start`. -/
def findsFull (size : Nat) (q : ShmQueue.State) (i : Nat) : Prop := ∃ p, q.procs[i]? = some p ∧ p.mode = .f1 ∧ ((q.end_ + 1) % 2 ^ 32) % size = q.start

/-- In this run no flush finds the ring full. -/
def roomy (size bs : Nat) (T : Class M) (w : World M) : List (Label M) → Prop
  | [] => True
  | a :: as => (∀ i, a = .adv i → ¬ findsFull size w.q i) ∧ ∀ w', step size bs T w a = .ok (some w') → roomy size bs T w' as

/-- In this run every call of unflush, and the end of the run, comes after a `get` that would return false for the object `h`: the box is read up. -/
def readsUp (size bs : Nat) (T : Class M) (h : M) (w : World M) : List (Label M) → Prop
  | [] => ∀ j, (w.loc j).box.get T h = .ok none
  | a :: as => (∀ j, a = .unflush j → (w.loc j).box.get T h = .ok none) ∧ ∀ w', step size bs T w a = .ok (some w') → readsUp size bs T h w' as

/-- Not a call of process `i`: a step inside of a call, a kill, or something of another process. -/
def noCall (i : Nat) : Label M → Bool
  | .adv _ => true
  | .kill _ => true
  | .put j _ => !(j == i)
  | .flush j => !(j == i)
  | .unflush j => !(j == i)
  | .timeout j => !(j == i)
  | .get j _ => !(j == i)

end Verif.QueueVar.Spec
