/-
  What users of synque see: initial states, calls, results.
-/
import Verif.Synque.Model

namespace Verif.Synque

variable {T : Type}

/-- A new queue and `n` threads. -/
def init (T : Type) (n : Nat) : State T := ⟨none, [], List.replicate n .idle, false, [], [], []⟩

/-- No exception. -/
def Label.calm : Label T → Bool
  | .throw _ => false
  | _ => true

/-- The elements thread `i` called add with. -/
def adds (i : Nat) : List (Label T) → List T
  | [] => []
  | .add j e :: as => if j = i then e :: adds i as else adds i as
  | _ :: as => adds i as

/-- All elements handed out by the calls of get that have returned, in the order in which they released the mutex. -/
def got (s : State T) : List T := s.rets.flatMap Ret.out

/-- No call is in progress. -/
def quiet (s : State T) : Prop := ∀ m ∈ s.thr, m = .idle

/-- The thread owns the mutex. -/
def Mode.locked : Mode T → Bool
  | .a1 _ | .a1w _ _ | .a2 | .a3 | .s1 | .s2 | .z1 | .z2 _ | .g1 _ | .g2 _ | .g3 _ _ _ _ _ | .g3w _ _ _ _ _ _ | .g4 _ _ _ _ => true
  | _ => false

/-- The thread was woken in pthread_cond_wait and is about to take the mutex again. -/
def Mode.woken : Mode T → Bool
  | .gr _ => true
  | _ => false

/-- The thread will take an element although it has not yet: it was woken, or has waited and owns the mutex again; or it has added
one and is about to signal. -/
def Mode.onWay : Mode T → Bool
  | .gr _ | .g2 _ | .a2 => true
  | .g3 _ w _ out _ | .g3w _ w _ out _ _ => w && out.isEmpty
  | _ => false

/-- A step of the thread `i` that is inside a call (for a signal, with any choice of the thread it wakes). -/
def Label.by (i : Nat) : Label T → Bool
  | .adv k => k == i
  | .sig k _ => k == i
  | _ => false

/-- What a call of get may return, given the queue `d0` (front first) it saw when it last looked: the oldest elements, as many as asked
for, and 0; or nothing and −1 if the queue was empty. -/
def RetOk (r : Ret T) : Prop :=
  (r.ret = 0 ∧ r.d0 ≠ [] ∧ r.out = r.d0.reverse.take
      (match r.rq.max with
        | none => 1
        | some m => if m ≤ 0 then r.d0.length else min m.toNat r.d0.length)) ∨
  (r.ret = -1 ∧ r.d0 = [] ∧ r.out = [])

/-- The labels of executions with the only consumer `c`, without signal(), spurious wake-ups and exceptions. -/
def Label.oneConsumer (c : Nat) : Label T → Bool
  | .get i _ => i == c
  | .signal _ | .spur _ | .throw _ => false
  | _ => true

/-- No exception, no call of signal() and no spurious wake-up. -/
def Label.plain : Label T → Bool
  | .signal _ | .spur _ | .throw _ => false
  | _ => true

end Verif.Synque
