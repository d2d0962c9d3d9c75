/-
  C136: unflush with flags and a time to wait.
-/
import Verif.QueueOpt.Dead

namespace Verif.QueueOpt
open Verif.QueueApi Verif.QueueApi.Spec

def ok : Env := ⟨true, true, true, true⟩

/-- All histories of calls, also those in which a box arrives while another process waits, and of exits of processes: if no caller passes SEM_UNDO or a negative time,
every call answers what the specification says, after the time it says. Missing: SEM_UNDO and negative times, for which it is false. -/
theorem C136_partial (ops : List XOp) (s : State) (as : List Answer) (h : Spec.run State.init ops = some (s, as)) : ∃ x, xrun XWorld.init ops = .ok (x, as) := by
  obtain ⟨x, h1, -⟩ := xrun_sim ops init_xrel h
  exact ⟨x, h1⟩

/-- A writer and a reader that waits 2 seconds: the box comes after 1.5 seconds; next time after 2 seconds, which is too late; then the reader does not wait. -/
def history : List XOp :=
  [.call (.connect 0 7 2 4 ok), .call (.connect 1 7 2 4 ok), .call (.put 0 [5, 6]), .race 1 ⟨false, false⟩ 2000000 1500000000 0, .call (.get 1 2), .call (.put 0 [7, 8]),
    .race 1 ⟨false, false⟩ 2000000 2000000000 0, .unflush 1 ⟨false, false⟩ 2000000, .call (.get 1 2), .unflush 1 ⟨true, false⟩ 2000000, .exit 1]

example : (Spec.run State.init history).map (·.2) =
    some [⟨.unit, 0⟩, ⟨.unit, 0⟩, ⟨.bool true, 0⟩, ⟨.bool true, 1500000000⟩, ⟨.unit, 0⟩, ⟨.data (some [5, 6]), 0⟩, ⟨.bool true, 0⟩, ⟨.bool false, 2000000000⟩, ⟨.unit, 0⟩,
      ⟨.bool true, 0⟩, ⟨.data (some [7, 8]), 0⟩, ⟨.bool false, 0⟩, ⟨.unit, 0⟩] := by decide +kernel

/-- With a negative time unflush fails at once and takes nothing, whatever is in the queue, after every history. -/
theorem C136_refuted_negative (x : XWorld) (h : Nat) (f : Flags) (usec : Int) (hu : usec < 0) : unflush x h f usec = .ok (x, ⟨.bool false, 0⟩) := by
  have hv : (toTs usec).valid = false := by
    cases e : (toTs usec).valid with
    | false => rfl
    | true => have := (toTs_valid usec).1 e; omega
  simp [unflush, semtimedop, hv]

example : (xrun XWorld.init [.call (.connect 0 7 2 4 ok), .call (.put 0 [5, 6]), .call (.flush 0), .unflush 0 ⟨false, false⟩ (-1), .call (.count 0)]).map (·.2) =
    .ok [⟨.unit, 0⟩, ⟨.bool true, 0⟩, ⟨.unit, 0⟩, ⟨.bool false, 0⟩, ⟨.num 1, 0⟩] := by decide +kernel

/-- After every history that leaves one box in a queue: a process receives it with SEM_UNDO and exits; then another process receives a box, although the queue is empty;
and from then on, whatever the processes do, nobody ever receives anything from this queue. -/
theorem C136_refuted_undo (ops : List XOp) (s : State) (as : List Answer) (h : Spec.run State.init ops = some (s, as)) (r r' k : Nat) (hr : (s.us r).key = some k)
    (hr' : (s.us r').key = some k) (hn : r' ≠ r) (b : List UInt8) (hb : Spec.boxes s r = some [b]) (n : Bool) (f : Flags) (hf : f.undo = false) (u v : Int) (hu : 0 ≤ u)
    (hv : 0 ≤ v) :
    ∃ x, xrun XWorld.init (ops ++ [.unflush r ⟨n, true⟩ u, .exit r, .unflush r' f v]) = .ok (x, as ++ [⟨.bool true, 0⟩, ⟨.unit, 0⟩, ⟨.bool true, 0⟩]) ∧
      ∀ cont x' as', xrun x cont = .ok (x', as') → ∀ g f' u', (x'.w.hs g).info = some k → ∃ t, unflush x' g f' u' = .ok (x', ⟨.bool false, t⟩) := by
  obtain ⟨x, h1, R⟩ := xrun_sim ops init_xrel h
  obtain ⟨x', h2, D⟩ := undo_phantom R hr hr' hn hb n f hf u v hu hv
  exact ⟨x', xrun_append _ _ h1 h2, fun cont x2 as2 hc g f' u' hg => (D.run cont hc).nothing hg f' u'⟩

example : ∃ s as, Spec.run State.init [.call (.connect 0 7 2 4 ok), .call (.connect 1 7 2 4 ok), .call (.put 0 [5, 6]), .call (.flush 0)] = some (s, as) ∧
    (s.us 1).key = some 7 ∧ (s.us 0).key = some 7 ∧ Spec.boxes s 1 = some [[5, 6]] := ⟨_, _, rfl, by decide +kernel, by decide +kernel, by decide +kernel⟩

/-- For instance: the second box is a box of zeros; the next message is lost. -/
example : (xrun XWorld.init [.call (.connect 0 7 2 9 ok), .call (.connect 1 7 2 9 ok), .call (.put 0 [5, 6]), .call (.flush 0),
      .unflush 1 ⟨false, true⟩ 0, .call (.get 1 2), .exit 1, .call (.connect 1 7 2 9 ok), .unflush 1 ⟨false, false⟩ 0, .call (.get 1 2),
      .call (.put 0 [7, 8]), .call (.flush 0), .unflush 1 ⟨false, false⟩ 0]).map (·.2) =
    .ok [⟨.unit, 0⟩, ⟨.unit, 0⟩, ⟨.bool true, 0⟩, ⟨.unit, 0⟩,
      ⟨.bool true, 0⟩, ⟨.data (some [5, 6]), 0⟩, ⟨.unit, 0⟩, ⟨.unit, 0⟩, ⟨.bool true, 0⟩, ⟨.data (some [0, 0]), 0⟩,
      ⟨.bool true, 0⟩, ⟨.unit, 0⟩, ⟨.bool false, 0⟩] := by decide +kernel

end Verif.QueueOpt
