/-
  C146: one handle for writing and then for reading.
-/
import Verif.QueueKill.PhaseLemmas
import Verif.QueueKill.Props

set_option linter.unusedVariables false

namespace Verif.QueueKill

open ShmQueue (Box Proc Mode boxOf Codec accepted delivered flushed)
open QueueMsg (World)
open QueueMsg.Spec (Way toProc fromProc)
open Spec

variable {M : Type} {size bs K : Nat} {ser : M → List UInt8} {des : List UInt8 → Option M}

theorem clean_init (n i : Nat) : PK K bs ser des .clean (QueueMsg.init (M := M) bs n) i [] [] := by
  refine ⟨.inl (QueueMsg.winv_init n i), rfl, ?_⟩
  intro p hp
  refine ⟨fun _ => rfl, fun _ => rfl⟩

/-- **C146_phases_partial**: every process may use its handle first to write and, once it has called flush, to read; any number of processes, any schedule, kills at all but the three places of
`harmless`: every message that was got, was sent by somebody, nothing is got twice, and the messages of one sender are got in the order in which they were sent.  Missing: going back to writing after
reading, and reading without a flush: see `QueueMsg.C146_refuted`, `C146_refuted_back`, `C146_refuted_dirty`. -/
theorem C146_phases_partial (hc : Codec K ser des) (hz : ∀ n, des (List.replicate n 0) = none) (h1 : 1 ≤ size) (h2 : size < 2 ^ 32) (h3 : size * bs < 2 ^ 32)
    (n : Nat) (as : List (Label M)) (w : World M) (hr : writesThenReads as) (hk : harmlessKills size bs K ser des (QueueMsg.init bs n) as)
    (he : exec size bs K ser des (QueueMsg.init bs n) as = some w) :
    ∃ h : List (Way M), (∀ j, toProc h j = w.got j) ∧ ∀ i, (fromProc h i).Sublist (w.sent i) := by
  refine ways_of_views hc hz h1 h2 h3 n as w hk he (fun i => ?_)
  obtain ⟨ph, hp⟩ := pk_exec (size := size) hc.len hz as .clean (QueueMsg.init bs n) w [] [] (clean_init n i) (hr i) he
  rw [List.nil_append, List.nil_append] at hp
  exact hp.view

/-- The two processes each send a message and then get the message of the other one. -/
def run4 : List (Label (Fin 255)) :=
  [.lab (.put 0 5), .lab (.put 1 7), .lab (.flush 1)] ++ advs 1 8 ++ [.lab (.flush 0)] ++ advs 0 8 ++ [.lab (.unflush 0)] ++ advs 0 10 ++ [.lab (.get 0), .lab (.get 0), .lab (.unflush 1)] ++ advs 1 10 ++ [.lab (.get 1)]

theorem nexts_other {i : Nat} : ∀ (as : List (Label M)) (ph : Phase), as.all (fun a => decide (who a ≠ i)) = true → Spec.nexts ph i as = some ph
  | [], _, _ => rfl
  | a :: as, ph, h => by
    simp only [List.all_cons, Bool.and_eq_true, decide_eq_true_eq] at h
    have : Spec.next ph i a = some ph := by
      cases a with
      | kill k => rfl
      | lab b => cases b <;> simp [who, QueueMsg.Label.who] at h <;> simp [Spec.next, h.1]
    simp only [Spec.nexts, this]
    exact nexts_other as ph h.2

theorem run4_ok : writesThenReads run4 := by
  intro i
  match i with
  | 0 => decide +kernel
  | 1 => decide +kernel
  | i + 2 => rw [nexts_other _ _ (by simp [run4, advs, who, QueueMsg.Label.who])]; rfl

example : harmlessKills 4 2 1 ShmQueue.ser1 ShmQueue.des1 (QueueMsg.init 2 2) run4 := harmlessB_ok _ _ (by decide +kernel)
example : ((exec 4 2 1 ShmQueue.ser1 ShmQueue.des1 (QueueMsg.init 2 2) run4).map (fun w => (w.sent 0, w.sent 1, w.got 0, w.got 1))) = some ([5], [7], [7], [5]) := by decide +kernel

/-- A process that gets a message and then calls flush, having put nothing. -/
def run5 : List (Label (Fin 255)) :=
  [.lab (.put 0 5), .lab (.flush 0)] ++ advs 0 8 ++ [.lab (.unflush 1)] ++ advs 1 10 ++ [.lab (.get 1), .lab (.flush 1)] ++ advs 1 8 ++ [.lab (.unflush 2)] ++ advs 2 10 ++ [.lab (.get 2)]

/-- **C146_refuted_back**: a process that has read and then calls flush sends again what it received: two processes get a message that was sent once. -/
theorem C146_refuted_back : ∃ w, exec 4 2 1 ShmQueue.ser1 ShmQueue.des1 (QueueMsg.init 2 3) run5 = some w ∧ w.sent 0 = [5] ∧ w.sent 1 = [] ∧ w.sent 2 = [] ∧ w.got 1 = [5] ∧ w.got 2 = [5] :=
  ⟨_, rfl, by decide +kernel⟩

/-- A process that puts a message and then, without a flush, receives a box. -/
def run6 : List (Label (Fin 255)) :=
  [.lab (.put 0 5), .lab (.flush 0)] ++ advs 0 8 ++ [.lab (.put 1 7), .lab (.unflush 1)] ++ advs 1 10 ++ [.lab (.get 1), .lab (.get 1), .lab (.flush 1)] ++ advs 1 8 ++ [.lab (.unflush 2)] ++ advs 2 10 ++ [.lab (.get 2), .lab (.get 2)]

/-- **C146_refuted_dirty**: the message that it put is gone, although put returned true and flush was called, and nothing was ever thrown away by the ring. -/
theorem C146_refuted_dirty : ∃ w, exec 4 2 1 ShmQueue.ser1 ShmQueue.des1 (QueueMsg.init 2 3) run6 = some w ∧ w.sent 1 = [7] ∧ w.q.lost = 0 ∧ w.got 0 = [] ∧ w.got 1 = [5] ∧ w.got 2 = [5] ∧
    w.q.start = w.q.end_ :=
  ⟨_, rfl, by decide +kernel⟩

end Verif.QueueKill
