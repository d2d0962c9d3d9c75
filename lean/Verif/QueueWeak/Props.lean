/-
  C173: the shared queue on processors that delay and reorder stores.
-/
import Verif.QueueWeak.Lemmas
import Verif.ShmQueue.Props

set_option linter.unusedVariables false

namespace Verif.QueueWeak

open Verif.ShmQueue

variable {size bs : Nat}

/-- **C173.** Whatever stores are delayed and reordered, and wherever processes are killed: if no semop of lock_queue is interrupted, the processes do, send, receive and lose the
same as if every store were seen by all at once. -/
theorem C173_same_partial (n : Nat) (xs : List Act) (hn : NoIntr xs) (s' : Sys) (e : exec size bs (init bs n) xs = some s') :
    ∃ t', ShmQueue.exec size bs (ShmQueue.init bs n) (acts xs) = some t' ∧ Same s'.st t' := by
  obtain ⟨t', e', h⟩ := sim_exec xs (sim_init n) hn e
  refine ⟨t', e', ?_⟩
  rw [h.st]
  exact ⟨rfl, rfl, rfl, rfl, rfl, rfl⟩

/-- C173: a process inside of a section sees the stores of all sections before: nothing is on its way to it, and when the other stores have arrived, in any order, all processes see
what it sees.  No other process is inside. -/
theorem C173_views_partial (n : Nat) (xs : List Act) (hn : NoIntr xs) (s' : Sys) (e : exec size bs (init bs n) xs = some s')
    (i : Nat) (p : Proc) (hp : s'.st.procs[i]? = some p) (hc : p.mode.inCS = true) :
    s'.inc i = [] ∧ (∀ j, (s'.inc j).foldl store (s'.view j) = s'.view i) ∧
      ∀ (j : Nat) (q : Proc), s'.st.procs[j]? = some q → q.mode.inCS = true → j = i := by
  obtain ⟨t', e', h⟩ := sim_exec xs (sim_init n) hn e
  have hps : s'.st.procs = t'.procs := by rw [h.st]; rfl
  have hi := h.none i p (by rw [← hps]; exact hp) hc
  refine ⟨hi, fun j => ?_, fun j q hq hd => lock_one h.lock (by rw [← hps]; exact hq) (by rw [← hps]; exact hp) hd hc⟩
  have h1 := h.view i
  rw [hi] at h1
  have h2 := h.view j
  simp only [storeAll, List.foldl_nil] at h1 h2
  rw [h2, h1]

/-- C173, with C54: if nobody is killed either, the boxes are received as they were accepted, in order, and nothing undefined happens. -/
theorem C173_fifo_partial (h1 : 1 ≤ size) (hz : size < 2 ^ 32) (hs : size * bs < 2 ^ 32) (n : Nat) (xs : List Act) (hc : ∀ l ∈ acts xs, l.calm = true)
    (s' : Sys) (e : exec size bs (init bs n) xs = some s') : s'.st.rcv <+: s'.st.acc ∧ s'.st.ub = false := by
  have hn : NoIntr xs := fun i hi => by have := hc _ hi; cases this
  obtain ⟨t', e', hp, hsem, ha, hr, hu, hl⟩ := C173_same_partial n xs hn s' e
  have hI := reach_inv h1 hz hs e' (calm_safe (acts xs) _ hc)
  rw [ha, hr, hu]
  exact ⟨inv_prefix hI, hI.ub⟩

/-- Process 0 sends one box. -/
def send0 : List Act := [.act (.flush 0 [7])] ++ List.replicate 7 (.act (.adv 0))

/-- The three stores of the flush are on their way to process 1, which cannot take the lock before they have arrived, in any order that keeps that of the two to `end`. -/
example :
    ((exec 2 1 (init 1 2) send0).map (fun s => (s.st.acc, (s.inc 1).map cell, (s.view 1).end_, (s.view 0).end_))) = some ([[7]], [.byte 0, .end_, .end_], 0, 1) ∧
    (exec 2 1 (init 1 2) (send0 ++ [.act (.unflush 1), .act (.adv 1), .act (.adv 1)])).isNone = true ∧
    (exec 2 1 (init 1 2) (send0 ++ [.arrive 1 2])).isNone = true ∧
    ((exec 2 1 (init 1 2) (send0 ++ [.arrive 1 1, .act (.unflush 1), .arrive 1 1, .act (.adv 1), .arrive 1 0] ++ List.replicate 7 (.act (.adv 1)))).map
      (fun s => (s.st.rcv, s.st.procs.map (·.mode), (s.inc 0).map cell))) = some ([[7]], [.idle, .idle], [.byte 0, .start, .start]) := by
  refine ⟨by decide +kernel, by decide +kernel, by decide +kernel, by decide +kernel⟩

/-- The processes of the first execution, with one of them killed inside of the section. -/
example : NoIntr (send0 ++ [.arrive 1 1, .act (.flush 0 [8]), .act (.adv 0), .act (.adv 0), .act (.kill 0), .arrive 1 0]) ∧
    ((exec 2 1 (init 1 2) (send0 ++ [.arrive 1 1, .act (.flush 0 [8]), .act (.adv 0), .act (.adv 0), .act (.kill 0), .arrive 1 0])).map (fun s => (s.st.acc, s.st.sem.r))) =
      some ([[7]], 1) := by
  refine ⟨fun i hi => ?_, by decide +kernel⟩
  simp [acts, send0, List.replicate] at hi

/-- **C173, refuted in general.** If the semop of lock_queue is interrupted, its process goes on without having waited for the stores: it receives a box of zeros, although the flush of
the box had returned before, while another process holds the lock but has stored nothing in its section yet.  If stores were seen at once, it would have received the box. -/
theorem C173_refuted : ∃ (xs : List Act) (s' : Sys) (t' : State), exec 2 1 (init 1 2) xs = some s' ∧ ShmQueue.exec 2 1 (ShmQueue.init 1 2) (acts xs) = some t' ∧
    t'.sem.r = 0 ∧ t'.acc = [[7]] ∧ t'.rcv = [[7]] ∧ s'.st.acc = [[7]] ∧ s'.st.rcv = [[0]] := by
  have h1 : ((exec 2 1 (init 1 2) (send0 ++ [.act (.flush 0 [8]), .act (.adv 0), .act (.unflush 1), .act (.adv 1), .act (.intr 1)] ++ List.replicate 4 (.act (.adv 1)))).map (fun s => (s.st.acc, s.st.rcv))) =
      some ([[7]], [[0]]) := by decide +kernel
  have h2 : ((ShmQueue.exec 2 1 (ShmQueue.init 1 2) (acts (send0 ++ [.act (.flush 0 [8]), .act (.adv 0), .act (.unflush 1), .act (.adv 1), .act (.intr 1)] ++ List.replicate 4 (.act (.adv 1))))).map (fun s => (s.sem.r, s.acc, s.rcv))) =
      some (0, [[7]], [[7]]) := by decide +kernel
  rw [Option.map_eq_some_iff] at h1 h2
  obtain ⟨s', e1, e2⟩ := h1
  obtain ⟨t', e3, e4⟩ := h2
  simp only [Prod.mk.injEq] at e2 e4
  exact ⟨_, s', t', e1, e3, e4.1, e4.2.1, e4.2.2, e2.1, e2.2⟩

end Verif.QueueWeak
