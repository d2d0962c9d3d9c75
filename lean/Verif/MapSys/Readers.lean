import Verif.MapSys.Progress
/-
  Property C176: calls that read do not wait for each other.
-/
set_option linter.unusedVariables false
set_option linter.unusedSimpArgs false

namespace Verif.MapSys

open Verif.ShmPool Verif.ShmMap

variable {V : Type} {N H : Nat}

theorem semop1_up (v : Int) (h0 : 0 ≤ v) (h : v + 1 ≤ RwLock.SEMVMX) : RwLock.semop1 v 1 = some (v + 1) := by
  unfold RwLock.semop1
  rw [if_neg (by decide), if_pos ⟨by omega, h⟩]

theorem semop1_wait : RwLock.semop1 0 0 = some 0 := rfl

theorem semop_two (v adj : RwLock.Vals) (b c : RwLock.SemBuf) (x y : Int) (h1 : RwLock.semop1 (v.get b.num) b.op = some x)
    (h2 : RwLock.semop1 ((v.set b.num x).get c.num) c.op = some y) : ∃ v' a, RwLock.semop v adj [b, c] = some (v', a) := by
  simp only [RwLock.semop, h1, h2]
  exact ⟨_, _, rfl⟩

/-- The semaphores let a reader in while nobody writes. -/
theorem reader_sem (n : Nat) (h : (n : Int) + 1 ≤ RwLock.SEMVMX) (adj : RwLock.Vals) : ∃ v a, RwLock.semop ⟨(n : Int), 0⟩ adj RwLock.lock_read_rw = some (v, a) := by
  have e := semop1_up (n : Int) (Int.natCast_nonneg n) h
  unfold RwLock.lock_read_rw
  refine semop_two _ _ _ _ 0 ((n : Int) + 1) semop1_wait ?_
  simp only [RwLock.Vals.get, RwLock.Vals.set]
  exact e

/-- **C176.** In every state that can be reached (any number of processes, any schedule, kills anywhere) in which nobody writes and fewer than 32767 processes read, a process that has called `read`,
`size` or the client's own `lock_read_rw` and waits gets the lock at once, whatever the readers are doing, and is in its section together with them. -/
theorem C176_readers_together (s s1 : Sys V) (h : Start H s) (xs : List (Act V)) (es : List (Event V)) (he : exec N H s xs = some (s1, es)) (hw : ∀ j, s1.rw.mode j ≠ some .writing)
    (hr : (s1.rw.procs.countP (fun p => decide (p.mode = .reading))) < 32767) (i : Nat) (c : Call V) (hcall : c = .op .size ∨ (∃ k, c = .op (.read k)) ∨ ∃ ks, c = .readSection ks)
    (hc : s1.pend i = .called c) (hi : s1.rw.mode i = some .out) :
    ∃ s2, step N H s1 (.lock i) = some (s2, []) ∧ s2.rw.mode i = some .reading ∧ ∀ j, s1.rw.mode j = some .reading → s2.rw.mode j = some .reading := by
  have hinv := inv_sys (RwLock.inv_start h.1) he
  obtain ⟨p, hp, hm⟩ : ∃ p, s1.rw.procs[i]? = some p ∧ p.mode = .out := by
    unfold RwLock.State.mode at hi
    cases hp : s1.rw.procs[i]? with
    | none => rw [hp] at hi; simp at hi
    | some p => rw [hp, Option.map_some, Option.some.injEq] at hi; exact ⟨p, rfl, hi⟩
  have hreads : c.reads = true := by rcases hcall with rfl | ⟨k, rfl⟩ | ⟨ks, rfl⟩ <;> rfl
  have hw0 : RwLock.cnt .writing s1.rw.procs = 0 := by
    unfold RwLock.cnt
    rw [List.countP_eq_zero]
    intro q hq hmq
    simp only [decide_eq_true_eq] at hmq
    obtain ⟨j, hj⟩ := List.getElem?_of_mem hq
    refine hw j ?_
    unfold RwLock.State.mode
    rw [hj, Option.map_some, hmq]
  have h1 := hinv.r
  have h2 := hinv.w
  rw [hw0] at h2
  have hsem : s1.rw.sem = ⟨(RwLock.cnt .reading s1.rw.procs : Nat), 0⟩ := by
    cases hs : s1.rw.sem with
    | mk r w => rw [hs] at h1 h2; simp only at h1 h2; rw [h1, h2]; rfl
  obtain ⟨v, b, hv⟩ := reader_sem (RwLock.cnt .reading s1.rw.procs) (by unfold RwLock.cnt RwLock.SEMVMX; omega) p.adj
  simp only [step, hc, Sys.low, hreads, if_true, RwLock.step, hp, if_pos hm, RwLock.State.doSem, hsem, hv]
  refine ⟨_, rfl, ?_, ?_⟩
  · simp only [RwLock.State.mode, RwLock.State.upd, List.getElem?_set_self (List.getElem?_eq_some_iff.mp hp).1, Option.map_some]
  · intro j hj
    by_cases e : i = j
    · subst e; rw [hi] at hj; simp at hj
    · simp only [RwLock.State.mode, RwLock.State.upd, List.getElem?_set_ne e] at hj ⊢
      exact hj

/-- Process 0 is inside `read`, process 1 has called `size`. -/
def two : List (Act Nat) := whole 0 (.op (.insert 4 40)) ++ [.call 0 (.op (.read 4)), .lock 0, .body 0, .call 1 (.op .size)]

/-- Non-vacuity. -/
example : (exec 4 2 s0 two).map (fun q => (q.1.rw.mode 0, q.1.rw.mode 1, q.1.rw.mode 2)) = some (some .reading, some .out, some .fresh) := by decide +kernel

example : (exec 4 2 s0 (two ++ [.lock 1])).map (fun q => (q.1.rw.mode 0, q.1.rw.mode 1, q.1.rw.mode 2)) = some (some .reading, some .reading, some .fresh) := by decide +kernel

end Verif.MapSys
