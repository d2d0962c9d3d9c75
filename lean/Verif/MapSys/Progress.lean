import Verif.MapSys.Props
/-
  Properties C118 and C119: calls end, nobody waits for ever for a process that has finished, and a writer may wait for ever for readers.
-/
set_option linter.unusedVariables false
set_option linter.unusedSimpArgs false

namespace Verif.MapSys

open Verif.ShmPool Verif.ShmMap

variable {V : Type} {N H : Nat}

/-! ## a process in its critical section -/

/-- Process `i` is inside the critical section of its call `c` and needs at most `k` more steps there. -/
structure Holding (N H k : Nat) (a : Spec.State V) (c : Call V) (s : Sys V) (i : Nat) : Prop where
  inv : RwLock.Inv s.rw
  pend : s.pend i = .called c
  proc : ∃ p, s.rw.procs[i]? = some p ∧ Inside N H k a c s.rw.mem p.loc ∧ ((p.mode = .writing ∧ c.reads = false) ∨ (p.mode = .reading ∧ c.reads = true))

theorem inside_mono {k k' : Nat} {a : Spec.State V} {c : Call V} {m : Map V} {l : Loc V} (h : Inside N H k a c m l) (hk : k ≤ k') : Inside N H k' a c m l := by
  cases h with
  | between h1 h2 h3 => exact .between h1 h2 (by omega)
  | during h1 h2 => exact .during h1 (by omega)

theorem inside_zero {a : Spec.State V} {c : Call V} {m : Map V} {l : Loc V} (h : Inside N H 0 a c m l) : l.finished = true := by
  cases h with
  | during h1 h2 => omega
  | between h1 h2 h3 =>
    unfold Loc.finished
    rw [h1]
    cases ht : l.todo with
    | nil => rfl
    | cons o os =>
      rw [ht, List.length_cons, Nat.mul_add] at h3
      omega

theorem sim_holding {s : Sys V} {a : Spec.State V} (h : Sim N H s a) {i : Nat} {p : RwLock.Proc (Loc V)} (hp : s.rw.procs[i]? = some p) (hin : inSection p) :
    ∃ k c, Holding N H k a c s i := by
  have := h.ok i
  rw [hp] at this
  cases hx : s.pend i with
  | idle => rw [hx] at this; exact absurd hin (this.2 p rfl)
  | returning r => rw [hx] at this; obtain ⟨_, q, hq, hm'⟩ := this; cases hq; rcases hin with h | h <;> rw [hm'] at h <;> cases h
  | called c =>
    rw [hx] at this
    obtain ⟨_, q, hq, hm'⟩ := this
    cases hq
    rcases hm' with hm' | ⟨h1, h2, k, hi⟩ | ⟨h1, h2, k, hi⟩
    · rcases hin with h | h <;> rw [hm'] at h <;> cases h
    · exact ⟨k, c, h.inv, hx, p, hp, hi, Or.inl ⟨h1, h2⟩⟩
    · exact ⟨k, c, h.inv, hx, p, hp, hi, Or.inr ⟨h1, h2⟩⟩

theorem holding_mode {k : Nat} {a : Spec.State V} {c : Call V} {s : Sys V} {i : Nat} (h : Holding N H k a c s i) {p : RwLock.Proc (Loc V)} (hp : s.rw.procs[i]? = some p) : inSection p := by
  obtain ⟨q, hq, _, hm⟩ := h.proc
  rw [hp] at hq
  cases hq
  rcases hm with hm | hm
  · exact Or.inl hm.1
  · exact Or.inr hm.1

/-- A step of the lock that is not the process' own body, unlock or death. -/
theorem hold_low {k : Nat} {a : Spec.State V} {c : Call V} {s : Sys V} {i : Nat} {rw : RwLock.State (Map V) (Loc V)} {x : RwLock.Label (Loc V)} (h : Holding N H k a c s i)
    (hs : RwLock.step (wbody N H) (rbody N H) s.rw x = some rw) (h1 : ¬ (x.pid = i ∧ x.leaves = true)) (h2 : ¬ (x.pid = i ∧ x.isBody = true)) {pend : Nat → Pend V} (hpend : pend i = s.pend i) :
    Holding N H k a c ⟨rw, pend⟩ i := by
  obtain ⟨p, hp, hin, hm⟩ := h.proc
  obtain ⟨e1, e2⟩ := RwLock.step_frame h.inv hs hp (by rcases hm with hm | hm; exact Or.inl hm.1; exact Or.inr hm.1) h1 h2
  refine ⟨RwLock.inv_step h.inv hs, by rw [← h.pend]; exact hpend, p, e2, ?_, hm⟩
  simp only
  rw [e1]
  exact hin

/-- A step of its body. -/
theorem hold_body (hN : N < NONE) (hH : 0 < H) {k : Nat} {a : Spec.State V} {c : Call V} {s : Sys V} {i : Nat} {rw : RwLock.State (Map V) (Loc V)} (h : Holding N H k a c s i)
    (hs : RwLock.step (wbody N H) (rbody N H) s.rw (.body i) = some rw) : Holding N H (k - 1) a c ⟨rw, s.pend⟩ i := by
  obtain ⟨p, hp, hin, hm⟩ := h.proc
  obtain ⟨e1, e2⟩ := RwLock.step_body hp hs
  refine ⟨RwLock.inv_step h.inv hs, h.pend, ?_⟩
  have hi := inside_step hN hH hin
  rcases hm with ⟨hm, hc⟩ | ⟨hm, hc⟩
  · obtain ⟨f1, f2⟩ := e1 hm
    refine ⟨_, f2, ?_, Or.inl ⟨hm, hc⟩⟩
    simp only
    rw [f1]
    exact hi
  · obtain ⟨f1, f2⟩ := e2 hm
    refine ⟨_, f2, ?_, Or.inr ⟨hm, hc⟩⟩
    simp only
    rw [f1]
    rw [reads_step hN hH hin hc] at hi
    exact hi

/-- Is it a step of the body of process `i`? -/
def Act.bodyOf (i : Nat) : Act V → Bool
  | .body j => j == i
  | _ => false

/-- Whatever anybody does, a process that is neither killed nor unlocks stays in its critical section, and its own steps bring it to its end. -/
theorem hold_step (hN : N < NONE) (hH : 0 < H) {k : Nat} {a : Spec.State V} {c : Call V} {s s' : Sys V} {i : Nat} {x : Act V} {es : List (Event V)} (h : Holding N H k a c s i)
    (hs : step N H s x = some (s', es)) (hu : x ≠ .unlock i) (hk : x ≠ .kill i) : Holding N H (if x.bodyOf i then k - 1 else k) a c s' i := by
  obtain ⟨p, hp, hin, hm⟩ := h.proc
  have hmode : s.rw.mode i ≠ some .out := by
    unfold RwLock.State.mode
    rw [hp, Option.map_some]
    intro e
    rcases hm with hm | hm <;> rw [hm.1] at e <;> cases e
  have same : ∀ (t : Sys V) (y : RwLock.Label (Loc V)) , s.low N H y = some t → ¬ (y.pid = i ∧ y.leaves = true) → ¬ (y.pid = i ∧ y.isBody = true) → Holding N H k a c t i := by
    intro t y ht h1 h2
    obtain ⟨rw, e1, rfl⟩ := low_some ht
    exact hold_low h e1 h1 h2 rfl
  cases x with
  | connect j =>
    obtain ⟨t, ht, e⟩ := map_some' hs; cases e
    exact same _ _ ht (by simp [RwLock.Label.leaves]) (by simp [RwLock.Label.isBody])
  | call j c' =>
    have hj : j ≠ i := by
      rintro rfl
      simp only [step, h.pend] at hs
      cases hs
    simp only [step] at hs
    split at hs
    · split at hs
      · cases hs
        refine ⟨h.inv, ?_, p, hp, hin, hm⟩
        rw [pend_other _ _ (fun e => hj e.symm)]; exact h.pend
      · cases hs
    · cases hs
  | lock j =>
    simp only [step] at hs
    split at hs
    · rename_i c' hc'
      obtain ⟨t, ht, e⟩ := map_some' hs; cases e
      cases hr : c'.reads <;> rw [hr] at ht
      · exact same _ _ ht (by simp [RwLock.Label.leaves]) (by simp [RwLock.Label.isBody])
      · exact same _ _ ht (by simp [RwLock.Label.leaves]) (by simp [RwLock.Label.isBody])
    · cases hs
  | body j =>
    obtain ⟨t, ht, e⟩ := map_some' hs; cases e
    by_cases hj : j = i
    · subst hj
      obtain ⟨rw, e1, rfl⟩ := low_some ht
      simp only [Act.bodyOf, beq_self_eq_true, if_true]
      exact hold_body hN hH h e1
    · simp only [Act.bodyOf, beq_eq_false_iff_ne.mpr hj, Bool.false_eq_true, if_false]
      exact same _ _ ht (by simp [RwLock.Label.leaves]) (by simp [RwLock.Label.pid, hj])
  | unlock j =>
    have hj : j ≠ i := fun e => hu (by rw [e])
    simp only [step] at hs
    split at hs
    · split at hs
      · obtain ⟨t, ht, e⟩ := map_some' hs; cases e
        obtain ⟨rw, e1, rfl⟩ := low_some ht
        exact hold_low h e1 (by simp [RwLock.Label.pid, hj]) (by simp [RwLock.Label.isBody]) (pend_other _ _ (fun e => hj e.symm))
      · cases hs
    · cases hs
  | ret j =>
    have hj : j ≠ i := by
      rintro rfl
      simp only [step, h.pend] at hs
      cases hs
    simp only [step] at hs
    split at hs
    · cases hs
      refine ⟨h.inv, ?_, p, hp, hin, hm⟩
      rw [pend_other _ _ (fun e => hj e.symm)]; exact h.pend
    · cases hs
  | kill j =>
    have hj : j ≠ i := fun e => hk (by rw [e])
    obtain ⟨t, ht, e⟩ := map_some' hs; cases e
    obtain ⟨rw, e1, rfl⟩ := low_some ht
    exact hold_low h e1 (by simp [RwLock.Label.pid, hj]) (by simp [RwLock.Label.isBody]) (pend_other _ _ (fun e => hj e.symm))
  | spawn j =>
    obtain ⟨t, ht, e⟩ := map_some' hs; cases e
    exact same _ _ ht (by simp [RwLock.Label.leaves]) (by simp [RwLock.Label.isBody])

theorem exec_cons {s s' : Sys V} {x : Act V} {xs : List (Act V)} {es : List (Event V)} (h : exec N H s (x :: xs) = some (s', es)) :
    ∃ s1 es1 es2, step N H s x = some (s1, es1) ∧ exec N H s1 xs = some (s', es2) ∧ es = es1 ++ es2 := by
  simp only [exec] at h
  cases hs : step N H s x with
  | none => rw [hs] at h; cases h
  | some q =>
    obtain ⟨s1, es1⟩ := q
    rw [hs] at h
    simp only at h
    cases hx : exec N H s1 xs with
    | none => rw [hx] at h; cases h
    | some q =>
      obtain ⟨s2, es2⟩ := q
      rw [hx] at h
      cases h
      exact ⟨s1, es1, es2, rfl, hx, rfl⟩

theorem exec_trans : ∀ {xs : List (Act V)} {s s1 s2 : Sys V} {ys : List (Act V)} {es1 es2 : List (Event V)}, exec N H s xs = some (s1, es1) → exec N H s1 ys = some (s2, es2) →
    exec N H s (xs ++ ys) = some (s2, es1 ++ es2) := by
  intro xs
  induction xs with
  | nil => intro s s1 s2 ys es1 es2 h1 h2; cases h1; exact h2
  | cons x xs ih =>
    intro s s1 s2 ys es1 es2 h1 h2
    obtain ⟨t, f1, f2, h3, h4, rfl⟩ := exec_cons h1
    rw [List.cons_append]
    simp only [exec, h3, ih h4 h2, List.append_assoc]

theorem exec_one {s s' : Sys V} {x : Act V} {es : List (Event V)} (h : step N H s x = some (s', es)) : exec N H s [x] = some (s', es) := by
  simp only [exec, h, List.append_nil]

theorem hold_exec (hN : N < NONE) (hH : 0 < H) {a : Spec.State V} {c : Call V} {i : Nat} : ∀ {xs : List (Act V)} {k : Nat} {s s' : Sys V} {es : List (Event V)}, Holding N H k a c s i →
    exec N H s xs = some (s', es) → (∀ x ∈ xs, x ≠ .unlock i ∧ x ≠ .kill i) → Holding N H (k - xs.countP (Act.bodyOf i)) a c s' i := by
  intro xs
  induction xs with
  | nil => intro k s s' es h he _; cases he; exact h
  | cons x xs ih =>
    intro k s s' es h he hx
    obtain ⟨s1, es1, es2, h1, h2, rfl⟩ := exec_cons he
    have h3 := hold_step hN hH h h1 (hx x (by simp)).1 (hx x (by simp)).2
    have h4 := ih h3 h2 (fun y hy => hx y (List.mem_cons_of_mem _ hy))
    rw [List.countP_cons]
    cases hb : x.bodyOf i with
    | true =>
      simp only [hb, if_true] at h4 ⊢
      rw [show k - (List.countP (Act.bodyOf i) xs + 1) = k - 1 - List.countP (Act.bodyOf i) xs by omega]
      exact h4
    | false =>
      simp only [hb, Bool.false_eq_true, if_false, Nat.add_zero] at h4 ⊢
      exact h4

/-- A finished process can unlock. -/
theorem hold_unlock {k : Nat} {a : Spec.State V} {c : Call V} {s : Sys V} {i : Nat} (h : Holding N H k a c s i) {p : RwLock.Proc (Loc V)} (hp : s.rw.procs[i]? = some p)
    (hf : p.loc.finished = true) : ∃ v adj, step N H s (.unlock i) = some (⟨{ s.rw with sem := v }.upd i ⟨.out, p.loc, adj⟩, fun j => if j = i then .returning (c.result p.loc) else s.pend j⟩, []) := by
  obtain ⟨q, hq, _, hm⟩ := h.proc
  rw [hp] at hq
  cases hq
  have hadj := h.inv.adj p (List.mem_of_getElem? hp)
  simp only [step, h.pend, hp, hf, if_true, Sys.low, RwLock.step]
  rcases hm with ⟨hm, _⟩ | ⟨hm, _⟩
  · have hc := RwLock.cnt_pos hp hm
    have hw := h.inv.w
    have h1 := h.inv.one
    rw [if_pos hm]
    simp only [RwLock.State.doSem, RwLock.unlock_write_rw, RwLock.semop, RwLock.Vals.get]
    have h0 : s.rw.sem.w = 1 := by omega
    rw [h0]
    rw [RwLock.semop1_ok (by decide) (by decide)]
    exact ⟨_, _, rfl⟩
  · have hc := RwLock.cnt_pos hp hm
    have hr := h.inv.r
    rw [if_neg (by rw [hm]; decide), if_pos hm]
    simp only [RwLock.State.doSem, RwLock.unlock_read_rw, RwLock.semop, RwLock.Vals.get]
    have hcap := h.inv.cap
    rw [RwLock.semop1_ok (by decide) (by constructor <;> omega)]
    exact ⟨_, _, rfl⟩

theorem sim_lock {s s' : Sys V} {a : Spec.State V} (h : Sim N H s a) {i : Nat} {c : Call V} (hc : s.pend i = .called c) {es : List (Event V)} (hl : step N H s (.lock i) = some (s', es)) :
    Holding N H (c.steps N H) a c s' i := by
  simp only [step, hc] at hl
  obtain ⟨s1, h1, h2⟩ := map_some' hl
  cases h2
  obtain ⟨rw', e, rfl⟩ := low_some h1
  have hinv' := RwLock.inv_step h.inv e
  cases hr : c.reads with
  | true =>
    rw [hr, if_pos rfl] at e
    obtain ⟨p, v, adj, hp, hm, rfl⟩ := lockR_some e
    have hnw : ∀ (j : Nat) (q : RwLock.Proc (Loc V)), s.rw.procs[j]? = some q → q.mode ≠ .writing := by
      intro j q hq hw
      by_cases hj : j = i
      · subst hj; rw [hp] at hq; cases hq; rw [hm] at hw; cases hw
      · have := excl hinv' (i := j) (j := i) (p := q) (by rw [upd_other hj]; exact hq) hw (fun e => hj e.symm) _ (upd_same hp)
        exact this (Or.inr rfl)
    obtain ⟨f, fr, hrep⟩ := h.rep hnw
    exact ⟨hinv', hc, _, upd_same (s := { s.rw with sem := v }) hp, inside_begin hrep, Or.inr ⟨rfl, hr⟩⟩
  | false =>
    rw [hr, if_neg (by decide)] at e
    obtain ⟨p, v, adj, hp, hm, rfl⟩ := lockW_some e
    have hnw : ∀ (j : Nat) (q : RwLock.Proc (Loc V)), s.rw.procs[j]? = some q → q.mode ≠ .writing := by
      intro j q hq hw
      by_cases hj : j = i
      · subst hj; rw [hp] at hq; cases hq; rw [hm] at hw; cases hw
      · have := excl hinv' (i := j) (j := i) (p := q) (by rw [upd_other hj]; exact hq) hw (fun e => hj e.symm) _ (upd_same hp)
        exact this (Or.inl rfl)
    obtain ⟨f, fr, hrep⟩ := h.rep hnw
    exact ⟨hinv', hc, _, upd_same (s := { s.rw with sem := v }) hp, inside_begin hrep, Or.inl ⟨rfl, hr⟩⟩

/-! ## C118: calls end -/

/-- **C118, a call ends.** A process that has got the lock needs at most `2·max_elements + hash_size + 15` steps of its own for each operation of its call,
whatever the other processes do meanwhile, killed or not; then it can release the lock.  (No process may have been killed at the places of `SafeKills`
before.)  Missing: a kill there, `C118_refuted`. -/
theorem C118_ends_partial (hN : N < 2 ^ 31) (hH : 0 < H) (s s1 s2 s3 : Sys V) (h : Start H s) (xs ys : List (Act V)) (hk : SafeKills N H s xs) (es es' es'' : List (Event V))
    (he : exec N H s xs = some (s1, es)) (i : Nat) (c : Call V) (hc : s1.pend i = .called c) (hl : step N H s1 (.lock i) = some (s2, es')) (he' : exec N H s2 ys = some (s3, es''))
    (hstay : ∀ x ∈ ys, x ≠ .unlock i ∧ x ≠ .kill i) (hn : (2 * N + H + 15) * c.ops.length ≤ ys.countP (Act.bodyOf i)) : (step N H s3 (.unlock i)).isSome := by
  have hN' : N < NONE := by unfold NONE; omega
  obtain ⟨a, ha⟩ := (sim_exec hN' hH xs (sim_start h) hk he).2
  have hrep := sim_lock ha hc hl
  have h3 := hold_exec hN' hH hrep he' hstay
  obtain ⟨p, hp, hin, _⟩ := h3.proc
  have hz : c.steps N H - ys.countP (Act.bodyOf i) = 0 := by
    unfold Call.steps bound
    rw [show 2 * N + H + 13 + 2 = 2 * N + H + 15 by omega]
    omega
  rw [hz] at hin
  obtain ⟨v, adj, e⟩ := hold_unlock h3 hp (inside_zero hin)
  rw [e]
  rfl

/-- Non-vacuity: an `insert` of process 0 in a map of four nodes and two buckets, while process 1 calls, waits and is killed and process 2 connects. -/
example : ((exec 4 2 s0 [.call 0 (.op (.insert 4 40)), .lock 0]).bind (fun q => exec 4 2 q.1 (List.replicate 9 (.body 0) ++ [.call 1 (.op (.read 4)), .connect 2, .kill 1] ++ List.replicate 16 (.body 0)))).isSome = true ∧
    (2 * 4 + 2 + 15) * (Call.op (.insert 4 40) : Call Nat).ops.length ≤ (List.replicate 9 (Act.body 0) ++ [.call 1 (.op (.read 4)), .connect 2, .kill 1] ++ List.replicate 16 (.body 0) : List (Act Nat)).countP (Act.bodyOf 0) :=
  ⟨by decide +kernel, by decide⟩

/-- The steps of `i`'s body are always possible while it is in its section. -/
theorem hold_bodies (hN : N < NONE) (hH : 0 < H) {a : Spec.State V} {c : Call V} {i : Nat} : ∀ (n : Nat) {k : Nat} {s : Sys V}, Holding N H k a c s i →
    ∃ s', exec N H s (List.replicate n (.body i)) = some (s', []) ∧ Holding N H (k - n) a c s' i ∧ s'.pend = s.pend ∧ ∀ j, j ≠ i → s'.rw.procs[j]? = s.rw.procs[j]? := by
  intro n
  induction n with
  | zero => intro k s h; exact ⟨s, rfl, h, rfl, fun _ _ => rfl⟩
  | succ n ih =>
    intro k s h
    obtain ⟨p, hp, hin, hm⟩ := h.proc
    have : ∃ rw, RwLock.step (wbody N H) (rbody N H) s.rw (.body i) = some rw ∧ ∀ j, j ≠ i → rw.procs[j]? = s.rw.procs[j]? := by
      simp only [RwLock.step, hp]
      rcases hm with ⟨hm, _⟩ | ⟨hm, _⟩
      · rw [if_pos hm]
        exact ⟨_, rfl, fun j hj => upd_other (s := { s.rw with mem := _ }) hj⟩
      · rw [if_neg (by rw [hm]; decide), if_pos hm]
        exact ⟨_, rfl, fun j hj => upd_other hj⟩
    obtain ⟨rw, e1, e2⟩ := this
    obtain ⟨s', f1, f2, f3, f4⟩ := ih (hold_body hN hH h e1)
    refine ⟨s', ?_, by rw [show k - (n + 1) = k - 1 - n by omega]; exact f2, f3, fun j hj => by rw [f4 j hj]; exact e2 j hj⟩
    rw [List.replicate_succ]
    simp only [exec, step, Sys.low, e1, Option.map_some, f1, List.append_nil]

/-- A process in its section can finish and unlock. -/
theorem hold_finish (hN : N < NONE) (hH : 0 < H) {k : Nat} {a : Spec.State V} {c : Call V} {i : Nat} {s : Sys V} (h : Holding N H k a c s i) :
    ∃ s' r p, exec N H s (List.replicate k (.body i) ++ [.unlock i]) = some (s', []) ∧ s'.pend i = .returning r ∧ s'.rw.procs[i]? = some p ∧ p.mode = .out ∧
      ∀ j, j ≠ i → s'.rw.procs[j]? = s.rw.procs[j]? ∧ s'.pend j = s.pend j := by
  obtain ⟨t, e1, e2, e3, e4⟩ := hold_bodies hN hH k h
  obtain ⟨p, hp, hin, hm⟩ := e2.proc
  rw [Nat.sub_self] at hin
  obtain ⟨v, adj, e⟩ := hold_unlock e2 hp (inside_zero hin)
  refine ⟨_, c.result p.loc, ⟨.out, p.loc, adj⟩, exec_trans e1 (exec_one e), by simp, upd_same (s := { t.rw with sem := v }) hp, rfl, ?_⟩
  intro j hj
  refine ⟨?_, by simp only; rw [if_neg hj, e3]⟩
  rw [← e4 j hj]
  exact upd_other (s := { t.rw with sem := v }) hj

/-- A step that belongs to a call already made: taking the lock, working, releasing it, returning. -/
def Act.inner : Act V → Bool
  | .lock _ | .body _ | .unlock _ | .ret _ => true
  | _ => false

theorem inner_safe : ∀ {xs : List (Act V)} {s : Sys V}, xs.all Act.inner = true → SafeKills N H s xs := by
  intro xs
  induction xs with
  | nil => intro s _; trivial
  | cons x xs ih =>
    intro s h
    rw [List.all_cons, Bool.and_eq_true] at h
    refine ⟨?_, fun s' es _ => ih h.2⟩
    cases x <;> first | trivial | (cases h.1)

theorem finish_inner (k i : Nat) : (List.replicate k (.body i) ++ [.unlock i] : List (Act V)).all Act.inner = true := by
  rw [List.all_append, Bool.and_eq_true]
  refine ⟨?_, rfl⟩
  rw [List.all_eq_true]
  intro x hx
  rw [(List.mem_replicate.mp hx).2]
  rfl

/-- Everybody leaves the critical sections. -/
theorem drain (hN : N < NONE) (hH : 0 < H) : ∀ (n : Nat) {s : Sys V} {a : Spec.State V}, Sim N H s a → ∃ ys s' a', ys.all Act.inner = true ∧ exec N H s ys = some (s', []) ∧ Sim N H s' a' ∧
    (∀ j, j < n → ∀ q, s'.rw.procs[j]? = some q → ¬ inSection q) ∧
    (∀ j, n ≤ j → s'.rw.procs[j]? = s.rw.procs[j]? ∧ s'.pend j = s.pend j) ∧
    ∀ i c, s.pend i = .called c → s'.pend i = .called c ∨ ∃ r, s'.pend i = .returning r := by
  intro n
  induction n with
  | zero => intro s a h; exact ⟨[], s, a, rfl, rfl, h, fun j hj => absurd hj (by omega), fun j _ => ⟨rfl, rfl⟩, fun i c hc => Or.inl hc⟩
  | succ n ih =>
    intro s a h
    obtain ⟨ys, s1, a1, y1, y2, y3, y4, y5, y6⟩ := ih h
    by_cases hin : ∃ p, s1.rw.procs[n]? = some p ∧ inSection p
    · obtain ⟨p, hp, hin⟩ := hin
      obtain ⟨k, c, hh⟩ := sim_holding y3 hp hin
      obtain ⟨s2, r, q, z1, z2, z3, z4, z5⟩ := hold_finish hN hH hh
      obtain ⟨_, a2, h2⟩ := sim_exec hN hH _ y3 (inner_safe (finish_inner k n)) z1
      refine ⟨ys ++ (List.replicate k (.body n) ++ [.unlock n]), s2, a2, ?_, exec_trans y2 z1, h2, ?_, ?_, ?_⟩
      · rw [List.all_append, y1, finish_inner]; rfl
      · intro j hj x hx
        by_cases hjn : j = n
        · subst hjn
          rw [z3] at hx
          cases hx
          rintro (e | e) <;> rw [z4] at e <;> cases e
        · rw [(z5 j hjn).1] at hx
          exact y4 j (by omega) x hx
      · intro j hj
        obtain ⟨e1, e2⟩ := z5 j (by omega)
        obtain ⟨e3, e4⟩ := y5 j (by omega)
        exact ⟨e1.trans e3, e2.trans e4⟩
      · intro i c' hc'
        by_cases hi : i = n
        · subst hi; exact Or.inr ⟨r, z2⟩
        · rw [(z5 i hi).2]; exact y6 i c' hc'
    · refine ⟨ys, s1, a1, y1, y2, y3, ?_, fun j hj => y5 j (by omega), y6⟩
      intro j hj x hx hin'
      by_cases hjn : j = n
      · subst hjn; exact hin ⟨x, hx, hin'⟩
      · exact y4 j (by omega) x hx hin'

theorem no_reader_writer {s : RwLock.State (Map V) (Loc V)} (h : ∀ (j : Nat) (q : RwLock.Proc (Loc V)), s.procs[j]? = some q → ¬ inSection q) (m : RwLock.Mode) (hm : m = .writing ∨ m = .reading) : RwLock.cnt m s.procs = 0 := by
  unfold RwLock.cnt
  rw [List.countP_eq_zero]
  intro p hp hmp
  simp only [decide_eq_true_eq] at hmp
  obtain ⟨j, hj⟩ := List.getElem?_of_mem hp
  refine h j p hj ?_
  rcases hm with rfl | rfl
  · exact Or.inl hmp
  · exact Or.inr hmp

/-- With nobody in a critical section a waiting process gets the lock. -/
theorem free_lock {s : Sys V} (hinv : RwLock.Inv s.rw) (hout : ∀ (j : Nat) (q : RwLock.Proc (Loc V)), s.rw.procs[j]? = some q → ¬ inSection q) {i : Nat} {p : RwLock.Proc (Loc V)} (hp : s.rw.procs[i]? = some p)
    (hm : p.mode = .out) {c : Call V} (hc : s.pend i = .called c) : ∃ s', step N H s (.lock i) = some (s', []) := by
  have hr := hinv.r
  have hw := hinv.w
  rw [no_reader_writer hout _ (Or.inr rfl)] at hr
  rw [no_reader_writer hout _ (Or.inl rfl)] at hw
  have hsem : s.rw.sem = ⟨0, 0⟩ := by
    cases hs : s.rw.sem with
    | mk r w => rw [hs] at hr hw; simp only at hr hw; rw [hr, hw]; rfl
  simp only [step, hc, Sys.low]
  cases c.reads with
  | true =>
    simp only [if_true, RwLock.step, hp, if_pos hm, RwLock.State.doSem, hsem]
    exact ⟨_, rfl⟩
  | false =>
    simp only [Bool.false_eq_true, if_false, RwLock.step, hp, if_pos hm, RwLock.State.doSem, hsem]
    exact ⟨_, rfl⟩

/-- **C118, no deadlock.** In every state that can be reached (any schedule, any number of processes, kills except at the places of `SafeKills`), every call
that has been made and has not returned can still return: there is a continuation, made only of steps of calls already made, in which it does.
Missing: a kill at those places, `C118_refuted`. -/
theorem C118_no_deadlock_partial (hN : N < 2 ^ 31) (hH : 0 < H) (s s1 : Sys V) (h : Start H s) (xs : List (Act V)) (hk : SafeKills N H s xs) (es : List (Event V))
    (he : exec N H s xs = some (s1, es)) (i : Nat) (c : Call V) (hc : s1.pend i = .called c) :
    ∃ ys s2 es2 r, ys.all Act.inner = true ∧ exec N H s1 ys = some (s2, es2) ∧ .ret i r ∈ es2 := by
  have hN' : N < NONE := by unfold NONE; omega
  obtain ⟨a, ha⟩ := (sim_exec hN' hH xs (sim_start h) hk he).2
  obtain ⟨ys, t, a1, y1, y2, y3, y4, y5, y6⟩ := drain hN' hH s1.rw.procs.length ha
  have hnone : ∀ (j : Nat) (q : RwLock.Proc (Loc V)), t.rw.procs[j]? = some q → ¬ inSection q := by
    intro j q hq
    by_cases hj : j < s1.rw.procs.length
    · exact y4 j hj q hq
    · rw [(y5 j (by omega)).1, List.getElem?_eq_none (by omega)] at hq
      cases hq
  have hret : ∀ (u : Sys V) (r : List (Ret V)), u.pend i = .returning r → exec N H u [.ret i] = some (u.setPend i .idle, [.ret i r]) := by
    intro u r hu
    simp only [exec, step, hu, List.append_nil]
  rcases y6 i c hc with hc' | ⟨r, hr⟩
  · have hok := y3.ok i
    rw [hc'] at hok
    obtain ⟨_, p, hp, hm⟩ := hok
    have hm : p.mode = .out := by
      rcases hm with hm | ⟨hm, _⟩ | ⟨hm, _⟩
      · exact hm
      · exact absurd (Or.inl hm) (hnone i p hp)
      · exact absurd (Or.inr hm) (hnone i p hp)
    obtain ⟨u, hu⟩ := free_lock y3.inv hnone hp hm hc'
    obtain ⟨w, r, q, z1, z2, _⟩ := hold_finish hN' hH (sim_lock y3 hc' hu)
    refine ⟨ys ++ ([.lock i] ++ ((List.replicate (c.steps N H) (.body i) ++ [.unlock i]) ++ [.ret i])), _, _, r, ?_, exec_trans y2 (exec_trans (exec_one hu) (exec_trans z1 (hret _ _ z2))), by simp⟩
    rw [List.all_append, List.all_append, List.all_append, y1, finish_inner]
    rfl
  · refine ⟨ys ++ [.ret i], _, _, r, ?_, exec_trans y2 (hret _ _ hr), by simp⟩
    rw [List.all_append, y1]
    rfl

/-- Non-vacuity: process 1 has called `erase` and waits while process 0 is in the middle of a batch. -/
example : SafeKills 4 2 s0 ([.call 0 (.insertMany [(4, 40), (6, 60)]), .call 1 (.op (.erase 6)), .lock 0] ++ List.replicate 12 (.body 0)) ∧
    ((exec 4 2 s0 ([.call 0 (.insertMany [(4, 40), (6, 60)]), .call 1 (.op (.erase 6)), .lock 0] ++ List.replicate 12 (.body 0))).map (fun q => (step 4 2 q.1 (.lock 1)).isSome)) = some false :=
  ⟨safe_of (by decide +kernel), by decide +kernel⟩

/-! ## C118 is false after a kill at an excepted place -/

/-- Process `i` walks round a cycle: node `e` is its own successor and has another key. -/
structure Spinning (N H : Nat) (s : Sys V) (i e : Nat) (k : UInt64) : Prop where
  inv : RwLock.Inv s.rw
  pend : s.pend i = .called (.op (.read k))
  lt : e < N
  none : e ≠ NONE
  next : s.rw.mem.next e = e
  key : k ≠ s.rw.mem.key e
  proc : ∃ p, s.rw.procs[i]? = some p ∧ p.mode = .reading ∧ (p.loc.pc = .rdLoop k e ∨ p.loc.pc = .rdNext k e)

/-- One step of a process that is not `i`'s own body, unlock or death leaves `i`'s place, its call and the memory as they are while it reads. -/
theorem read_frame {s s' : Sys V} {x : Act V} {es : List (Event V)} {i : Nat} {c : Call V} {p : RwLock.Proc (Loc V)} (hinv : RwLock.Inv s.rw) (hpend : s.pend i = .called c)
    (hp : s.rw.procs[i]? = some p) (hm : p.mode = .reading) (hs : step N H s x = some (s', es)) (hb : x ≠ .body i) (hu : x ≠ .unlock i) (hk : x ≠ .kill i) :
    RwLock.Inv s'.rw ∧ s'.pend i = .called c ∧ s'.rw.mem = s.rw.mem ∧ s'.rw.procs[i]? = some p := by
  have same : ∀ (rw : RwLock.State (Map V) (Loc V)) (y : RwLock.Label (Loc V)), RwLock.step (wbody N H) (rbody N H) s.rw y = some rw → ¬ (y.pid = i ∧ y.leaves = true) → ¬ (y.pid = i ∧ y.isBody = true) →
      RwLock.Inv rw ∧ rw.mem = s.rw.mem ∧ rw.procs[i]? = some p := by
    intro rw y ht h1 h2
    exact ⟨RwLock.inv_step hinv ht, RwLock.step_frame hinv ht hp (Or.inr hm) h1 h2⟩
  have pend : ∀ (t : Sys V) (j : Nat) (z : Pend V), j ≠ i → t.pend = s.pend → (t.setPend j z).pend i = .called c := by
    intro t j z hj ht
    rw [pend_other _ _ (fun e => hj e.symm), ht]; exact hpend
  cases x with
  | connect j =>
    obtain ⟨t, ht, e⟩ := map_some' hs; cases e
    obtain ⟨rw, e1, rfl⟩ := low_some ht
    obtain ⟨a1, a2, a3⟩ := same _ _ e1 (by simp [RwLock.Label.leaves]) (by simp [RwLock.Label.isBody])
    exact ⟨a1, hpend, a2, a3⟩
  | call j c' =>
    have hj : j ≠ i := by
      rintro rfl
      simp only [step, hpend] at hs
      cases hs
    simp only [step] at hs
    split at hs
    · split at hs
      · cases hs
        exact ⟨hinv, pend s j _ hj rfl, rfl, hp⟩
      · cases hs
    · cases hs
  | lock j =>
    simp only [step] at hs
    split at hs
    · rename_i c' hc'
      obtain ⟨t, ht, e⟩ := map_some' hs; cases e
      obtain ⟨rw, e1, rfl⟩ := low_some ht
      cases hr : c'.reads <;> rw [hr] at e1
      · obtain ⟨a1, a2, a3⟩ := same _ _ e1 (by simp [RwLock.Label.leaves]) (by simp [RwLock.Label.isBody])
        exact ⟨a1, hpend, a2, a3⟩
      · obtain ⟨a1, a2, a3⟩ := same _ _ e1 (by simp [RwLock.Label.leaves]) (by simp [RwLock.Label.isBody])
        exact ⟨a1, hpend, a2, a3⟩
    · cases hs
  | body j =>
    have hj : j ≠ i := fun e => hb (by rw [e])
    obtain ⟨t, ht, e⟩ := map_some' hs; cases e
    obtain ⟨rw, e1, rfl⟩ := low_some ht
    obtain ⟨a1, a2, a3⟩ := same _ _ e1 (by simp [RwLock.Label.leaves]) (by simp [RwLock.Label.pid, hj])
    exact ⟨a1, hpend, a2, a3⟩
  | unlock j =>
    have hj : j ≠ i := fun e => hu (by rw [e])
    simp only [step] at hs
    split at hs
    · split at hs
      · obtain ⟨t, ht, e⟩ := map_some' hs; cases e
        obtain ⟨rw, e1, rfl⟩ := low_some ht
        obtain ⟨a1, a2, a3⟩ := same _ _ e1 (by simp [RwLock.Label.pid, hj]) (by simp [RwLock.Label.isBody])
        exact ⟨a1, pend ⟨rw, s.pend⟩ j _ hj rfl, a2, a3⟩
      · cases hs
    · cases hs
  | ret j =>
    have hj : j ≠ i := by
      rintro rfl
      simp only [step, hpend] at hs
      cases hs
    simp only [step] at hs
    split at hs
    · cases hs
      exact ⟨hinv, pend s j _ hj rfl, rfl, hp⟩
    · cases hs
  | kill j =>
    have hj : j ≠ i := fun e => hk (by rw [e])
    obtain ⟨t, ht, e⟩ := map_some' hs; cases e
    obtain ⟨rw, e1, rfl⟩ := low_some ht
    obtain ⟨a1, a2, a3⟩ := same _ _ e1 (by simp [RwLock.Label.pid, hj]) (by simp [RwLock.Label.isBody])
    exact ⟨a1, pend ⟨rw, s.pend⟩ j _ hj rfl, a2, a3⟩
  | spawn j =>
    obtain ⟨t, ht, e⟩ := map_some' hs; cases e
    obtain ⟨rw, e1, rfl⟩ := low_some ht
    obtain ⟨a1, a2, a3⟩ := same _ _ e1 (by simp [RwLock.Label.leaves]) (by simp [RwLock.Label.isBody])
    exact ⟨a1, hpend, a2, a3⟩

/-- While anybody reads, a writer waits. -/
theorem reader_blocks {s : Sys V} (hinv : RwLock.Inv s.rw) {i : Nat} {p : RwLock.Proc (Loc V)} (hp : s.rw.procs[i]? = some p) (hm : p.mode = .reading) {j : Nat} {c : Call V}
    (hj : s.pend j = .called c) (hc : c.reads = false) : step N H s (.lock j) = none := by
  have hpos := RwLock.cnt_pos hp hm
  have hr := hinv.r
  have h0 : s.rw.sem.r ≠ 0 := by omega
  simp only [step, hj, hc, Bool.false_eq_true, if_false, Sys.low, RwLock.step]
  cases hq : s.rw.procs[j]? with
  | none => rfl
  | some q =>
    simp only
    split
    · simp only [RwLock.State.doSem, RwLock.lock_write_rw, RwLock.semop, RwLock.Vals.get, RwLock.semop1_wait h0, Option.map_none]
    · rfl

theorem spin_step {s s' : Sys V} {i e : Nat} {k : UInt64} {x : Act V} {es : List (Event V)} (h : Spinning N H s i e k) (hs : step N H s x = some (s', es)) (hk : x ≠ .kill i) :
    Spinning N H s' i e k := by
  obtain ⟨p, hp, hm, hpc⟩ := h.proc
  by_cases hu : x = .unlock i
  · subst hu
    have hf : p.loc.finished = false := by
      unfold Loc.finished
      rcases hpc with hpc | hpc <;> rw [hpc]
    simp only [step, h.pend, hp, hf, Bool.false_eq_true, if_false] at hs
    cases hs
  · by_cases hb : x = .body i
    · subst hb
      obtain ⟨t, ht, e'⟩ := map_some' hs; cases e'
      obtain ⟨rw, e1, rfl⟩ := low_some ht
      obtain ⟨f1, f2⟩ := (RwLock.step_body hp e1).2 hm
      refine ⟨RwLock.inv_step h.inv e1, h.pend, h.lt, h.none, by simp only; rw [f1]; exact h.next, by simp only; rw [f1]; exact h.key, _, f2, hm, ?_⟩
      simp only
      rcases hpc with hpc | hpc
      · right
        rw [rbody_live (by rw [hpc]; rfl), hpc]
        simp only [Pc.step, if_neg h.none, if_pos h.lt, if_neg h.key]
      · left
        rw [rbody_live (by rw [hpc]; rfl), hpc]
        simp only [Pc.step, h.next]
    · obtain ⟨a1, a2, a3, a4⟩ := read_frame h.inv h.pend hp hm hs hb hu hk
      exact ⟨a1, a2, h.lt, h.none, by rw [a3]; exact h.next, by rw [a3]; exact h.key, p, a4, hm, hpc⟩

theorem spin_exec {i e : Nat} {k : UInt64} : ∀ {xs : List (Act V)} {s s' : Sys V} {es : List (Event V)}, Spinning N H s i e k → exec N H s xs = some (s', es) → (∀ x ∈ xs, x ≠ .kill i) →
    Spinning N H s' i e k := by
  intro xs
  induction xs with
  | nil => intro s s' es h he _; cases he; exact h
  | cons x xs ih =>
    intro s s' es h he hx
    obtain ⟨s1, es1, es2, h1, h2, rfl⟩ := exec_cons he
    exact ih (spin_step h h1 (hx x (by simp))) h2 (fun y hy => hx y (List.mem_cons_of_mem _ hy))

theorem inv_sys : ∀ {xs : List (Act V)} {s s' : Sys V} {es : List (Event V)}, RwLock.Inv s.rw → exec N H s xs = some (s', es) → RwLock.Inv s'.rw := by
  intro xs
  induction xs with
  | nil => intro s s' es h he; cases he; exact h
  | cons x xs ih =>
    intro s s' es h he
    obtain ⟨s1, es1, es2, h1, h2, rfl⟩ := exec_cons he
    refine ih ?_ h2
    have low : ∀ (t : Sys V) (y : RwLock.Label (Loc V)), s.low N H y = some t → RwLock.Inv t.rw := by
      intro t y ht
      obtain ⟨rw, e1, rfl⟩ := low_some ht
      exact RwLock.inv_step h e1
    cases x with
    | connect j => obtain ⟨t, ht, e⟩ := map_some' h1; cases e; exact low _ _ ht
    | call j c =>
      simp only [step] at h1
      split at h1
      · split at h1
        · cases h1; exact h
        · cases h1
      · cases h1
    | lock j =>
      simp only [step] at h1
      split at h1
      · obtain ⟨t, ht, e⟩ := map_some' h1; cases e; exact low _ _ ht
      · cases h1
    | body j => obtain ⟨t, ht, e⟩ := map_some' h1; cases e; exact low _ _ ht
    | unlock j =>
      simp only [step] at h1
      split at h1
      · split at h1
        · obtain ⟨t, ht, e⟩ := map_some' h1; cases e; exact low t _ ht
        · cases h1
      · cases h1
    | ret j =>
      simp only [step] at h1
      split at h1
      · cases h1; exact h
      · cases h1
    | kill j => obtain ⟨t, ht, e⟩ := map_some' h1; cases e; exact low t _ ht
    | spawn j => obtain ⟨t, ht, e⟩ := map_some' h1; cases e; exact low _ _ ht

/-- A checker for `Spinning`. -/
def spinB (s : Sys V) (i e : Nat) (k : UInt64) : Bool :=
  (match s.pend i with
    | .called (.op (.read k')) => k' == k
    | _ => false) && s.rw.mem.next e == e && !(k == s.rw.mem.key e) &&
  (match s.rw.procs[i]? with
    | some p => decide (p.mode = .reading) && (match p.loc.pc with
      | .rdLoop k' e' => k' == k && e' == e
      | _ => false)
    | none => false)

theorem spin_of {s : Sys V} {i e : Nat} {k : UInt64} (hinv : RwLock.Inv s.rw) (he : e < N) (he' : e ≠ NONE) (h : spinB s i e k = true) : Spinning N H s i e k := by
  unfold spinB at h
  simp only [Bool.and_eq_true, beq_iff_eq, Bool.not_eq_true', beq_eq_false_iff_ne, ne_eq] at h
  obtain ⟨⟨⟨h1, h2⟩, h3⟩, h4⟩ := h
  refine ⟨hinv, ?_, he, he', h2, h3, ?_⟩
  · split at h1
    · rename_i hp; rw [hp, eq_of_beq h1]
    · cases h1
  · split at h4
    · rename_i p hp
      rw [Bool.and_eq_true, decide_eq_true_eq] at h4
      refine ⟨p, hp, h4.1, Or.inl ?_⟩
      have h5 := h4.2
      split at h5
      · rename_i hpc
        rw [Bool.and_eq_true] at h5
        rw [hpc, eq_of_beq h5.1, eq_of_beq h5.2]
      · cases h5
    · cases h4

/-- Process 0 is killed in `erase(6)` between the two writes of `free_nodes.push`; process 1 inserts key 9 and calls `read(4)`. -/
def jam : List (Act Nat) :=
  whole 0 (.op (.insert 5 50)) ++ whole 0 (.op (.erase 5)) ++ whole 0 (.op (.insert 4 40)) ++ whole 0 (.op (.insert 6 60)) ++
    [.call 0 (.op (.erase 6)), .lock 0] ++ List.replicate 10 (.body 0) ++ [.kill 0] ++ whole 1 (.op (.insert 9 90)) ++ [.call 1 (.op (.read 4)), .lock 1, .body 1, .body 1]

/-- **C118 is false if a process may be killed anywhere.** After `jam` process 1 is in its critical section for ever: whatever happens, unless it is killed, `read(4)` has not
returned, and no process that calls `insert`, `erase` or `clear` ever gets the lock. -/
theorem C118_refuted : ∃ (s1 : Sys Nat) (es : List (Event Nat)), exec 2 1 s0 jam = some (s1, es) ∧ s1.pend 1 = .called (.op (.read 4)) ∧
    ∀ (ys : List (Act Nat)) (s2 : Sys Nat) (es2 : List (Event Nat)), (∀ x ∈ ys, x ≠ .kill 1) → exec 2 1 s1 ys = some (s2, es2) →
      s2.pend 1 = .called (.op (.read 4)) ∧ ∀ i c, s2.pend i = .called c → c.reads = false → step 2 1 s2 (.lock i) = none := by
  have hx : ((exec 2 1 s0 jam).map (fun q => spinB q.1 1 0 4)) = some true := by decide +kernel
  obtain ⟨⟨s1, es⟩, he, hb⟩ := map_some' hx
  have hspin : Spinning 2 1 s1 1 0 4 := spin_of (inv_sys (RwLock.inv_start (s0_start 1).1) he) (by decide) (by decide) hb.symm
  refine ⟨s1, es, he, hspin.pend, ?_⟩
  intro ys s2 es2 hk he2
  have := spin_exec hspin he2 hk
  obtain ⟨p, hp, hm, _⟩ := this.proc
  exact ⟨this.pend, fun i c hi hc => reader_blocks this.inv hp hm hi hc⟩

/-! ## C119: readers first -/

/-- `P` holds in every state that `xs` goes through. -/
def Always (N H : Nat) (P : Sys V → Prop) : Sys V → List (Act V) → Prop
  | s, [] => P s
  | s, x :: xs => P s ∧ ∀ s' es, step N H s x = some (s', es) → Always N H P s' xs

theorem always_append {P : Sys V → Prop} : ∀ {xs ys : List (Act V)} {s s1 : Sys V} {es : List (Event V)}, Always N H P s xs → exec N H s xs = some (s1, es) → Always N H P s1 ys → Always N H P s (xs ++ ys) := by
  intro xs
  induction xs with
  | nil => intro ys s s1 es _ he h; cases he; exact h
  | cons x xs ih =>
    intro ys s s1 es h1 he h2
    obtain ⟨t, f1, f2, h3, h4, rfl⟩ := exec_cons he
    refine ⟨h1.1, ?_⟩
    intro s' es' hs
    rw [h3] at hs
    cases hs
    exact ih (h1.2 _ _ h3) h4 h2

/-- Process `i` reads. -/
def Reads (s : Sys V) (i : Nat) : Prop := ∃ p, s.rw.procs[i]? = some p ∧ p.mode = .reading

theorem reads_keep {s s' : Sys V} {x : Act V} {es : List (Event V)} {i : Nat} {c : Call V} (hinv : RwLock.Inv s.rw) (hpend : s.pend i = .called c) (h : Reads s i)
    (hs : step N H s x = some (s', es)) (hu : x ≠ .unlock i) (hk : x ≠ .kill i) : RwLock.Inv s'.rw ∧ s'.pend i = .called c ∧ Reads s' i := by
  obtain ⟨p, hp, hm⟩ := h
  by_cases hb : x = .body i
  · subst hb
    obtain ⟨t, ht, e'⟩ := map_some' hs; cases e'
    obtain ⟨rw, e1, rfl⟩ := low_some ht
    exact ⟨RwLock.inv_step hinv e1, hpend, _, ((RwLock.step_body hp e1).2 hm).2, hm⟩
  · obtain ⟨a1, a2, _, a4⟩ := read_frame hinv hpend hp hm hs hb hu hk
    exact ⟨a1, a2, p, a4, hm⟩

/-- A pending call stays pending until the process unlocks or is killed. -/
theorem pend_keep {s s' : Sys V} {x : Act V} {es : List (Event V)} {w : Nat} {c : Call V} (hw : s.pend w = .called c) (hs : step N H s x = some (s', es)) (hu : x ≠ .unlock w) (hk : x ≠ .kill w) :
    s'.pend w = .called c := by
  cases x with
  | connect j => obtain ⟨t, ht, e⟩ := map_some' hs; cases e; obtain ⟨rw, e1, rfl⟩ := low_some ht; exact hw
  | call j c' =>
    simp only [step] at hs
    split at hs
    · rename_i hj
      split at hs
      · cases hs
        by_cases e : w = j
        · subst e; rw [hw] at hj; cases hj
        · rw [pend_other _ _ e]; exact hw
      · cases hs
    · cases hs
  | lock j =>
    simp only [step] at hs
    split at hs
    · obtain ⟨t, ht, e⟩ := map_some' hs; cases e; obtain ⟨rw, e1, rfl⟩ := low_some ht; exact hw
    · cases hs
  | body j => obtain ⟨t, ht, e⟩ := map_some' hs; cases e; obtain ⟨rw, e1, rfl⟩ := low_some ht; exact hw
  | unlock j =>
    simp only [step] at hs
    split at hs
    · split at hs
      · obtain ⟨t, ht, e⟩ := map_some' hs; cases e; obtain ⟨rw, e1, rfl⟩ := low_some ht
        have e : w ≠ j := fun e => hu (by rw [e])
        rw [pend_other _ _ e]; exact hw
      · cases hs
    · cases hs
  | ret j =>
    simp only [step] at hs
    split at hs
    · rename_i r hj
      cases hs
      by_cases e : w = j
      · subst e; rw [hw] at hj; cases hj
      · rw [pend_other _ _ e]; exact hw
    · cases hs
  | kill j =>
    obtain ⟨t, ht, e⟩ := map_some' hs; cases e; obtain ⟨rw, e1, rfl⟩ := low_some ht
    have e : w ≠ j := fun e => hk (by rw [e])
    rw [pend_other _ _ e]; exact hw
  | spawn j => obtain ⟨t, ht, e⟩ := map_some' hs; cases e; obtain ⟨rw, e1, rfl⟩ := low_some ht; exact hw

/-- As long as one process reads, the writer waits. -/
theorem always_blocked {i w : Nat} {c cw : Call V} (hcw : cw.reads = false) : ∀ {xs : List (Act V)} {s : Sys V}, RwLock.Inv s.rw → s.pend i = .called c → Reads s i → s.pend w = .called cw →
    (∀ x ∈ xs, x ≠ .unlock i ∧ x ≠ .kill i ∧ x ≠ .unlock w ∧ x ≠ .kill w) → Always N H (fun t => step N H t (.lock w) = none) s xs := by
  intro xs
  induction xs with
  | nil => intro s h1 h2 h3 h4 _; obtain ⟨p, hp, hm⟩ := h3; exact reader_blocks h1 hp hm h4 hcw
  | cons x xs ih =>
    intro s h1 h2 h3 h4 hx
    refine ⟨?_, ?_⟩
    · obtain ⟨p, hp, hm⟩ := h3; exact reader_blocks h1 hp hm h4 hcw
    · intro s' es hs
      obtain ⟨k1, k2, k3, k4⟩ := hx x (by simp)
      obtain ⟨b1, b2, b3⟩ := reads_keep h1 h2 h3 hs k1 k2
      exact ih b1 b2 b3 (pend_keep h4 hs k3 k4) (fun y hy => hx y (List.mem_cons_of_mem _ hy))

theorem len_low {M L : Type} {wb : M → L → M × L} {rb : M → L → L} {s s' : RwLock.State M L} {a : RwLock.Label L} (h : RwLock.step wb rb s a = some s') : s'.procs.length = s.procs.length := by
  have sem : ∀ {i p ops m l}, s.doSem i p ops m l = some s' → s'.procs.length = s.procs.length := by
    intro i p ops m l h
    obtain ⟨v, adj, rfl⟩ := RwLock.doSem_some h
    simp [RwLock.State.upd]
  cases a <;> simp only [RwLock.step] at h <;> split at h <;> (try cases h) <;> (repeat' (split at h)) <;>
    first
      | (cases h; done)
      | exact sem h
      | (cases h; simp [RwLock.State.upd, RwLock.clearAdj]; done)

theorem len_step {s s' : Sys V} {x : Act V} {es : List (Event V)} (h : step N H s x = some (s', es)) : s'.rw.procs.length = s.rw.procs.length := by
  have low : ∀ (t : Sys V) (y : RwLock.Label (Loc V)), s.low N H y = some t → t.rw.procs.length = s.rw.procs.length := by
    intro t y ht
    obtain ⟨rw, e1, rfl⟩ := low_some ht
    exact len_low e1
  cases x with
  | connect j => obtain ⟨t, ht, e⟩ := map_some' h; cases e; exact low _ _ ht
  | call j c =>
    simp only [step] at h
    split at h
    · split at h
      · cases h; rfl
      · cases h
    · cases h
  | lock j =>
    simp only [step] at h
    split at h
    · obtain ⟨t, ht, e⟩ := map_some' h; cases e; exact low _ _ ht
    · cases h
  | body j => obtain ⟨t, ht, e⟩ := map_some' h; cases e; exact low _ _ ht
  | unlock j =>
    simp only [step] at h
    split at h
    · split at h
      · obtain ⟨t, ht, e⟩ := map_some' h; cases e; exact low t _ ht
      · cases h
    · cases h
  | ret j =>
    simp only [step] at h
    split at h
    · cases h; rfl
    · cases h
  | kill j => obtain ⟨t, ht, e⟩ := map_some' h; cases e; exact low t _ ht
  | spawn j => obtain ⟨t, ht, e⟩ := map_some' h; cases e; exact low _ _ ht

theorem len_exec : ∀ {xs : List (Act V)} {s s' : Sys V} {es : List (Event V)}, exec N H s xs = some (s', es) → s'.rw.procs.length = s.rw.procs.length := by
  intro xs
  induction xs with
  | nil => intro s s' es h; cases h; rfl
  | cons x xs ih =>
    intro s s' es h
    obtain ⟨t, f1, f2, h3, h4, rfl⟩ := exec_cons h
    rw [ih h4, len_step h3]

/-- Process `x` is inside a `size()`, process `y` is idle, process `w` waits with a writing call. -/
structure Relay (N H : Nat) (x y w : Nat) (cw : Call V) (s : Sys V) : Prop where
  sim : ∃ a, Sim N H s a
  px : s.pend x = .called (.op .size)
  rx : Reads s x
  py : s.pend y = .idle
  my : s.rw.mode y = some .out
  pw : s.pend w = .called cw
  len : s.rw.procs.length ≤ 32766

def Act.calm : Act V → Bool
  | .kill _ => false
  | _ => true

/-- One round: `y` calls `size()` and gets the lock before `x`'s `size()` returns. -/
theorem relay_round (hN : N < NONE) (hH : 0 < H) {x y w : Nat} {cw : Call V} (hcw : cw.reads = false) (hxy : x ≠ y) (hwx : w ≠ x) (hwy : w ≠ y) {s : Sys V} (h : Relay N H x y w cw s) :
    ∃ ys s' es r, ys.all Act.calm = true ∧ exec N H s ys = some (s', es) ∧ Always N H (fun t => step N H t (.lock w) = none) s ys ∧ Relay N H y x w cw s' ∧ .ret x r ∈ es := by
  obtain ⟨a, ha⟩ := h.sim
  obtain ⟨p, hp, hm⟩ := h.rx
  have hy := h.my
  unfold RwLock.State.mode at hy
  rw [Option.map_eq_some_iff] at hy
  obtain ⟨q, hq, hqm⟩ := hy
  have hs1 : step N H s (.call y (.op .size)) = some (s.setPend y (.called (.op .size)), [.call y (.op .size)]) := by
    simp only [step, h.py, h.my, if_true]
  have hs2 : ∃ v adj, step N H (s.setPend y (.called (.op .size))) (.lock y) =
      some (⟨{ s.rw with sem := v }.upd y ⟨.reading, .begin (.op .size), adj⟩, (s.setPend y (.called (.op .size))).pend⟩, []) := by
    have hw := ha.inv.w
    have hr := ha.inv.r
    have hex := ha.inv.excl
    have hpos := RwLock.cnt_pos hp hm
    have hle : RwLock.cnt .reading s.rw.procs ≤ s.rw.procs.length := List.countP_le_length
    have hlen := h.len
    have hw0 : s.rw.sem.w = 0 := by omega
    simp only [step, pend_same, Call.reads, if_true, Sys.low]
    simp only [Sys.setPend, RwLock.step, hq, if_pos hqm, RwLock.State.doSem, RwLock.lock_read_rw, RwLock.semop, RwLock.Vals.get, hw0, RwLock.semop1_zero, RwLock.Vals.set]
    rw [RwLock.semop1_ok (by decide) (by unfold RwLock.SEMVMX; omega)]
    exact ⟨_, _, rfl⟩
  obtain ⟨v, adj, hs2⟩ := hs2
  have e12 := exec_trans (exec_one hs1) (exec_one hs2)
  obtain ⟨_, a2, ha2⟩ := sim_exec hN hH _ ha (by exact ⟨trivial, fun _ _ _ => ⟨trivial, fun _ _ _ => trivial⟩⟩) e12
  generalize hg : (⟨{ s.rw with sem := v }.upd y ⟨.reading, .begin (.op .size), adj⟩, (s.setPend y (.called (.op .size))).pend⟩ : Sys V) = s2 at *
  have hpx : s2.rw.procs[x]? = some p := by rw [← hg]; rw [← hp]; exact upd_other (s := { s.rw with sem := v }) hxy
  have hpy : s2.rw.procs[y]? = some ⟨.reading, .begin (.op .size), adj⟩ := by rw [← hg]; exact upd_same (s := { s.rw with sem := v }) hq
  have hdx : s2.pend x = .called (.op .size) := by rw [← hg, ← h.px]; exact pend_other _ _ hxy
  have hdy : s2.pend y = .called (.op .size) := by rw [← hg]; exact pend_same _ _ _
  have hdw : s2.pend w = .called cw := by rw [← hg, ← h.pw]; exact pend_other _ _ hwy
  obtain ⟨k, c, hh⟩ := sim_holding ha2 hpx (Or.inr hm)
  obtain ⟨s3, r, q3, z1, z2, z3, z4, z5⟩ := hold_finish hN hH hh
  have hs4 : step N H s3 (.ret x) = some (s3.setPend x .idle, [.ret x r]) := by simp only [step, z2]
  have e34 := exec_trans z1 (exec_one hs4)
  have hsafe : SafeKills N H s2 ((List.replicate k (.body x) ++ [.unlock x]) ++ [.ret x]) := inner_safe (by rw [List.all_append, finish_inner]; rfl)
  obtain ⟨_, a4, ha4⟩ := sim_exec hN hH _ ha2 hsafe e34
  have e := exec_trans e12 e34
  refine ⟨_, _, _, r, ?_, e, ?_, ⟨⟨a4, ha4⟩, ?_, ?_, pend_same _ _ _, ?_, ?_, ?_⟩, by simp⟩
  · rw [List.all_append, List.all_append, List.all_append]
    simp only [List.all_append, List.all_cons, List.all_nil, Act.calm, Bool.and_true, Bool.true_and, List.all_eq_true]
    intro z hz
    rw [(List.mem_replicate.mp hz).2]
  · refine always_append (s1 := s2) ?_ e12 ?_
    · refine always_blocked hcw (c := .op .size) ha.inv h.px h.rx h.pw ?_
      intro z hz
      simp only [List.cons_append, List.nil_append, List.mem_cons, List.not_mem_nil, or_false] at hz
      rcases hz with rfl | rfl <;> simp
    · refine always_blocked hcw (c := .op .size) ha2.inv hdy ⟨_, hpy, rfl⟩ hdw ?_
      intro z hz
      simp only [List.mem_append, List.mem_cons, List.not_mem_nil, or_false] at hz
      rcases hz with (hz | rfl) | rfl
      · rw [(List.mem_replicate.mp hz).2]; simp
      · simp only [ne_eq, Act.unlock.injEq, reduceCtorEq, not_false_eq_true, true_and, and_true]
        exact ⟨hxy, fun e => hwx e.symm⟩
      · simp
  · rw [pend_other _ _ (fun e => hxy e.symm), (z5 y (fun e => hxy e.symm)).2]; exact hdy
  · exact ⟨_, by show s3.rw.procs[y]? = _; rw [(z5 y (fun e => hxy e.symm)).1]; exact hpy, rfl⟩
  · show (s3.rw.procs[x]?).map (·.mode) = some .out
    rw [z3, Option.map_some, z4]
  · rw [pend_other _ _ hwx, (z5 w hwx).2]; exact hdw
  · have := len_exec e
    rw [this]; exact h.len

/-- Is it a return? -/
def Event.isRet : Event V → Bool
  | .ret _ _ => true
  | _ => false

theorem relay_rounds (hN : N < NONE) (hH : 0 < H) {w : Nat} {cw : Call V} (hcw : cw.reads = false) : ∀ (n : Nat) {x y : Nat}, x ≠ y → w ≠ x → w ≠ y → ∀ {s : Sys V}, Relay N H x y w cw s →
    ∃ ys s' es, ys.all Act.calm = true ∧ exec N H s ys = some (s', es) ∧ Always N H (fun t => step N H t (.lock w) = none) s ys ∧ n ≤ es.countP Event.isRet := by
  intro n
  induction n with
  | zero =>
    intro x y _ _ _ s h
    obtain ⟨a, ha⟩ := h.sim
    exact ⟨[], s, [], rfl, rfl, always_blocked hcw (xs := []) ha.inv h.px h.rx h.pw (by simp), Nat.zero_le _⟩
  | succ n ih =>
    intro x y hxy hwx hwy s h
    obtain ⟨ys, s1, es, r, y1, y2, y3, y4, y5⟩ := relay_round hN hH hcw hxy hwx hwy h
    obtain ⟨zs, s2, es2, z1, z2, z3, z4⟩ := ih (fun e => hxy e.symm) hwy hwx y4
    refine ⟨ys ++ zs, s2, es ++ es2, by rw [List.all_append, y1, z1]; rfl, exec_trans y2 z2, always_append y3 y2 z3, ?_⟩
    rw [List.countP_append]
    have : 0 < es.countP Event.isRet := List.countP_pos_iff.mpr ⟨_, y5, rfl⟩
    omega

/-- **C119 is false: a writer may wait for ever.** Two processes call `size()` again and again, each before the other's call has returned; a third has called `insert`.
Any number of calls of `size()` return one after the other, and all the time the third process cannot get the lock. -/
theorem C119_refuted : ∃ (s1 : Sys Nat) (es : List (Event Nat)), exec 4 2 s0 [.connect 2, .call 0 (.op .size), .lock 0, .call 2 (.op (.insert 1 10))] = some (s1, es) ∧
    ∀ n, ∃ ys s2 es2, ys.all Act.calm = true ∧ exec 4 2 s1 ys = some (s2, es2) ∧ Always 4 2 (fun t => step 4 2 t (.lock 2) = none) s1 ys ∧ n ≤ es2.countP Event.isRet := by
  refine ⟨_, _, rfl, ?_⟩
  intro n
  refine relay_rounds (by decide) (by decide) (cw := .op (.insert 1 10)) rfl n (x := 0) (y := 1) (by decide) (by decide) (by decide) ?_
  refine ⟨?_, rfl, ⟨_, rfl, rfl⟩, rfl, rfl, rfl, by decide⟩
  exact (sim_exec (N := 4) (H := 2) (by decide) (by decide) [.connect 2, .call 0 (.op .size), .lock 0, .call 2 (.op (.insert 1 10))] (sim_start (s0_start 2))
    (safe_of (by decide +kernel)) rfl).2

/-- **C119, what holds.** In every state that can be reached in which nobody is in a critical section, every process that waits can take its lock at once, whether it reads or writes.
Missing: that such a state is ever reached (`C119_refuted`). -/
theorem C119_granted_partial (hN : N < 2 ^ 31) (hH : 0 < H) (s s1 : Sys V) (h : Start H s) (xs : List (Act V)) (hk : SafeKills N H s xs) (es : List (Event V))
    (he : exec N H s xs = some (s1, es)) (hfree : ∀ j, s1.rw.mode j ≠ some .writing ∧ s1.rw.mode j ≠ some .reading) (i : Nat) (c : Call V) (hc : s1.pend i = .called c) :
    (step N H s1 (.lock i)).isSome := by
  obtain ⟨a, ha⟩ := (sim_exec (by unfold NONE; omega) hH xs (sim_start h) hk he).2
  have hnone : ∀ (j : Nat) (q : RwLock.Proc (Loc V)), s1.rw.procs[j]? = some q → ¬ inSection q := by
    intro j q hq hin
    have := hfree j
    unfold RwLock.State.mode at this
    rw [hq, Option.map_some] at this
    rcases hin with e | e
    · exact this.1 (by rw [e])
    · exact this.2 (by rw [e])
  have hok := ha.ok i
  rw [hc] at hok
  obtain ⟨_, p, hp, hm⟩ := hok
  have hm : p.mode = .out := by
    rcases hm with hm | ⟨hm, _⟩ | ⟨hm, _⟩
    · exact hm
    · exact absurd (Or.inl hm) (hnone i p hp)
    · exact absurd (Or.inr hm) (hnone i p hp)
  obtain ⟨u, hu⟩ := free_lock ha.inv hnone hp hm hc
  rw [hu]
  rfl

/-- Non-vacuity: process 1 has called `erase`, process 0 has just left its section. -/
example : ((exec 4 2 s0 (whole 0 (.op (.insert 4 40)) ++ [.call 1 (.op (.erase 4))])).map (fun q => (q.1.rw.mode 0, q.1.rw.mode 1, q.1.rw.mode 2, (step 4 2 q.1 (.lock 1)).isSome))) =
    some (some .out, some .out, some .fresh, true) := by decide +kernel

end Verif.MapSys
