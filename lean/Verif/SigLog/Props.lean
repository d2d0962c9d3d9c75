/-
  C123: signals and the log.
-/
import Verif.SigLog.Spec

namespace Verif.SigLog

open Daemon (Flags coda_signal_handle)
open Logger (Level written)

theorem upd_same (s : State) (i : Nat) (l : List Frame) : (s.upd i l).stack i = l := by simp [State.upd]

theorem upd_other (s : State) (i j : Nat) (l : List Frame) (h : j ≠ i) : (s.upd i l).stack j = s.stack j := by simp [State.upd, h]

/-- Number of calls of fprintf that thread `i` is in. -/
def wr (l : List Frame) : Nat := (l.filter (·.pc = .writing)).length

structure Inv (s : State) : Prop where
  fin : ∃ N, ∀ i, N ≤ i → s.stack i = []
  below : ∀ i f r, s.stack i = f :: r → ∀ g ∈ r, g.pc ≠ .inTime
  tz : ∀ i, s.tz = some i ↔ InTime s i
  err1 : ∀ i, wr (s.stack i) ≠ 0 → s.err = some (i, wr (s.stack i))
  err2 : ∀ i d, s.err = some (i, d) → wr (s.stack i) = d ∧ d ≠ 0

theorem inv_init (lv : Int) : Inv (init lv) :=
  ⟨⟨0, fun _ _ => rfl⟩, (fun _ _ _ h => by cases h), (fun _ => ⟨(fun h => by cases h), (fun ⟨_, _, h, _⟩ => by cases h)⟩),
    (fun _ h => absurd rfl h), (fun _ _ h => by cases h)⟩

theorem fin_upd {s : State} (h : ∃ N, ∀ i, N ≤ i → s.stack i = []) (i : Nat) (l : List Frame) :
    ∃ N, ∀ j, N ≤ j → (s.upd i l).stack j = [] := by
  obtain ⟨N, hN⟩ := h
  refine ⟨N + i + 1, fun j hj => ?_⟩
  rw [upd_other _ _ _ _ (by omega)]
  exact hN j (by omega)

/-- Pushing a call that has not locked anything. -/
theorem inv_push {s : State} (h : Inv s) (i : Nat) (sg : Option Nat) (hc : ¬ InTime s i) : Inv (s.upd i (⟨.before, sg⟩ :: s.stack i)) where
  fin := fin_upd h.fin _ _
  below := by
    intro j f r e g hg
    by_cases hj : j = i
    · subst hj
      rw [upd_same] at e
      injection e with e1 e2
      subst e2
      cases hs : s.stack j with
      | nil => rw [hs] at hg; cases hg
      | cons a b =>
        rw [hs] at hg
        rcases List.mem_cons.mp hg with e3 | e3
        · intro e4; rw [e3] at e4; exact hc ⟨a, b, hs, e4⟩
        · exact h.below j a b hs g e3
    · rw [upd_other _ _ _ _ hj] at e
      exact h.below j f r e g hg
  tz := by
    intro j
    show s.tz = some j ↔ _
    rw [h.tz j]
    by_cases hj : j = i
    · subst hj
      constructor
      · intro h'; exact absurd h' hc
      · rintro ⟨f, r, e1, e2⟩
        rw [upd_same] at e1
        injection e1 with e1 _
        rw [← e1] at e2; cases e2
    · simp only [InTime, upd_other _ _ _ _ hj]
  err1 := by
    intro j
    by_cases hj : j = i
    · subst hj; rw [upd_same]; exact h.err1 j
    · rw [upd_other _ _ _ _ hj]; exact h.err1 j
  err2 := by
    intro j d
    by_cases hj : j = i
    · subst hj; rw [upd_same]; exact h.err2 j d
    · rw [upd_other _ _ _ _ hj]; exact h.err2 j d

theorem wr_cons (f : Frame) (r : List Frame) : wr (f :: r) = (if f.pc = .writing then 1 else 0) + wr r := by
  unfold wr
  by_cases h : f.pc = .writing
  · rw [if_pos h, List.filter_cons_of_pos (by simpa using h), List.length_cons]; omega
  · rw [if_neg h, List.filter_cons_of_neg (by simpa using h)]; omega

theorem inv_go {s t : State} (h : Inv s) (i : Nat) (hg : go s i = some t) : Inv t := by
  unfold go at hg
  cases hs : s.stack i with
  | nil => rw [hs] at hg; cases hg
  | cons f r =>
    rw [hs] at hg
    obtain ⟨pc, sg⟩ := f
    have hb := h.below i _ _ hs
    have hw := wr_cons ⟨pc, sg⟩ r
    rw [← hs] at hw
    cases pc with
    | before =>
      simp only [] at hg
      cases htz : s.tz with
      | some j => rw [htz] at hg; cases hg
      | none =>
        rw [htz] at hg
        simp only [Option.some.injEq] at hg
        subst hg
        have hno : ∀ j, ¬ InTime s j := fun j hj => by have := (h.tz j).mpr hj; rw [htz] at this; cases this
        refine ⟨fin_upd h.fin _ _, ?_, ?_, ?_, ?_⟩
        · intro j f' r' e g hg'
          by_cases hj : j = i
          · subst hj
            rw [show (s.upd j (⟨.inTime, sg⟩ :: r)).stack j = _ from upd_same ..] at e
            injection e with _ e2
            subst e2; exact hb g hg'
          · rw [show (s.upd i (⟨.inTime, sg⟩ :: r)).stack j = _ from upd_other _ _ _ _ hj] at e
            exact h.below j f' r' e g hg'
        · intro j
          show some i = some j ↔ _
          by_cases hj : j = i
          · subst hj
            exact ⟨fun _ => ⟨⟨.inTime, sg⟩, r, upd_same .., rfl⟩, fun _ => rfl⟩
          · constructor
            · intro e; injection e with e; exact absurd e.symm hj
            · rintro ⟨f', r', e1, e2⟩
              rw [show (s.upd i (⟨.inTime, sg⟩ :: r)).stack j = _ from upd_other _ _ _ _ hj] at e1
              exact absurd ⟨f', r', e1, e2⟩ (hno j)
        · intro j
          show wr ((s.upd i _).stack j) ≠ 0 → s.err = some (j, wr ((s.upd i _).stack j))
          by_cases hj : j = i
          · subst hj
            rw [upd_same, wr_cons]
            have := h.err1 j
            rw [hw] at this
            exact this
          · rw [upd_other _ _ _ _ hj]; exact h.err1 j
        · intro j d
          show s.err = some (j, d) → wr ((s.upd i _).stack j) = d ∧ d ≠ 0
          by_cases hj : j = i
          · subst hj
            rw [upd_same, wr_cons]
            have := h.err2 j d
            rw [hw] at this
            exact this
          · rw [upd_other _ _ _ _ hj]; exact h.err2 j d
    | inTime =>
      simp only [Option.some.injEq] at hg
      subst hg
      have hi : s.tz = some i := (h.tz i).mpr ⟨_, _, hs, rfl⟩
      refine ⟨fin_upd h.fin _ _, ?_, ?_, ?_, ?_⟩
      · intro j f' r' e g hg'
        by_cases hj : j = i
        · subst hj
          rw [show (s.upd j (⟨.after, sg⟩ :: r)).stack j = _ from upd_same ..] at e
          injection e with _ e2
          subst e2; exact hb g hg'
        · rw [show (s.upd i (⟨.after, sg⟩ :: r)).stack j = _ from upd_other _ _ _ _ hj] at e
          exact h.below j f' r' e g hg'
      · intro j
        show none = some j ↔ _
        constructor
        · intro e; cases e
        · rintro ⟨f', r', e1, e2⟩
          by_cases hj : j = i
          · subst hj
            rw [show (s.upd j (⟨.after, sg⟩ :: r)).stack j = _ from upd_same ..] at e1
            injection e1 with e1 _
            rw [← e1] at e2; cases e2
          · rw [show (s.upd i (⟨.after, sg⟩ :: r)).stack j = _ from upd_other _ _ _ _ hj] at e1
            have := (h.tz j).mpr ⟨f', r', e1, e2⟩
            rw [hi] at this
            injection this with this
            exact absurd this.symm hj
      · intro j
        show wr ((s.upd i _).stack j) ≠ 0 → s.err = some (j, wr ((s.upd i _).stack j))
        by_cases hj : j = i
        · subst hj
          rw [upd_same, wr_cons]
          have := h.err1 j
          rw [hw] at this
          exact this
        · rw [upd_other _ _ _ _ hj]; exact h.err1 j
      · intro j d
        show s.err = some (j, d) → wr ((s.upd i _).stack j) = d ∧ d ≠ 0
        by_cases hj : j = i
        · subst hj
          rw [upd_same, wr_cons]
          have := h.err2 j d
          rw [hw] at this
          exact this
        · rw [upd_other _ _ _ _ hj]; exact h.err2 j d
    | after =>
      simp only [] at hg
      have tz' : ∀ (j : Nat) (x : Option (Nat × Nat)), s.tz = some j ↔ InTime { s.upd i (⟨.writing, sg⟩ :: r) with err := x } j := by
        intro j x
        rw [h.tz j]
        by_cases hj : j = i
        · subst hj
          constructor
          · rintro ⟨f', r', e1, e2⟩
            rw [hs] at e1
            injection e1 with e1 _
            rw [← e1] at e2; cases e2
          · rintro ⟨f', r', e1, e2⟩
            rw [show State.stack { s.upd j (⟨.writing, sg⟩ :: r) with err := x } j = _ from upd_same s j _] at e1
            injection e1 with e1 _
            rw [← e1] at e2; cases e2
        · simp only [InTime, upd_other _ _ _ _ hj]
      have below' : ∀ j f' r', (s.upd i (⟨.writing, sg⟩ :: r)).stack j = f' :: r' → ∀ g ∈ r', g.pc ≠ .inTime := by
        intro j f' r' e g hg'
        by_cases hj : j = i
        · subst hj
          rw [upd_same] at e
          injection e with _ e2
          subst e2; exact hb g hg'
        · rw [upd_other _ _ _ _ hj] at e
          exact h.below j f' r' e g hg'
      have hwi : wr (s.stack i) = wr r := by rw [hw]; simp
      cases herr : s.err with
      | none =>
        rw [herr] at hg
        simp only [lockErr, Option.some.injEq] at hg
        subst hg
        have hz : ∀ j, wr (s.stack j) = 0 := by
          intro j
          apply Classical.byContradiction
          intro hn
          have := h.err1 j hn
          rw [herr] at this; cases this
        have hz' : wr r = 0 := by rw [← hwi]; exact hz i
        refine ⟨fin_upd h.fin _ _, below', fun j => tz' j _, ?_, ?_⟩
        · intro j
          show wr ((s.upd i _).stack j) ≠ 0 → some (i, 1) = some (j, wr ((s.upd i _).stack j))
          by_cases hj : j = i
          · subst hj
            intro _
            rw [upd_same, wr_cons, if_pos rfl, hz']
          · rw [upd_other _ _ _ _ hj]
            intro hn; exact absurd (hz j) hn
        · intro j d
          show some (i, 1) = some (j, d) → wr ((s.upd i _).stack j) = d ∧ d ≠ 0
          intro e
          injection e with e
          injection e with e1 e2
          subst e1
          rw [upd_same, wr_cons, if_pos rfl, hz']
          omega
      | some p =>
        obtain ⟨k, d⟩ := p
        rw [herr] at hg
        simp only [lockErr] at hg
        by_cases hk : k = i
        · rw [if_pos hk] at hg
          simp only [Option.some.injEq] at hg
          subst hg
          subst hk
          obtain ⟨g1, g2⟩ := h.err2 k d herr
          refine ⟨fin_upd h.fin _ _, below', fun j => tz' j _, ?_, ?_⟩
          · intro j
            show wr ((s.upd k _).stack j) ≠ 0 → some (k, d + 1) = some (j, wr ((s.upd k _).stack j))
            by_cases hj : j = k
            · subst hj
              intro _
              rw [upd_same, wr_cons, if_pos rfl, ← hwi, g1, Nat.add_comm]
            · rw [upd_other _ _ _ _ hj]
              intro hn
              have := h.err1 j hn
              rw [herr] at this
              injection this with this
              injection this with this _
              exact absurd this.symm hj
          · intro j d'
            show some (k, d + 1) = some (j, d') → wr ((s.upd k _).stack j) = d' ∧ d' ≠ 0
            intro e
            injection e with e
            injection e with e1 e2
            subst e1
            rw [upd_same, wr_cons, if_pos rfl, ← hwi, g1]
            omega
        · rw [if_neg hk] at hg; cases hg
    | writing =>
      simp only [Option.some.injEq] at hg
      subst hg
      have hwi : wr (s.stack i) = 1 + wr r := by rw [hw, if_pos rfl]
      have he := h.err1 i (by omega)
      refine ⟨fin_upd h.fin _ _, ?_, ?_, ?_, ?_⟩
      · intro j f' r' e g hg'
        by_cases hj : j = i
        · subst hj
          rw [show (s.upd j r).stack j = _ from upd_same ..] at e
          exact hb g (by rw [e]; exact List.mem_cons_of_mem _ hg')
        · rw [show (s.upd i r).stack j = _ from upd_other _ _ _ _ hj] at e
          exact h.below j f' r' e g hg'
      · intro j
        show s.tz = some j ↔ _
        rw [h.tz j]
        by_cases hj : j = i
        · subst hj
          constructor
          · rintro ⟨f', r', e1, e2⟩
            rw [hs] at e1
            injection e1 with e1 _
            rw [← e1] at e2; cases e2
          · rintro ⟨f', r', e1, e2⟩
            rw [show (s.upd j r).stack j = _ from upd_same ..] at e1
            exact absurd e2 (hb f' (by rw [e1]; exact List.mem_cons_self ..))
        · simp only [InTime, upd_other _ _ _ _ hj]
      · intro j
        show wr ((s.upd i _).stack j) ≠ 0 → unlockErr s.err = some (j, wr ((s.upd i _).stack j))
        by_cases hj : j = i
        · subst hj
          rw [upd_same, he, hwi]
          intro hn
          obtain ⟨d, hd⟩ : ∃ d, wr r = d + 1 := ⟨wr r - 1, by omega⟩
          rw [hd, show 1 + (d + 1) = d + 2 by omega]
          rfl
        · rw [upd_other _ _ _ _ hj]
          intro hn
          have := h.err1 j hn
          rw [he] at this
          injection this with this
          injection this with this _
          exact absurd this.symm hj
      · intro j d
        show unlockErr s.err = some (j, d) → wr ((s.upd i _).stack j) = d ∧ d ≠ 0
        rw [he, hwi]
        intro e
        cases hr : wr r with
        | zero => rw [hr] at e; cases e
        | succ d' =>
          rw [hr, show 1 + (d' + 1) = d' + 2 by omega] at e
          simp only [unlockErr, Option.some.injEq, Prod.mk.injEq] at e
          obtain ⟨e1, e2⟩ := e
          subst e1
          rw [upd_same, hr]
          omega

theorem inv_step {s t : State} (h : Inv s) (l : Label) (hs : step s l = some t)
    (hc : ∀ i n, l = .signal i n → 6 ≤ s.log_level → ¬ InTime s i) : Inv t := by
  cases l with
  | call i lv =>
    simp only [step] at hs
    cases e : s.stack i with
    | cons f r => rw [e] at hs; cases hs
    | nil =>
      rw [e] at hs
      simp only [Option.some.injEq] at hs
      subst hs
      by_cases hw : written lv s.log_level = true
      · rw [if_pos hw]
        have := inv_push h i none (by rintro ⟨f, r, e1, _⟩; rw [e] at e1; cases e1)
        rw [e] at this
        exact this
      · rw [if_neg hw]; exact h
  | signal i n =>
    simp only [step, Option.some.injEq] at hs
    subst hs
    by_cases hw : written .notice s.log_level = true
    · rw [if_pos hw]
      refine inv_push h i (some n) (hc i n rfl ?_)
      have : (6 : Int) ≤ s.log_level := of_decide_eq_true hw
      exact this
    · rw [if_neg hw]
      exact ⟨h.fin, h.below, h.tz, h.err1, h.err2⟩
  | step i => exact inv_go h i hs

theorem inv_exec : ∀ (ls : List Label) (s t : State), Inv s → Safe s ls → exec s ls = some t → Inv t := by
  intro ls
  induction ls with
  | nil => intro s t h _ e; injection e with e; rw [← e]; exact h
  | cons l ls ih =>
    intro s t h hsafe e
    rw [exec] at e
    cases hs : step s l with
    | none => rw [hs] at e; cases e
    | some u =>
      rw [hs] at e
      exact ih u t (inv_step h l hs hsafe.1) (hsafe.2 u hs) e

/-- Somebody can go on as long as somebody is logging. -/
theorem progress {s : State} (h : Inv s) (i : Nat) (hi : s.stack i ≠ []) : ∃ j, go s j ≠ none := by
  cases htz : s.tz with
  | some j =>
    obtain ⟨f, r, e1, e2⟩ := (h.tz j).mp htz
    refine ⟨j, ?_⟩
    unfold go
    rw [e1]
    simp only []
    rw [e2]
    simp
  | none =>
    -- a thread that has the lock of stderr, or any thread if nobody has it
    have key : ∀ j, s.stack j ≠ [] → (s.err = none ∨ ∃ d, s.err = some (j, d)) → go s j ≠ none := by
      intro j hj he
      unfold go
      cases e : s.stack j with
      | nil => exact absurd e hj
      | cons f r =>
        obtain ⟨pc, sg⟩ := f
        cases pc with
        | before => simp [htz]
        | inTime => simp
        | after => rcases he with he | ⟨d, he⟩ <;> simp [he, lockErr]
        | writing => simp
    cases he : s.err with
    | none => exact ⟨i, key i hi (Or.inl he)⟩
    | some p =>
      obtain ⟨j, d⟩ := p
      obtain ⟨g1, g2⟩ := h.err2 j d he
      refine ⟨j, key j (fun e => ?_) (Or.inr ⟨d, he⟩)⟩
      rw [e] at g1
      exact g2 g1.symm

/-- Steps that are left. -/
def rem : Pc → Nat
  | .before => 4
  | .inTime => 3
  | .after => 2
  | .writing => 1

def cost (l : List Frame) : Nat := (l.map fun f => rem f.pc).sum

/-- Of the first threads together. -/
def total (st : Nat → List Frame) : Nat → Nat
  | 0 => 0
  | n + 1 => total st n + cost (st n)

theorem total_congr (a b : Nat → List Frame) : ∀ N, (∀ j, j < N → cost (a j) = cost (b j)) → total a N = total b N := by
  intro N
  induction N with
  | zero => intro _; rfl
  | succ N ih =>
    intro h
    rw [total, total, ih (fun j hj => h j (by omega)), h N (by omega)]

theorem total_one (a b : Nat → List Frame) (i : Nat) (h1 : cost (a i) = cost (b i) + 1) (h2 : ∀ j, j ≠ i → a j = b j) :
    ∀ N, i < N → total a N = total b N + 1 := by
  intro N
  induction N with
  | zero => intro h; omega
  | succ N ih =>
    intro h
    rw [total, total]
    by_cases hN : N = i
    · subst hN
      rw [h1, total_congr a b N (fun j hj => by rw [h2 j (by omega)])]
      omega
    · rw [ih (by omega), h2 N hN]
      omega

theorem go_cost {s t : State} {i : Nat} (h : go s i = some t) :
    cost (s.stack i) = cost (t.stack i) + 1 ∧ (∀ j, j ≠ i → s.stack j = t.stack j) ∧ s.stack i ≠ [] := by
  unfold go at h
  cases hs : s.stack i with
  | nil => rw [hs] at h; cases h
  | cons f r =>
    rw [hs] at h
    obtain ⟨pc, sg⟩ := f
    cases pc with
    | before =>
      simp only [] at h
      cases htz : s.tz with
      | some j => rw [htz] at h; cases h
      | none =>
        rw [htz] at h
        simp only [Option.some.injEq] at h
        subst h
        refine ⟨?_, fun j hj => (upd_other _ _ _ _ hj).symm, by simp⟩
        rw [show (s.upd i (⟨.inTime, sg⟩ :: r)).stack i = _ from upd_same ..]
        simp [cost, rem]; omega
    | inTime =>
      simp only [Option.some.injEq] at h
      subst h
      refine ⟨?_, fun j hj => (upd_other _ _ _ _ hj).symm, by simp⟩
      rw [show (s.upd i (⟨.after, sg⟩ :: r)).stack i = _ from upd_same ..]
      simp [cost, rem]; omega
    | after =>
      simp only [] at h
      cases he : lockErr i s.err with
      | none => rw [he] at h; cases h
      | some e =>
        rw [he] at h
        simp only [Option.some.injEq] at h
        subst h
        refine ⟨?_, fun j hj => (upd_other _ _ _ _ hj).symm, by simp⟩
        rw [show (s.upd i (⟨.writing, sg⟩ :: r)).stack i = _ from upd_same ..]
        simp [cost, rem]; omega
    | writing =>
      simp only [Option.some.injEq] at h
      subst h
      refine ⟨?_, fun j hj => (upd_other _ _ _ _ hj).symm, by simp⟩
      rw [show (s.upd i r).stack i = _ from upd_same ..]
      simp [cost, rem]; omega

theorem handle_sets (f : Flags) (n : Nat) : Noticed (coda_signal_handle f n) n := by
  refine ⟨?_, ?_, ?_, ?_⟩
  · rintro (h | h) <;> subst h <;> rfl
  · intro h; subst h; rfl
  · intro h; subst h; rfl
  · intro h; subst h; rfl

theorem handle_keeps (f : Flags) (n m : Nat) (h : Noticed f n) : Noticed (coda_signal_handle f m) n := by
  obtain ⟨a, b, c, d⟩ := h
  unfold coda_signal_handle
  cases Daemon.sigList.lookup m with
  | none => exact ⟨a, b, c, d⟩
  | some x =>
    cases x with
    | terminate => exact ⟨fun _ => rfl, b, c, d⟩
    | changecfg => exact ⟨a, fun _ => rfl, c, d⟩
    | rotatelog => exact ⟨a, b, fun _ => rfl, d⟩
    | changebin => exact ⟨a, b, c, fun _ => rfl⟩
    | ignoremsg => exact ⟨a, b, c, d⟩

/-- A handler stays, or has set its flag. -/
theorem go_pending {s t : State} {i : Nat} (h : go s i = some t) (j n : Nat) :
    (Noticed s.flags n → Noticed t.flags n) ∧ (Pending s j n → Pending t j n ∨ Noticed t.flags n) := by
  unfold go at h
  cases hs : s.stack i with
  | nil => rw [hs] at h; cases h
  | cons f r =>
    rw [hs] at h
    obtain ⟨pc, sg⟩ := f
    -- the first call goes on
    have same : ∀ (pc' : Pc) (u : State), u.stack = (s.upd i (⟨pc', sg⟩ :: r)).stack → Pending s j n → Pending u j n := by
      intro pc' u hu
      rintro ⟨g, hg, e⟩
      by_cases hj : j = i
      · subst hj
        rw [hs] at hg
        unfold Pending
        rw [hu, upd_same]
        rcases List.mem_cons.mp hg with e1 | e1
        · exact ⟨⟨pc', sg⟩, List.mem_cons_self .., by rw [e1] at e; exact e⟩
        · exact ⟨g, List.mem_cons_of_mem _ e1, e⟩
      · unfold Pending
        rw [hu, upd_other _ _ _ _ hj]
        exact ⟨g, hg, e⟩
    cases pc with
    | before =>
      simp only [] at h
      cases htz : s.tz with
      | some j => rw [htz] at h; cases h
      | none =>
        rw [htz] at h
        simp only [Option.some.injEq] at h
        subst h
        exact ⟨id, fun hp => Or.inl (same .inTime _ rfl hp)⟩
    | inTime =>
      simp only [Option.some.injEq] at h
      subst h
      exact ⟨id, fun hp => Or.inl (same .after _ rfl hp)⟩
    | after =>
      simp only [] at h
      cases he : lockErr i s.err with
      | none => rw [he] at h; cases h
      | some e =>
        rw [he] at h
        simp only [Option.some.injEq] at h
        subst h
        exact ⟨id, fun hp => Or.inl (same .writing _ rfl hp)⟩
    | writing =>
      simp only [Option.some.injEq] at h
      subst h
      refine ⟨?_, ?_⟩
      · intro hn
        show Noticed (finish s.flags sg) n
        cases sg with
        | none => exact hn
        | some m => exact handle_keeps _ _ _ hn
      · rintro ⟨g, hg, e⟩
        by_cases hj : j = i
        · subst hj
          rw [hs] at hg
          rcases List.mem_cons.mp hg with e1 | e1
          · right
            show Noticed (finish s.flags sg) n
            rw [e1] at e
            simp only [] at e
            rw [e]
            exact handle_sets _ _
          · left
            unfold Pending
            rw [show (s.upd j r).stack j = _ from upd_same ..]
            exact ⟨g, e1, e⟩
        · left
          unfold Pending
          rw [show (s.upd i r).stack j = _ from upd_other _ _ _ _ hj]
          exact ⟨g, hg, e⟩

theorem steps_run : ∀ (ls : List Label) (s t : State) (N : Nat), Inv s → (∀ i, N ≤ i → s.stack i = []) → OnlySteps ls → exec s ls = some t →
    Inv t ∧ ls.length + total t.stack N = total s.stack N ∧
      ∀ j n, (Noticed s.flags n → Noticed t.flags n) ∧ (Pending s j n → Pending t j n ∨ Noticed t.flags n) := by
  intro ls
  induction ls with
  | nil =>
    intro s t N h _ _ e
    injection e with e
    subst e
    exact ⟨h, by simp, fun j n => ⟨id, Or.inl⟩⟩
  | cons l ls ih =>
    intro s t N h hN ho e
    obtain ⟨i, rfl⟩ := ho l (List.mem_cons_self ..)
    rw [exec] at e
    cases hs : step s (.step i) with
    | none => rw [hs] at e; cases e
    | some u =>
      rw [hs] at e
      have hg : go s i = some u := hs
      obtain ⟨c1, c2, c3⟩ := go_cost hg
      have hiN : i < N := by
        apply Classical.byContradiction
        intro hn
        exact c3 (hN i (by omega))
      obtain ⟨k1, k2, k3⟩ := ih u t N (inv_go h i hg) (fun j hj => by rw [← c2 j (by omega)]; exact hN j hj)
        (fun l hl => ho l (List.mem_cons_of_mem _ hl)) e
      refine ⟨k1, ?_, ?_⟩
      · rw [total_one s.stack u.stack i c1 c2 N hiN, ← k2, List.length_cons]; omega
      · intro j n
        obtain ⟨g1, g2⟩ := go_pending hg j n
        refine ⟨fun hn => (k3 j n).1 (g1 hn), fun hp => ?_⟩
        rcases g2 hp with g | g
        · exact (k3 j n).2 g
        · exact Or.inr ((k3 j n).1 g)

theorem hist_pending : ∀ (ls : List Label) (s t : State), exec s ls = some t →
    (∀ j n, (Noticed s.flags n → Noticed t.flags n) ∧ (Pending s j n → Pending t j n ∨ Noticed t.flags n)) ∧
      ∀ i n, .signal i n ∈ ls → Pending t i n ∨ Noticed t.flags n := by
  intro ls
  induction ls with
  | nil =>
    intro s t e
    injection e with e
    subst e
    exact ⟨fun j n => ⟨id, Or.inl⟩, fun i n h => by cases h⟩
  | cons l ls ih =>
    intro s t e
    rw [exec] at e
    cases hs : step s l with
    | none => rw [hs] at e; cases e
    | some u =>
      rw [hs] at e
      obtain ⟨k1, k2⟩ := ih u t e
      have one : (∀ j n, (Noticed s.flags n → Noticed u.flags n) ∧ (Pending s j n → Pending u j n ∨ Noticed u.flags n)) ∧
          ∀ i n, l = .signal i n → Pending u i n ∨ Noticed u.flags n := by
        cases l with
        | step i => exact ⟨go_pending hs, fun i n h => by cases h⟩
        | call i lv =>
          refine ⟨fun j n => ?_, fun i n h => by cases h⟩
          simp only [step] at hs
          cases hst : s.stack i with
          | cons f r => rw [hst] at hs; cases hs
          | nil =>
            rw [hst] at hs
            injection hs with hs
            subst hs
            split
            · refine ⟨id, fun hp => Or.inl ?_⟩
              obtain ⟨g, hg, hgs⟩ := hp
              by_cases hj : j = i
              · subst hj; rw [hst] at hg; cases hg
              · exact ⟨g, by rw [upd_other _ _ _ _ hj]; exact hg, hgs⟩
            · exact ⟨id, Or.inl⟩
        | signal i m =>
          simp only [step] at hs
          injection hs with hs
          subst hs
          split
          · refine ⟨fun j n => ⟨id, fun hp => Or.inl ?_⟩, fun i' n' h => Or.inl ?_⟩
            · obtain ⟨g, hg, hgs⟩ := hp
              by_cases hj : j = i
              · subst hj
                exact ⟨g, by rw [upd_same]; exact List.mem_cons_of_mem _ hg, hgs⟩
              · exact ⟨g, by rw [upd_other _ _ _ _ hj]; exact hg, hgs⟩
            · injection h with h1 h2
              subst h1 h2
              exact ⟨_, by rw [upd_same]; exact List.mem_cons_self, rfl⟩
          · refine ⟨fun j n => ⟨fun hn => handle_keeps _ _ _ hn, Or.inl⟩, fun i' n' h => Or.inr ?_⟩
            injection h with h1 h2
            subst h1 h2
            exact handle_sets _ _
      have trans : ∀ i n, Pending u i n ∨ Noticed u.flags n → Pending t i n ∨ Noticed t.flags n := by
        rintro i n (h | h)
        · exact (k1 i n).2 h
        · exact Or.inr ((k1 i n).1 h)
      refine ⟨fun j n => ⟨fun h => (k1 j n).1 ((one.1 j n).1 h), fun h => trans _ _ ((one.1 j n).2 h)⟩, fun i n h => ?_⟩
      rcases List.mem_cons.mp h with h | h
      · exact trans _ _ (one.2 i n h.symm)
      · exact k2 i n h

/-- **C123.**  Any number of threads that log, signals at every moment except inside of localtime_r: the calls end — the threads together take at
most `B` more steps —, the threads never wait for each other in a circle — if none of them can go on, all have returned —, and then the flags of
all signals are set that have arrived at any thread. -/
theorem C123_handled_partial (lv : Int) (hist : List Label) (s : State) (hsafe : Safe (init lv) hist) (hs : exec (init lv) hist = some s) :
    ∃ B, ∀ ls t, OnlySteps ls → exec s ls = some t →
      ls.length ≤ B ∧ ((∀ i, go t i = none) → (∀ i, t.stack i = []) ∧ ∀ i n, .signal i n ∈ hist → Noticed t.flags n) := by
  have hi := inv_exec hist _ _ (inv_init lv) hsafe hs
  obtain ⟨N, hN⟩ := hi.fin
  refine ⟨total s.stack N, fun ls t ho he => ?_⟩
  obtain ⟨k1, k2, k3⟩ := steps_run ls s t N hi hN ho he
  refine ⟨by omega, fun hstuck => ?_⟩
  have hempty : ∀ i, t.stack i = [] := by
    intro i
    apply Classical.byContradiction
    intro hn
    obtain ⟨j, hj⟩ := progress k1 i hn
    exact hj (hstuck j)
  refine ⟨hempty, fun i n hsig => ?_⟩
  rcases (hist_pending hist _ _ hs).2 i n hsig with hp | hn
  · rcases (k3 i n).2 hp with ⟨g, hg, _⟩ | h
    · rw [hempty i] at hg; cases hg
    · exact h
  · exact (k3 i n).1 hn

/-- Two threads log; SIGTERM arrives at the first one in fprintf, SIGHUP within the handler. -/
def demo : List Label :=
  [.call 0 .info, .step 0, .step 0, .step 0, .signal 0 15, .call 1 .error, .step 1, .step 1, .signal 0 1, .step 0]

def states (s : State) (ls : List Label) : Bool :=
  match exec s ls with
  | some t => t.stack 0 == [⟨.inTime, some 1⟩, ⟨.before, some 15⟩, ⟨.writing, none⟩] && t.stack 1 == [⟨.after, none⟩] && t.flags == {}
  | none => false

example : states (init 7) demo = true := by decide

/-- Here there is no signal at a thread inside of localtime_r. -/
example : Safe (init 7) demo := by
  unfold demo
  repeat' (first
    | exact trivial
    | (refine ⟨?_, ?_⟩)
    | (intro t ht; (injection ht with ht); subst ht)
    | (intro i n h _ hin; injection h with h1 h2; subst h1; obtain ⟨f, r, e1, e2⟩ := hin; injection e1 with e1 _; subst e1; cases e2)
    | (intro i n h; cases h))

/-! The counterexample -/

/-- Thread `i` waits for the lock that it has itself. -/
structure Stuck (i : Nat) (fl : Flags) (s : State) : Prop where
  tz : s.tz = some i
  own : ∃ a as, s.stack i = a :: as ∧ a.pc = .before
  rest : ∀ j, j ≠ i → ∀ f ∈ s.stack j, f.pc = .before
  level : 6 ≤ s.log_level
  flags : s.flags = fl

theorem stuck_go {i : Nat} {fl : Flags} {s : State} (h : Stuck i fl s) (j : Nat) : go s j = none := by
  unfold go
  cases e : s.stack j with
  | nil => rfl
  | cons f r =>
    have : f.pc = .before := by
      by_cases hj : j = i
      · subst hj
        obtain ⟨a, as, e1, e2⟩ := h.own
        rw [e] at e1
        injection e1 with e1 _
        rw [e1]; exact e2
      · exact h.rest j hj f (by rw [e]; exact List.mem_cons_self ..)
    simp only []
    rw [this, h.tz]

theorem stuck_push {i : Nat} {fl : Flags} {s : State} (h : Stuck i fl s) (j : Nat) (sg : Option Nat) :
    Stuck i fl (s.upd j (⟨.before, sg⟩ :: s.stack j)) where
  tz := h.tz
  own := by
    by_cases hj : i = j
    · subst hj; rw [upd_same]; exact ⟨_, _, rfl, rfl⟩
    · rw [upd_other _ _ _ _ hj]; exact h.own
  rest := by
    intro k hk f hf
    by_cases hj : k = j
    · subst hj
      rw [upd_same] at hf
      rcases List.mem_cons.mp hf with e | e
      · rw [e]
      · exact h.rest k hk f e
    · rw [upd_other _ _ _ _ hj] at hf
      exact h.rest k hk f hf
  level := h.level
  flags := h.flags

theorem stuck_step {i : Nat} {fl : Flags} {s t : State} (h : Stuck i fl s) (l : Label) (hs : step s l = some t) : Stuck i fl t := by
  cases l with
  | call j lv =>
    simp only [step] at hs
    cases e : s.stack j with
    | cons f r => rw [e] at hs; cases hs
    | nil =>
      rw [e] at hs
      simp only [Option.some.injEq] at hs
      subst hs
      by_cases hw : written lv s.log_level = true
      · rw [if_pos hw]
        have := stuck_push h j none
        rw [e] at this
        exact this
      · rw [if_neg hw]; exact h
  | signal j n =>
    simp only [step, Option.some.injEq] at hs
    subst hs
    have hl := h.level
    rw [if_pos (show written .notice s.log_level = true from decide_eq_true hl)]
    exact stuck_push h j (some n)
  | step j =>
    rw [show step s (.step j) = go s j from rfl, stuck_go h j] at hs
    cases hs

theorem stuck_exec {i : Nat} {fl : Flags} : ∀ (ls : List Label) (s t : State), Stuck i fl s → exec s ls = some t → Stuck i fl t := by
  intro ls
  induction ls with
  | nil => intro s t h e; injection e with e; rw [← e]; exact h
  | cons l ls ih =>
    intro s t h e
    rw [exec] at e
    cases hs : step s l with
    | none => rw [hs] at e; cases e
    | some u => rw [hs] at e; exact ih u t (stuck_step h l hs) e

/-- **C123 is false**: in every state that can be reached, when a signal arrives at a thread that is inside of localtime_r (while the other threads
are not logging), no thread ever gets through a call of the log again, and no flag is ever set again — not for this signal, nor for any
other signal that follows, SIGTERM included. -/
theorem C123_refuted (lv : Int) (hlv : 6 ≤ lv) (hist : List Label) (s : State) (hsafe : Safe (init lv) hist) (hs : exec (init lv) hist = some s)
    (i n : Nat) (hi : InTime s i) (ho : ∀ j, j ≠ i → s.stack j = []) (ls : List Label) (t : State)
    (he : exec s (.signal i n :: ls) = some t) : t.flags = s.flags ∧ ∀ j, go t j = none := by
  have hinv := inv_exec hist _ _ (inv_init lv) hsafe hs
  have hlevel : ∀ (ls : List Label) (s t : State), exec s ls = some t → t.log_level = s.log_level := by
    intro ls
    induction ls with
    | nil => intro s t e; injection e with e; rw [e]
    | cons l ls ih =>
      intro s t e
      rw [exec] at e
      cases h1 : step s l with
      | none => rw [h1] at e; cases e
      | some u =>
        rw [h1] at e
        rw [ih u t e]
        cases l with
        | call j lv =>
          simp only [step] at h1
          cases e2 : s.stack j with
          | cons f r => rw [e2] at h1; cases h1
          | nil =>
            rw [e2] at h1
            simp only [Option.some.injEq] at h1
            subst h1
            by_cases hw : written lv s.log_level = true
            · rw [if_pos hw]; rfl
            · rw [if_neg hw]
        | signal j n =>
          simp only [step, Option.some.injEq] at h1
          subst h1
          by_cases hw : written .notice s.log_level = true
          · rw [if_pos hw]; rfl
          · rw [if_neg hw]
        | step j =>
          have h1 : go s j = some u := h1
          unfold go at h1
          cases e2 : s.stack j with
          | nil => rw [e2] at h1; cases h1
          | cons f r =>
            rw [e2] at h1
            obtain ⟨pc, sg⟩ := f
            cases pc with
            | before =>
              simp only [] at h1
              cases htz : s.tz with
              | some j => rw [htz] at h1; cases h1
              | none => rw [htz] at h1; simp only [Option.some.injEq] at h1; subst h1; rfl
            | inTime => simp only [Option.some.injEq] at h1; subst h1; rfl
            | after =>
              simp only [] at h1
              cases he : lockErr j s.err with
              | none => rw [he] at h1; cases h1
              | some e => rw [he] at h1; simp only [Option.some.injEq] at h1; subst h1; rfl
            | writing => simp only [Option.some.injEq] at h1; subst h1; rfl
  have hl : s.log_level = lv := hlevel hist _ _ hs
  rw [exec, step, if_pos (by rw [hl]; exact decide_eq_true hlv)] at he
  simp only [] at he
  have h0 : Stuck i s.flags (s.upd i (⟨.before, some n⟩ :: s.stack i)) :=
    ⟨(hinv.tz i).mpr hi, ⟨_, _, upd_same .., rfl⟩, (fun j hj f hf => by rw [upd_other _ _ _ _ hj, ho j hj] at hf; cases hf),
      (by show 6 ≤ s.log_level; rw [hl]; exact hlv), rfl⟩
  have hst := stuck_exec ls _ _ h0 he
  exact ⟨hst.flags, stuck_go hst⟩

/-- The default level is LOG_info, 7: one message, and SIGTERM while localtime_r runs for it. -/
example : ∃ s, exec (init 7) [.call 0 .info, .step 0] = some s ∧ InTime s 0 ∧ (∀ j, j ≠ 0 → s.stack j = []) :=
  ⟨_, rfl, ⟨⟨.inTime, none⟩, [], rfl, rfl⟩, fun j hj => by simp [State.upd, init, hj, written, Level.num]⟩

end Verif.SigLog
