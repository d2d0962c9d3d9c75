import Verif.Synque.Lemmas

set_option linter.unusedSimpArgs false
set_option linter.unusedVariables false

namespace Verif.Synque

variable {T : Type}

/-! ### wake-ups -/

def b2n (b : Bool) : Nat := if b then 1 else 0

def W (s : State T) : Prop := s.thr.any Mode.waiting = true → s.d.length ≤ s.thr.countP Mode.onWay

theorem countP_set {α} (p : α → Bool) : ∀ (l : List α) (i : Nat) (x y : α), l[i]? = some x →
    (l.set i y).countP p + b2n (p x) = l.countP p + b2n (p y)
  | [], i, x, y, h => by simp at h
  | a :: l, 0, x, y, h => by
    simp only [List.getElem?_cons_zero, Option.some.injEq] at h
    subst h
    simp only [List.set_cons_zero, List.countP_cons, b2n]
    omega
  | a :: l, i + 1, x, y, h => by
    simp only [List.getElem?_cons_succ] at h
    have := countP_set p l i x y h
    simp only [List.set_cons_succ, List.countP_cons]
    omega

theorem any_set {α} {p : α → Bool} {l : List α} {i : Nat} {y : α} (h : (l.set i y).any p = true) (hy : p y = false) : l.any p = true := by
  rw [List.any_eq_true] at h ⊢
  obtain ⟨x, hx, hpx⟩ := h
  rcases mem_set hx with hx | rfl
  · exact ⟨x, hx, hpx⟩
  · rw [hy] at hpx; simp at hpx

theorem W_upd {s s' : State T} {i : Nat} {m q : Mode T} (h : W s) (hp : s.thr[i]? = some m) (ht : s'.thr = s.thr.set i q)
    (hq : q.waiting = false) (hn : s'.d.length + b2n m.onWay ≤ s.d.length + b2n q.onWay) : W s' := by
  intro hw
  rw [ht] at hw ⊢
  have h1 := h (any_set hw hq)
  have h2 := countP_set Mode.onWay s.thr i m q hp
  omega

theorem W_empty {s : State T} (h : s.d = []) : W s := by
  intro _; rw [h]; exact Nat.zero_le _

theorem unlock_thr {s : State T} {i : Nat} {m : Mode T} (h : s.mtx = some i) : (s.unlock i m).thr = s.thr.set i m ∧ (s.unlock i m).d = s.d := by
  rw [unlock_eq h]; exact ⟨rfl, rfl⟩

theorem W_adv {s s' : State T} (h : Inv s) (hW : W s) {i : Nat} {m : Mode T} (hp : s.thr[i]? = some m) (he : adv s i m = some s') : W s' := by
  cases m with
  | idle => simp [adv] at he
  | gw rq => simp [adv] at he
  | a0 e => obtain ⟨_, rfl⟩ := lock_some he; exact W_upd (q := .a1 e) hW hp rfl rfl (Nat.le_refl _)
  | s0 => obtain ⟨_, rfl⟩ := lock_some he; exact W_upd (q := .s1) hW hp rfl rfl (Nat.le_refl _)
  | z0 => obtain ⟨_, rfl⟩ := lock_some he; exact W_upd (q := .z1) hW hp rfl rfl (Nat.le_refl _)
  | g0 rq => obtain ⟨_, rfl⟩ := lock_some he; exact W_upd (q := .g1 rq) hW hp rfl rfl (Nat.le_refl _)
  | gr rq => obtain ⟨_, rfl⟩ := lock_some he; exact W_upd (q := .g2 rq) hW hp rfl rfl (Nat.le_refl _)
  | a1 e =>
    simp only [adv, Option.some.injEq] at he
    subst he; exact W_upd (q := .a1w e s.d) hW hp rfl rfl (Nat.le_refl _)
  | z1 =>
    simp only [adv, Option.some.injEq] at he
    subst he; exact W_upd (q := .z2 s.d.length) hW hp rfl rfl (Nat.le_refl _)
  | a1w e copy =>
    obtain ⟨hm, ho, hd1, hd2⟩ := held h hp rfl
    have hd2' : copy = s.d := hd2
    subst hd2'
    simp only [adv, Option.some.injEq] at he
    subst he
    refine W_upd (q := .a2) hW hp rfl rfl ?_
    show (e :: s.d).length + 0 ≤ s.d.length + 1
    simp
  | a2 =>
    simp only [adv] at he
    split at he
    · simp at he
    · rename_i hw
      simp only [Option.some.injEq] at he
      subst he
      intro hw2
      exact absurd (any_set hw2 rfl) hw
  | s1 =>
    simp only [adv] at he
    split at he
    · simp at he
    · simp only [Option.some.injEq] at he
      subst he; exact W_upd (q := .s2) hW hp rfl rfl (Nat.le_refl _)
  | a3 =>
    obtain ⟨hm, ho, hd⟩ := held h hp rfl
    simp only [adv, Option.some.injEq] at he
    subst he
    refine W_upd (q := .idle) hW hp (unlock_thr hm).1 rfl ?_
    rw [(unlock_thr hm).2]; exact Nat.le_refl _
  | s2 =>
    obtain ⟨hm, ho, hd⟩ := held h hp rfl
    simp only [adv, Option.some.injEq] at he
    subst he
    refine W_upd (q := .idle) hW hp (unlock_thr hm).1 rfl ?_
    rw [(unlock_thr hm).2]; exact Nat.le_refl _
  | z2 n =>
    obtain ⟨hm, ho, hd⟩ := held h hp rfl
    simp only [adv, Option.some.injEq] at he
    rw [unlock_eq (s := { s with sizes := s.sizes ++ [(n, s.acc.length, (s.rets.flatMap Ret.out).length)] }) hm] at he
    subst he
    exact W_upd (q := .idle) hW hp rfl rfl (Nat.le_refl _)
  | g1 rq =>
    obtain ⟨hm, ho, hd⟩ := held h hp rfl
    simp only [adv] at he
    split at he
    · rename_i hemp
      have hemp' := List.isEmpty_iff.mp hemp
      split at he
      · simp only [Option.some.injEq] at he
        subst he
        apply W_empty
        rw [(unlock_thr hm).2]; exact hemp'
      · simp only [Option.some.injEq] at he
        subst he; exact W_empty hemp'
    · simp only [Option.some.injEq] at he
      subst he
      exact W_upd (q := .g3 rq false (quantity rq s.d.length) [] s.d) hW hp rfl rfl (Nat.le_refl _)
  | g2 rq =>
    simp only [adv] at he
    split at he
    · rename_i hemp
      simp only [Option.some.injEq] at he
      subst he; exact W_empty (List.isEmpty_iff.mp hemp)
    · simp only [Option.some.injEq] at he
      subst he
      exact W_upd (q := .g3 rq true (quantity rq s.d.length) [] s.d) hW hp rfl rfl (Nat.le_refl _)
  | g3 rq w k out d0 =>
    obtain ⟨hm, ho, hd1, hd2, hd3, hd4⟩ := held h hp rfl
    cases k with
    | zero =>
      simp only [adv, Option.some.injEq] at he
      subst he
      have h1 := (quantity_pos (rq := rq) (List.length_pos_iff.mpr hd2)).1
      have h2 : out ≠ [] := by intro hh; rw [hh] at hd4; simp at hd4; omega
      refine W_upd (q := .g4 rq 0 out d0) hW hp rfl rfl ?_
      have h3 : Mode.onWay (.g3 rq w 0 out d0) = false := by
        cases out with
        | nil => exact absurd rfl h2
        | cons a as => simp [Mode.onWay]
      rw [h3]; exact Nat.le_refl _
    | succ k =>
      simp only [adv, Option.some.injEq] at he
      subst he
      exact W_upd (q := .g3w rq w (k + 1) out d0 s.d) hW hp rfl rfl (Nat.le_refl _)
  | g3w rq w k out d0 copy =>
    obtain ⟨hm, ho, hd1, hd2, hd3, hd4, hd5, hd6⟩ := held h hp rfl
    have hd6' : copy = s.d := hd6
    subst hd6'
    simp only [adv] at he
    split at he
    · rename_i x hx
      simp only [Option.some.injEq] at he
      subst he
      refine W_upd (q := .g3 rq w (k - 1) (out ++ [x]) d0) hW hp rfl rfl ?_
      have hpos : s.d ≠ [] := by intro hh; rw [hh] at hx; simp at hx
      have hl := List.length_pos_iff.mpr hpos
      show s.d.dropLast.length + _ ≤ _
      rw [List.length_dropLast]
      have : b2n (Mode.onWay (.g3w rq w k out d0 s.d)) ≤ 1 := by unfold b2n; split <;> omega
      omega
    · rename_i hx
      apply W_empty
      simp only [Option.some.injEq] at he
      subst he
      exact List.getLast?_eq_none_iff.mp hx
  | g4 rq ret out d0 =>
    obtain ⟨hm, ho, hd⟩ := held h hp rfl
    simp only [adv, Option.some.injEq] at he
    rw [unlock_eq (s := { s with rets := s.rets ++ [⟨i, rq, ret, out, d0⟩] }) hm] at he
    subst he
    exact W_upd (q := .idle) hW hp rfl rfl (Nat.le_refl _)

theorem W_step {s s' : State T} {l : Label T} (h : Inv s) (hW : W s) (hl : l.calm = true) (he : step s l = some s') : W s' := by
  cases l with
  | add i e =>
    simp only [step] at he
    split at he
    · rename_i hp
      simp only [Option.some.injEq] at he
      subst he; exact W_upd (q := .a0 e) hW hp rfl rfl (Nat.le_refl _)
    · simp at he
  | signal i =>
    simp only [step] at he
    split at he
    · rename_i hp
      simp only [Option.some.injEq] at he
      subst he; exact W_upd (q := .s0) hW hp rfl rfl (Nat.le_refl _)
    · simp at he
  | get i rq =>
    simp only [step] at he
    split at he
    · rename_i hp
      simp only [Option.some.injEq] at he
      subst he; exact W_upd (q := .g0 rq) hW hp rfl rfl (Nat.le_refl _)
    · simp at he
  | size i =>
    simp only [step] at he
    split at he
    · rename_i hp
      simp only [Option.some.injEq] at he
      subst he; exact W_upd (q := .z0) hW hp rfl rfl (Nat.le_refl _)
    · simp at he
  | adv i =>
    simp only [step] at he
    split at he
    · rename_i m hp
      exact W_adv h hW hp he
    · simp at he
  | sig i j =>
    simp only [step] at he
    split at he
    · rename_i rq hi hj
      simp only [Option.some.injEq] at he
      subst he
      have hij : i ≠ j := by rintro rfl; rw [hi] at hj; simp at hj
      have hi2 : (s.thr.set j (.gr rq))[i]? = some .a2 := by
        rw [List.getElem?_set, if_neg (fun hh => hij hh.symm)]; exact hi
      intro hw
      have h0 := hW (any_set (y := .gr rq) (any_set (y := .a3) hw rfl) rfl)
      have h1 := countP_set Mode.onWay s.thr j _ (.gr rq) hj
      have h2 := countP_set Mode.onWay (s.thr.set j (.gr rq)) i _ .a3 hi2
      simp only [b2n, Mode.onWay] at h1 h2
      show s.d.length ≤ ((s.thr.set j (.gr rq)).set i .a3).countP Mode.onWay
      simp at h1 h2
      omega
    · rename_i rq hi hj
      simp only [Option.some.injEq] at he
      subst he
      have hij : i ≠ j := by rintro rfl; rw [hi] at hj; simp at hj
      have hi2 : (s.thr.set j (.gr rq))[i]? = some .s1 := by
        rw [List.getElem?_set, if_neg (fun hh => hij hh.symm)]; exact hi
      intro hw
      have h0 := hW (any_set (y := .gr rq) (any_set (y := .s2) hw rfl) rfl)
      have h1 := countP_set Mode.onWay s.thr j _ (.gr rq) hj
      have h2 := countP_set Mode.onWay (s.thr.set j (.gr rq)) i _ .s2 hi2
      simp only [b2n, Mode.onWay] at h1 h2
      show s.d.length ≤ ((s.thr.set j (.gr rq)).set i .s2).countP Mode.onWay
      simp at h1 h2
      omega
    · simp at he
  | spur j =>
    simp only [step] at he
    split at he
    · rename_i rq hp
      simp only [Option.some.injEq] at he
      subst he
      refine W_upd (q := .gr rq) hW hp rfl rfl ?_
      show s.d.length + 0 ≤ s.d.length + 1
      omega
    · simp at he
  | throw i => simp [Label.calm] at hl

theorem W_exec : ∀ (ls : List (Label T)) (s s' : State T), Inv s → W s → (∀ l ∈ ls, l.calm = true) → exec s ls = some s' → W s'
  | [], s, s', _, h, _, he => by
    simp only [exec, Option.some.injEq] at he
    rw [← he]; exact h
  | a :: as, s, s', hI, h, hc, he => by
    simp only [exec] at he
    split at he
    · rename_i t hst
      have hca := hc a List.mem_cons_self
      exact W_exec as t s' (inv_step hI hca hst) (W_step hI h hca hst) (fun l hl => hc l (List.mem_cons_of_mem _ hl)) he
    · simp at he

/-! ### the owner of the mutex can always finish -/

def rank (s : State T) : Mode T → Nat
  | .a1 _ => 4 | .a1w _ _ => 3 | .a2 => 2 | .a3 => 1
  | .s1 => 2 | .s2 => 1 | .z1 => 2 | .z2 _ => 1
  | .g1 rq => 2 * quantity rq s.d.length + 3
  | .g2 rq => 2 * quantity rq s.d.length + 3
  | .g3 _ _ k _ _ => 2 * k + 2
  | .g3w _ _ k _ _ _ => 2 * k + 1
  | .g4 _ _ _ _ => 1
  | _ => 0

theorem holder_step {s : State T} (h : Inv s) {i : Nat} {m : Mode T} (hp : s.thr[i]? = some m) (hl : m.locked = true) :
    ∃ (l : Label T) (s' : State T), l.by i = true ∧ step s l = some s' ∧
      (s'.mtx = none ∨ ∃ m', s'.thr[i]? = some m' ∧ m'.locked = true ∧ rank s' m' < rank s m) := by
  obtain ⟨hm, ho, hd⟩ := held h hp hl
  have hby : Label.by i (Label.adv i : Label T) = true := by simp [Label.by]
  have hst : step s (.adv i) = adv s i m := by simp only [step, hp]
  have hun : ∀ (t : State T), t.mtx = some i → (t.unlock i .idle).mtx = none := by intro t ht; rw [unlock_eq ht]; rfl
  -- a step that stays inside
  have stay : ∀ (t : State T) (q : Mode T), adv s i m = some (t.upd i q) → t.thr = s.thr → q.locked = true → rank (t.upd i q) q < rank s m →
      ∃ (l : Label T) (s' : State T), l.by i = true ∧ step s l = some s' ∧
      (s'.mtx = none ∨ ∃ m', s'.thr[i]? = some m' ∧ m'.locked = true ∧ rank s' m' < rank s m) := by
    intro t q h1 h2 h3 h4
    refine ⟨.adv i, t.upd i q, hby, by rw [hst, h1], Or.inr ⟨q, ?_, h3, h4⟩⟩
    show (t.thr.set i q)[i]? = some q
    rw [h2]; exact get_set hp
  have wake : ∀ (q : Mode T), q.locked = true → rank s q < rank s m → (∀ t : State T, rank t q = rank s q) →
      (∀ (j : Nat) (rq : Req), s.thr[j]? = some (.gw rq) → step s (.sig i j) = some ((s.upd j (.gr rq)).upd i q)) →
      s.thr.any Mode.waiting = true →
      ∃ (l : Label T) (s' : State T), l.by i = true ∧ step s l = some s' ∧
      (s'.mtx = none ∨ ∃ m', s'.thr[i]? = some m' ∧ m'.locked = true ∧ rank s' m' < rank s m) := by
    intro q h1 h2 h3 h4 h5
    rw [List.any_eq_true] at h5
    obtain ⟨x, hx, hxw⟩ := h5
    obtain ⟨j, hj⟩ := List.getElem?_of_mem hx
    cases x <;> simp [Mode.waiting] at hxw
    rename_i rq
    refine ⟨.sig i j, _, by simp [Label.by], h4 j rq hj, Or.inr ⟨q, ?_, h1, ?_⟩⟩
    · show ((s.thr.set j (.gr rq)).set i q)[i]? = some q
      have hlt : i < s.thr.length := (List.getElem?_eq_some_iff.mp hp).1
      simp [hlt]
    · rw [h3]; exact h2
  cases m with
  | idle => simp [Mode.locked] at hl
  | a0 e => simp [Mode.locked] at hl
  | s0 => simp [Mode.locked] at hl
  | z0 => simp [Mode.locked] at hl
  | g0 rq => simp [Mode.locked] at hl
  | gw rq => simp [Mode.locked] at hl
  | gr rq => simp [Mode.locked] at hl
  | a1 e => exact stay s (.a1w e s.d) rfl rfl rfl (by simp [rank])
  | a1w e copy => exact stay { s with d := e :: copy, acc := s.acc ++ [(i, e)] } .a2 rfl rfl rfl (by simp [rank])
  | a2 =>
    by_cases hw : s.thr.any Mode.waiting = true
    · refine wake .a3 rfl (by simp [rank]) (fun _ => rfl) ?_ hw
      intro j rq hj
      simp only [step, hp, hj]
    · exact stay s .a3 (by simp only [adv]; rw [if_neg hw]) rfl rfl (by simp [rank])
  | s1 =>
    by_cases hw : s.thr.any Mode.waiting = true
    · refine wake .s2 rfl (by simp [rank]) (fun _ => rfl) ?_ hw
      intro j rq hj
      simp only [step, hp, hj]
    · exact stay s .s2 (by simp only [adv]; rw [if_neg hw]) rfl rfl (by simp [rank])
  | a3 => exact ⟨.adv i, _, hby, by rw [hst]; rfl, Or.inl (hun s hm)⟩
  | s2 => exact ⟨.adv i, _, hby, by rw [hst]; rfl, Or.inl (hun s hm)⟩
  | z1 => exact stay s (.z2 s.d.length) rfl rfl rfl (by simp [rank])
  | z2 n => exact ⟨.adv i, _, hby, by rw [hst]; rfl, Or.inl (hun { s with sizes := s.sizes ++ [(n, s.acc.length, (s.rets.flatMap Ret.out).length)] } hm)⟩
  | g1 rq =>
    by_cases he : s.d.isEmpty = true
    · by_cases hc : rq.canwait = true
      · refine ⟨.adv i, s.unlock i (.gw rq), hby, ?_, Or.inl (by rw [unlock_eq hm]; rfl)⟩
        rw [hst]; simp only [adv]; rw [if_pos he, if_pos hc]
      · exact stay s (.g4 rq (-1) [] s.d) (by simp only [adv]; rw [if_pos he, if_neg hc]) rfl rfl (by simp [rank])
    · exact stay s (.g3 rq false (quantity rq s.d.length) [] s.d) (by simp only [adv]; rw [if_neg he]) rfl rfl (by simp [rank])
  | g2 rq =>
    by_cases he : s.d.isEmpty = true
    · exact stay s (.g4 rq (-1) [] s.d) (by simp only [adv]; rw [if_pos he]) rfl rfl (by simp [rank])
    · exact stay s (.g3 rq true (quantity rq s.d.length) [] s.d) (by simp only [adv]; rw [if_neg he]) rfl rfl (by simp [rank])
  | g3 rq w k out d0 =>
    cases k with
    | zero => exact stay s (.g4 rq 0 out d0) rfl rfl rfl (by simp [rank])
    | succ k => exact stay s (.g3w rq w (k + 1) out d0 s.d) rfl rfl rfl (by simp [rank])
  | g3w rq w k out d0 copy =>
    obtain ⟨hd1, hd2, hd3, hd4, hd5, hd6⟩ := hd
    have hd6' : copy = s.d := hd6
    subst hd6'
    have hne : s.d ≠ [] := by
      intro hh
      rw [hh] at hd3
      have hl := congrArg List.length hd3
      simp at hl
      have := (quantity_pos (rq := rq) (List.length_pos_iff.mpr hd2)).2
      omega
    refine stay { s with d := s.d.dropLast } (.g3 rq w (k - 1) (out ++ [s.d.getLast hne]) d0) ?_ rfl rfl ?_
    · simp only [adv, List.getLast?_eq_some_getLast hne]
    · simp only [rank]; omega
  | g4 rq ret out d0 => exact ⟨.adv i, _, hby, by rw [hst]; rfl, Or.inl (hun { s with rets := s.rets ++ [⟨i, rq, ret, out, d0⟩] } hm)⟩

theorem by_calm {i : Nat} {l : Label T} (h : l.by i = true) : l.calm = true := by
  cases l <;> simp [Label.by, Label.calm] at h ⊢

theorem holder_finishes : ∀ (r : Nat) (s : State T) (i : Nat) (m : Mode T), Inv s → s.thr[i]? = some m → m.locked = true → rank s m ≤ r →
    ∃ (ls : List (Label T)) (s' : State T), (∀ l ∈ ls, l.by i = true) ∧ exec s ls = some s' ∧ s'.mtx = none := by
  intro r
  induction r with
  | zero =>
    intro s i m h hp hl hr
    obtain ⟨l, s', h1, h2, h3 | ⟨m', h3, h4, h5⟩⟩ := holder_step h hp hl
    · exact ⟨[l], s', by simpa using h1, by simp [exec, h2], h3⟩
    · omega
  | succ r ih =>
    intro s i m h hp hl hr
    obtain ⟨l, s', h1, h2, h3 | ⟨m', h3, h4, h5⟩⟩ := holder_step h hp hl
    · exact ⟨[l], s', by simpa using h1, by simp [exec, h2], h3⟩
    · obtain ⟨ls, t, k1, k2, k3⟩ := ih s' i m' (inv_step h (by_calm h1) h2) h3 h4 (by omega)
      refine ⟨l :: ls, t, ?_, ?_, k3⟩
      · intro x hx
        rcases List.mem_cons.mp hx with rfl | hx
        · exact h1
        · exact k1 x hx
      · simp only [exec, h2]; exact k2

end Verif.Synque
