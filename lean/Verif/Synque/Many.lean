/-
  Lemmas for C84 with any number of consumers: a get that an add has woken returns −1 only if another get has taken elements since.
-/
import Verif.Synque.More

set_option linter.unusedSimpArgs false
set_option linter.unusedVariables false

namespace Verif.Synque

variable {T : Type}

theorem unlock_acc {s : State T} {i : Nat} {m : Mode T} : (s.unlock i m).acc = s.acc := by
  unfold State.unlock; split <;> rfl

theorem unlock_rets {s : State T} {i : Nat} {m : Mode T} : (s.unlock i m).rets = s.rets := by
  unfold State.unlock; split <;> rfl

theorem lock_same {s s' : State T} {i : Nat} {m : Mode T} (h : s.lock i m = some s') : s'.acc = s.acc ∧ s'.rets = s.rets ∧ s'.d = s.d ∧ s'.thr = s.thr.set i m := by
  obtain ⟨_, rfl⟩ := lock_some h
  exact ⟨rfl, rfl, rfl, rfl⟩

/-- A step inside a call adds at most one result: that of a call that returns. -/
theorem adv_grows {s s' : State T} {i : Nat} {m : Mode T} (he : adv s i m = some s') :
    s.acc.length ≤ s'.acc.length ∧ (s'.rets = s.rets ∨ ∃ rq ret out d0, m = .g4 rq ret out d0 ∧ s'.rets = s.rets ++ [⟨i, rq, ret, out, d0⟩]) := by
  cases m with
  | idle => simp [adv] at he
  | gw rq => simp [adv] at he
  | a0 e => obtain ⟨h1, h2, _⟩ := lock_same he; rw [h1, h2]; exact ⟨Nat.le_refl _, Or.inl rfl⟩
  | s0 => obtain ⟨h1, h2, _⟩ := lock_same he; rw [h1, h2]; exact ⟨Nat.le_refl _, Or.inl rfl⟩
  | z0 => obtain ⟨h1, h2, _⟩ := lock_same he; rw [h1, h2]; exact ⟨Nat.le_refl _, Or.inl rfl⟩
  | g0 rq => obtain ⟨h1, h2, _⟩ := lock_same he; rw [h1, h2]; exact ⟨Nat.le_refl _, Or.inl rfl⟩
  | gr rq => obtain ⟨h1, h2, _⟩ := lock_same he; rw [h1, h2]; exact ⟨Nat.le_refl _, Or.inl rfl⟩
  | a1 e => simp only [adv, Option.some.injEq] at he; subst he; exact ⟨Nat.le_refl _, Or.inl rfl⟩
  | a1w e copy =>
    simp only [adv, Option.some.injEq] at he; subst he
    refine ⟨?_, Or.inl rfl⟩
    show s.acc.length ≤ (s.acc ++ [(i, e)]).length
    simp
  | a2 =>
    simp only [adv] at he
    split at he
    · simp at he
    · simp only [Option.some.injEq] at he; subst he; exact ⟨Nat.le_refl _, Or.inl rfl⟩
  | s1 =>
    simp only [adv] at he
    split at he
    · simp at he
    · simp only [Option.some.injEq] at he; subst he; exact ⟨Nat.le_refl _, Or.inl rfl⟩
  | a3 => simp only [adv, Option.some.injEq] at he; subst he; rw [unlock_acc, unlock_rets]; exact ⟨Nat.le_refl _, Or.inl rfl⟩
  | s2 => simp only [adv, Option.some.injEq] at he; subst he; rw [unlock_acc, unlock_rets]; exact ⟨Nat.le_refl _, Or.inl rfl⟩
  | z1 => simp only [adv, Option.some.injEq] at he; subst he; exact ⟨Nat.le_refl _, Or.inl rfl⟩
  | z2 n => simp only [adv, Option.some.injEq] at he; subst he; rw [unlock_acc, unlock_rets]; exact ⟨Nat.le_refl _, Or.inl rfl⟩
  | g1 rq =>
    simp only [adv] at he
    split at he
    · split at he
      · simp only [Option.some.injEq] at he; subst he; rw [unlock_acc, unlock_rets]; exact ⟨Nat.le_refl _, Or.inl rfl⟩
      · simp only [Option.some.injEq] at he; subst he; exact ⟨Nat.le_refl _, Or.inl rfl⟩
    · simp only [Option.some.injEq] at he; subst he; exact ⟨Nat.le_refl _, Or.inl rfl⟩
  | g2 rq =>
    simp only [adv] at he
    split at he
    · simp only [Option.some.injEq] at he; subst he; exact ⟨Nat.le_refl _, Or.inl rfl⟩
    · simp only [Option.some.injEq] at he; subst he; exact ⟨Nat.le_refl _, Or.inl rfl⟩
  | g3 rq w k out d0 =>
    cases k with
    | zero => simp only [adv, Option.some.injEq] at he; subst he; exact ⟨Nat.le_refl _, Or.inl rfl⟩
    | succ k => simp only [adv, Option.some.injEq] at he; subst he; exact ⟨Nat.le_refl _, Or.inl rfl⟩
  | g3w rq w k out d0 copy =>
    simp only [adv] at he
    split at he
    · simp only [Option.some.injEq] at he; subst he; exact ⟨Nat.le_refl _, Or.inl rfl⟩
    · simp only [Option.some.injEq] at he; subst he; exact ⟨Nat.le_refl _, Or.inl rfl⟩
  | g4 rq ret out d0 =>
    simp only [adv, Option.some.injEq] at he; subst he; rw [unlock_acc, unlock_rets]
    exact ⟨Nat.le_refl _, Or.inr ⟨_, _, _, _, rfl, rfl⟩⟩

/-- The thread was woken and has not looked at the queue. -/
def Mode.pre : Mode T → Bool
  | .gr _ | .g2 _ => true
  | _ => false

/-- The thread is not in a get that may return −1. -/
def Mode.post : Mode T → Bool
  | .gr _ | .g2 _ | .g0 _ | .g1 _ | .gw _ => false
  | .g4 _ ret _ _ => decide (ret = 0)
  | _ => true

/-- The next place of the thread that makes the step. -/
theorem adv_own {s s' : State T} (h : Inv s) {i : Nat} {m : Mode T} (hp : s.thr[i]? = some m) (he : adv s i m = some s') :
    ∃ q, s'.thr = s.thr.set i q ∧ (m.post = true → q.post = true) ∧
      (m.pre = true → q.pre = true ∨ q.post = true ∨ (s.d = [] ∧ ∃ rq, m = .g2 rq)) := by
  cases m with
  | idle => simp [adv] at he
  | gw rq => simp [adv] at he
  | a0 e => exact ⟨_, (lock_same he).2.2.2, fun _ => rfl, fun hh => (by cases hh)⟩
  | s0 => exact ⟨_, (lock_same he).2.2.2, fun _ => rfl, fun hh => (by cases hh)⟩
  | z0 => exact ⟨_, (lock_same he).2.2.2, fun _ => rfl, fun hh => (by cases hh)⟩
  | g0 rq => exact ⟨_, (lock_same he).2.2.2, fun hh => (by cases hh), fun hh => (by cases hh)⟩
  | gr rq => exact ⟨_, (lock_same he).2.2.2, fun hh => (by cases hh), fun _ => Or.inl rfl⟩
  | a1 e => simp only [adv, Option.some.injEq] at he; subst he; exact ⟨_, rfl, fun _ => rfl, fun hh => (by cases hh)⟩
  | a1w e copy => simp only [adv, Option.some.injEq] at he; subst he; exact ⟨_, rfl, fun _ => rfl, fun hh => (by cases hh)⟩
  | a2 =>
    simp only [adv] at he
    split at he
    · simp at he
    · simp only [Option.some.injEq] at he; subst he; exact ⟨_, rfl, fun _ => rfl, fun hh => (by cases hh)⟩
  | s1 =>
    simp only [adv] at he
    split at he
    · simp at he
    · simp only [Option.some.injEq] at he; subst he; exact ⟨_, rfl, fun _ => rfl, fun hh => (by cases hh)⟩
  | a3 =>
    obtain ⟨hm, _⟩ := held h hp rfl
    simp only [adv, Option.some.injEq, unlock_eq hm] at he; subst he; exact ⟨_, rfl, fun _ => rfl, fun hh => (by cases hh)⟩
  | s2 =>
    obtain ⟨hm, _⟩ := held h hp rfl
    simp only [adv, Option.some.injEq, unlock_eq hm] at he; subst he; exact ⟨_, rfl, fun _ => rfl, fun hh => (by cases hh)⟩
  | z1 => simp only [adv, Option.some.injEq] at he; subst he; exact ⟨_, rfl, fun _ => rfl, fun hh => (by cases hh)⟩
  | z2 n =>
    obtain ⟨hm, _⟩ := held h hp rfl
    simp only [adv, Option.some.injEq] at he
    rw [unlock_eq (s := { s with sizes := s.sizes ++ [(n, s.acc.length, (s.rets.flatMap Ret.out).length)] }) hm] at he
    subst he; exact ⟨_, rfl, fun _ => rfl, fun hh => (by cases hh)⟩
  | g1 rq =>
    obtain ⟨hm, _⟩ := held h hp rfl
    simp only [adv] at he
    split at he
    · split at he
      · simp only [Option.some.injEq, unlock_eq hm] at he; subst he; exact ⟨_, rfl, fun hh => (by cases hh), fun hh => (by cases hh)⟩
      · simp only [Option.some.injEq] at he; subst he; exact ⟨_, rfl, fun hh => (by cases hh), fun hh => (by cases hh)⟩
    · simp only [Option.some.injEq] at he; subst he; exact ⟨_, rfl, fun hh => (by cases hh), fun hh => (by cases hh)⟩
  | g2 rq =>
    simp only [adv] at he
    split at he
    · rename_i hemp
      simp only [Option.some.injEq] at he; subst he
      exact ⟨_, rfl, fun hh => (by cases hh), fun _ => Or.inr (Or.inr ⟨List.isEmpty_iff.mp hemp, _, rfl⟩)⟩
    · simp only [Option.some.injEq] at he; subst he; exact ⟨_, rfl, fun hh => (by cases hh), fun _ => Or.inr (Or.inl rfl)⟩
  | g3 rq w k out d0 =>
    cases k with
    | zero => simp only [adv, Option.some.injEq] at he; subst he; exact ⟨_, rfl, fun _ => rfl, fun hh => (by cases hh)⟩
    | succ k => simp only [adv, Option.some.injEq] at he; subst he; exact ⟨_, rfl, fun _ => rfl, fun hh => (by cases hh)⟩
  | g3w rq w k out d0 copy =>
    have hI := inv_adv h hp he
    simp only [adv] at he
    split at he
    · simp only [Option.some.injEq] at he; subst he; exact ⟨_, rfl, fun _ => rfl, fun hh => (by cases hh)⟩
    · simp only [Option.some.injEq] at he; subst he
      exact absurd hI.ub (by simp)
  | g4 rq ret out d0 =>
    obtain ⟨hm, _⟩ := held h hp rfl
    simp only [adv, Option.some.injEq] at he
    rw [unlock_eq (s := { s with rets := s.rets ++ [⟨i, rq, ret, out, d0⟩] }) hm] at he
    subst he; exact ⟨_, rfl, fun _ => rfl, fun hh => (by cases hh)⟩

/-- Since `s1`, another thread has taken elements; or thread `i` has not returned −1. -/
structure Since (R : List (Ret T)) (n i : Nat) (s : State T) : Prop where
  acc : n ≤ s.acc.length
  rets : ∃ new, s.rets = R ++ new ∧
    ((∃ r ∈ new, r.who ≠ i ∧ r.out ≠ []) ∨
     (∃ m, s.thr[i]? = some m ∧ ((m.pre = true ∧ ∀ r ∈ new, r.who ≠ i) ∨ (m.post = true ∧ ∀ r ∈ new, r.who = i → r.ret ≠ -1))))

theorem since_thr {R : List (Ret T)} {n i : Nat} {s s' : State T} (h : Since R n i s) (ha : s'.acc = s.acc) (hr : s'.rets = s.rets)
    (ht : ∀ m, s.thr[i]? = some m → m.pre = true ∨ m.post = true → ∃ q, s'.thr[i]? = some q ∧ (m.pre = true → q.pre = true) ∧ (m.post = true → q.post = true)) :
    Since R n i s' := by
  refine ⟨by rw [ha]; exact h.acc, ?_⟩
  obtain ⟨new, e, hc⟩ := h.rets
  refine ⟨new, by rw [hr]; exact e, ?_⟩
  rcases hc with hc | ⟨m, hm, hc⟩
  · exact Or.inl hc
  · right
    obtain ⟨q, hq, h1, h2⟩ := ht m hm (by rcases hc with hc | hc; exact Or.inl hc.1; exact Or.inr hc.1)
    rcases hc with hc | hc
    · exact ⟨q, hq, Or.inl ⟨h1 hc.1, hc.2⟩⟩
    · exact ⟨q, hq, Or.inr ⟨h2 hc.1, hc.2⟩⟩

theorem set_at {l : List (Mode T)} {k i : Nat} {p q m : Mode T} (hk : l[k]? = some p) (hm : l[i]? = some m) :
    (l.set k q)[i]? = some (if k = i then q else m) := by
  rw [List.getElem?_set]
  split
  · rename_i hki
    subst hki
    rw [if_pos (List.getElem?_eq_some_iff.mp hk).1]
  · exact hm

theorem since_set {R : List (Ret T)} {n i k : Nat} {s : State T} {p q : Mode T} (h : Since R n i s) (hk : s.thr[k]? = some p)
    (hq : k = i → (p.pre = true → q.pre = true) ∧ (p.post = true → q.post = true)) : Since R n i (s.upd k q) := by
  refine since_thr h rfl rfl ?_
  intro m hm _
  refine ⟨_, set_at hk hm, ?_⟩
  split
  · rename_i hki
    subst hki
    rw [hk] at hm; cases hm
    exact hq rfl
  · exact ⟨id, id⟩

theorem since_step {R : List (Ret T)} {n i : Nat} {s s' : State T} {l : Label T} (hI : Inv s) (hn : (R.flatMap Ret.out).length < n) (h : Since R n i s)
    (hl : l.calm = true) (hg : ∀ rq, l ≠ .get i rq) (he : step s l = some s') : Since R n i s' := by
  cases l with
  | throw k => cases hl
  | add k e =>
    simp only [step] at he
    split at he
    · rename_i hp
      simp only [Option.some.injEq] at he; subst he
      exact since_set h hp (fun _ => ⟨fun hh => (by cases hh), fun _ => rfl⟩)
    · simp at he
  | signal k =>
    simp only [step] at he
    split at he
    · rename_i hp
      simp only [Option.some.injEq] at he; subst he
      exact since_set h hp (fun _ => ⟨fun hh => (by cases hh), fun _ => rfl⟩)
    · simp at he
  | size k =>
    simp only [step] at he
    split at he
    · rename_i hp
      simp only [Option.some.injEq] at he; subst he
      exact since_set h hp (fun _ => ⟨fun hh => (by cases hh), fun _ => rfl⟩)
    · simp at he
  | get k rq =>
    simp only [step] at he
    split at he
    · rename_i hp
      simp only [Option.some.injEq] at he; subst he
      exact since_set h hp (fun hki => absurd (by rw [hki]) (hg rq))
    · simp at he
  | spur k =>
    simp only [step] at he
    split at he
    · rename_i rq hp
      simp only [Option.some.injEq] at he; subst he
      exact since_set h hp (fun _ => ⟨fun hh => (by cases hh), fun hh => (by cases hh)⟩)
    · simp at he
  | sig k j =>
    simp only [step] at he
    split at he
    · rename_i rq hk hj
      simp only [Option.some.injEq] at he; subst he
      have hkj : k ≠ j := by rintro rfl; rw [hk] at hj; cases hj
      have h2 := since_set (q := .gr rq) h hj (fun _ => ⟨fun hh => (by cases hh), fun hh => (by cases hh)⟩)
      refine since_set (p := .a2) h2 ?_ (fun _ => ⟨fun hh => (by cases hh), fun _ => rfl⟩)
      show (s.thr.set j (.gr rq))[k]? = _
      rw [List.getElem?_set, if_neg (Ne.symm hkj)]; exact hk
    · rename_i rq hk hj
      simp only [Option.some.injEq] at he; subst he
      have hkj : k ≠ j := by rintro rfl; rw [hk] at hj; cases hj
      have h2 := since_set (q := .gr rq) h hj (fun _ => ⟨fun hh => (by cases hh), fun hh => (by cases hh)⟩)
      refine since_set (p := .s1) h2 ?_ (fun _ => ⟨fun hh => (by cases hh), fun _ => rfl⟩)
      show (s.thr.set j (.gr rq))[k]? = _
      rw [List.getElem?_set, if_neg (Ne.symm hkj)]; exact hk
    · simp at he
  | adv k =>
    simp only [step] at he
    split at he
    · rename_i p hp
      obtain ⟨hacc, hret⟩ := adv_grows he
      obtain ⟨q, hthr, hpost, hpre⟩ := adv_own hI hp he
      refine ⟨Nat.le_trans h.acc hacc, ?_⟩
      obtain ⟨new, e, hc⟩ := h.rets
      -- the results that are new
      obtain ⟨new', e', hsub, hnew⟩ : ∃ new', s'.rets = R ++ new' ∧ (∀ r ∈ new, r ∈ new') ∧
          (∀ r ∈ new', r ∈ new ∨ (r.who = k ∧ ∃ rq ret out d0, p = .g4 rq ret out d0 ∧ r.ret = ret)) := by
        rcases hret with hret | ⟨rq, ret, out, d0, hp4, hret⟩
        · exact ⟨new, by rw [hret, e], fun r hr => hr, fun r hr => Or.inl hr⟩
        · refine ⟨new ++ [⟨k, rq, ret, out, d0⟩], by rw [hret, e, List.append_assoc], fun r hr => List.mem_append_left _ hr, ?_⟩
          intro r hr
          rcases List.mem_append.mp hr with hr | hr
          · exact Or.inl hr
          · rw [List.mem_singleton] at hr; subst hr
            exact Or.inr ⟨rfl, rq, ret, out, d0, hp4, rfl⟩
      refine ⟨new', e', ?_⟩
      rcases hc with ⟨r, hr, hw⟩ | ⟨m, hm, hc⟩
      · exact Or.inl ⟨r, hsub r hr, hw⟩
      · have hset := set_at (q := q) hp hm
        rw [← hthr] at hset
        by_cases hki : k = i
        · subst hki
          rw [hp] at hm; cases hm
          rw [if_pos rfl] at hset
          rcases hc with ⟨c1, c2⟩ | ⟨c1, c2⟩
          · have hno : ∀ r ∈ new', r.who ≠ k := by
              intro r hr
              rcases hnew r hr with hr | ⟨_, rq, ret, out, d0, hp4, _⟩
              · exact c2 r hr
              · rw [hp4] at c1; cases c1
            rcases hpre c1 with h1 | h1 | ⟨hd, rq, hg2⟩
            · exact Or.inr ⟨q, hset, Or.inl ⟨h1, hno⟩⟩
            · exact Or.inr ⟨q, hset, Or.inr ⟨h1, fun r hr hw => absurd hw (hno r hr)⟩⟩
            · -- the queue is empty: all elements were handed out
              left
              subst hg2
              obtain ⟨_, _, hD⟩ := held hI hp rfl
              have hlen := congrArg List.length hD.1
              rw [hd] at hlen
              simp only [Mode.out, got, e, List.flatMap_append, List.append_nil, List.reverse_nil, List.length_append, List.length_map] at hlen
              have hpos : 0 < (new.flatMap Ret.out).length := by
                have := h.acc; omega
              have hne : new.flatMap Ret.out ≠ [] := List.length_pos_iff.mp hpos
              obtain ⟨x, hx⟩ := List.exists_mem_of_ne_nil _ hne
              obtain ⟨r, hr, hxr⟩ := List.mem_flatMap.mp hx
              exact ⟨r, hsub r hr, c2 r hr, List.ne_nil_of_mem hxr⟩
          · refine Or.inr ⟨q, hset, Or.inr ⟨hpost c1, ?_⟩⟩
            intro r hr hw
            rcases hnew r hr with hr | ⟨_, rq, ret, out, d0, hp4, hre⟩
            · exact c2 r hr hw
            · rw [hp4] at c1
              have : ret = 0 := by simpa [Mode.post] using c1
              rw [hre, this]; decide
        · rw [if_neg hki] at hset
          refine Or.inr ⟨m, hset, ?_⟩
          rcases hc with ⟨c1, c2⟩ | ⟨c1, c2⟩
          · refine Or.inl ⟨c1, ?_⟩
            intro r hr
            rcases hnew r hr with hr | ⟨hw, _⟩
            · exact c2 r hr
            · rw [hw]; exact hki
          · refine Or.inr ⟨c1, ?_⟩
            intro r hr hw
            rcases hnew r hr with hr | ⟨hw', _⟩
            · exact c2 r hr hw
            · exact absurd (hw'.symm.trans hw) hki
    · simp at he

theorem since_exec {R : List (Ret T)} {n i : Nat} : ∀ (ls : List (Label T)) (s s' : State T), Inv s → (R.flatMap Ret.out).length < n → Since R n i s →
    (∀ l ∈ ls, l.calm = true) → (∀ l ∈ ls, ∀ rq, l ≠ .get i rq) → exec s ls = some s' → Since R n i s'
  | [], s, s', _, _, h, _, _, he => by
    simp only [exec, Option.some.injEq] at he
    rw [← he]; exact h
  | a :: as, s, s', hI, hn, h, hc, hg, he => by
    simp only [exec] at he
    split at he
    · rename_i t hst
      exact since_exec as t s' (inv_step hI (hc a List.mem_cons_self) hst) hn
        (since_step hI hn h (hc a List.mem_cons_self) (hg a List.mem_cons_self) hst)
        (fun l hl => hc l (List.mem_cons_of_mem _ hl)) (fun l hl => hg l (List.mem_cons_of_mem _ hl)) he
    · simp at he

/-- Whoever is about to signal in add has added an element that is still there. -/
def Added (s : State T) : Prop := ∀ i : Nat, s.thr[i]? = some (Mode.a2 : Mode T) → s.d ≠ []

theorem added_set {s s' : State T} {k : Nat} {q : Mode T} (h : Added s) (ht : s'.thr = s.thr.set k q) (hd : s'.d = s.d) (hq : q = .a2 → s.d ≠ []) : Added s' := by
  intro i hi
  rw [hd]
  rw [ht, List.getElem?_set] at hi
  split at hi
  · split at hi
    · cases hi; exact hq rfl
    · cases hi
  · exact h i hi

/-- the step of the owner of the mutex -/
theorem added_owner {s s' : State T} {k : Nat} {q : Mode T} (ho : ∀ (j : Nat) (r : Mode T), j ≠ k → s.thr[j]? = some r → r.locked = false)
    (ht : s'.thr = s.thr.set k q) (hq : q = .a2 → s'.d ≠ []) : Added s' := by
  intro i hi
  rw [ht, List.getElem?_set] at hi
  split at hi
  · split at hi
    · cases hi; exact hq rfl
    · cases hi
  · rename_i hki
    have := ho i _ (Ne.symm hki) hi
    cases this

theorem added_adv {s s' : State T} (h : Inv s) (hA : Added s) {i : Nat} {m : Mode T} (hp : s.thr[i]? = some m) (he : adv s i m = some s') : Added s' := by
  by_cases hl : m.locked = true
  · obtain ⟨hm, ho, hD⟩ := held h hp hl
    obtain ⟨q, ht, _⟩ := adv_own h hp he
    refine added_owner ho ht ?_
    rintro rfl
    have hset : s'.thr[i]? = some .a2 := by rw [ht]; exact get_set hp
    cases m with
    | a1w e copy =>
      simp only [adv, Option.some.injEq] at he; subst he
      show e :: copy ≠ []
      simp
    | a1 e => simp only [adv, Option.some.injEq] at he; subst he; simp [State.upd, get_set hp] at hset
    | a2 =>
      simp only [adv] at he
      split at he
      · simp at he
      · simp only [Option.some.injEq] at he; subst he; simp [State.upd, get_set hp] at hset
    | s1 =>
      simp only [adv] at he
      split at he
      · simp at he
      · simp only [Option.some.injEq] at he; subst he; simp [State.upd, get_set hp] at hset
    | a3 => simp only [adv, Option.some.injEq, unlock_eq hm] at he; subst he; simp [State.upd, get_set hp] at hset
    | s2 => simp only [adv, Option.some.injEq, unlock_eq hm] at he; subst he; simp [State.upd, get_set hp] at hset
    | z1 => simp only [adv, Option.some.injEq] at he; subst he; simp [State.upd, get_set hp] at hset
    | z2 n =>
      simp only [adv, Option.some.injEq] at he
      rw [unlock_eq (s := { s with sizes := s.sizes ++ [(n, s.acc.length, (s.rets.flatMap Ret.out).length)] }) hm] at he
      subst he; simp [State.upd, get_set hp] at hset
    | g1 rq =>
      simp only [adv] at he
      split at he
      · split at he
        · simp only [Option.some.injEq, unlock_eq hm] at he; subst he; simp [State.upd, get_set hp] at hset
        · simp only [Option.some.injEq] at he; subst he; simp [State.upd, get_set hp] at hset
      · simp only [Option.some.injEq] at he; subst he; simp [State.upd, get_set hp] at hset
    | g2 rq =>
      simp only [adv] at he
      split at he
      · simp only [Option.some.injEq] at he; subst he; simp [State.upd, get_set hp] at hset
      · simp only [Option.some.injEq] at he; subst he; simp [State.upd, get_set hp] at hset
    | g3 rq w k out d0 =>
      cases k with
      | zero => simp only [adv, Option.some.injEq] at he; subst he; simp [State.upd, get_set hp] at hset
      | succ k => simp only [adv, Option.some.injEq] at he; subst he; simp [State.upd, get_set hp] at hset
    | g3w rq w k out d0 copy =>
      simp only [adv] at he
      split at he
      · simp only [Option.some.injEq] at he; subst he; simp [State.upd, get_set hp] at hset
      · simp only [Option.some.injEq] at he; subst he; simp [hp] at hset
    | g4 rq ret out d0 =>
      simp only [adv, Option.some.injEq] at he
      rw [unlock_eq (s := { s with rets := s.rets ++ [⟨i, rq, ret, out, d0⟩] }) hm] at he
      subst he; simp [State.upd, get_set hp] at hset
    | idle => cases hl
    | gw rq => cases hl
    | a0 e => cases hl
    | s0 => cases hl
    | z0 => cases hl
    | g0 rq => cases hl
    | gr rq => cases hl
  · cases m with
    | a0 e => obtain ⟨_, _, h3, h4⟩ := lock_same he; exact added_set hA h4 h3 (fun hh => (by cases hh))
    | s0 => obtain ⟨_, _, h3, h4⟩ := lock_same he; exact added_set hA h4 h3 (fun hh => (by cases hh))
    | z0 => obtain ⟨_, _, h3, h4⟩ := lock_same he; exact added_set hA h4 h3 (fun hh => (by cases hh))
    | g0 rq => obtain ⟨_, _, h3, h4⟩ := lock_same he; exact added_set hA h4 h3 (fun hh => (by cases hh))
    | gr rq => obtain ⟨_, _, h3, h4⟩ := lock_same he; exact added_set hA h4 h3 (fun hh => (by cases hh))
    | idle => simp [adv] at he
    | gw rq => simp [adv] at he
    | _ => exact absurd rfl hl

theorem added_step {s s' : State T} {l : Label T} (h : Inv s) (hA : Added s) (hl : l.calm = true) (he : step s l = some s') : Added s' := by
  cases l with
  | throw k => cases hl
  | add k e =>
    simp only [step] at he
    split at he
    · simp only [Option.some.injEq] at he; subst he; exact added_set hA rfl rfl (fun hh => (by cases hh))
    · simp at he
  | signal k =>
    simp only [step] at he
    split at he
    · simp only [Option.some.injEq] at he; subst he; exact added_set hA rfl rfl (fun hh => (by cases hh))
    · simp at he
  | size k =>
    simp only [step] at he
    split at he
    · simp only [Option.some.injEq] at he; subst he; exact added_set hA rfl rfl (fun hh => (by cases hh))
    · simp at he
  | get k rq =>
    simp only [step] at he
    split at he
    · simp only [Option.some.injEq] at he; subst he; exact added_set hA rfl rfl (fun hh => (by cases hh))
    · simp at he
  | spur k =>
    simp only [step] at he
    split at he
    · simp only [Option.some.injEq] at he; subst he; exact added_set hA rfl rfl (fun hh => (by cases hh))
    · simp at he
  | sig k j =>
    simp only [step] at he
    split at he
    · rename_i rq hk hj
      simp only [Option.some.injEq] at he; subst he
      exact added_set (s := s.upd j (.gr rq)) (added_set hA rfl rfl (fun hh => (by cases hh))) rfl rfl (fun hh => (by cases hh))
    · rename_i rq hk hj
      simp only [Option.some.injEq] at he; subst he
      exact added_set (s := s.upd j (.gr rq)) (added_set hA rfl rfl (fun hh => (by cases hh))) rfl rfl (fun hh => (by cases hh))
    · simp at he
  | adv k =>
    simp only [step] at he
    split at he
    · rename_i m hp; exact added_adv h hA hp he
    · simp at he

theorem added_exec : ∀ (ls : List (Label T)) (s s' : State T), Inv s → Added s → (∀ l ∈ ls, l.calm = true) → exec s ls = some s' → Added s'
  | [], s, s', _, h, _, he => by
    simp only [exec, Option.some.injEq] at he
    rw [← he]; exact h
  | a :: as, s, s', hI, h, hc, he => by
    simp only [exec] at he
    split at he
    · rename_i t hst
      exact added_exec as t s' (inv_step hI (hc a List.mem_cons_self) hst) (added_step hI h (hc a List.mem_cons_self) hst) (fun l hl => hc l (List.mem_cons_of_mem _ hl)) he
    · simp at he

theorem added_init (n : Nat) : Added (init T n) := by
  intro i hi
  have := List.mem_of_getElem? hi
  have := (List.mem_replicate.mp this).2
  cases this

end Verif.Synque
