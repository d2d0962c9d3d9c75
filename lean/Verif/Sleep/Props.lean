import Verif.Sleep.Model
import Verif.Gmtime.Props
/-
  Property C195: coda_msleep and signals.
-/
set_option linter.unusedSimpArgs false
set_option linter.unusedVariables false

namespace Verif.Sleep

theorem firstSig_some {sig : Nat → Bool} {now d s : Nat} (h : firstSig sig now d = some s) : now < s ∧ s < now + d ∧ sig s = true ∧ ∀ t, now < t → t < s → sig t = false := by
  unfold firstSig at h
  cases hf : (List.range d).find? (fun k => decide (0 < k) && sig (now + k)) with
  | none => rw [hf] at h; cases h
  | some k =>
    rw [hf] at h
    have hs : now + k = s := by simpa using h
    subst hs
    obtain ⟨g1, i, hi, g2, g3⟩ := List.find?_eq_some_iff_getElem.mp hf
    simp only [List.getElem_range] at g2
    subst g2
    simp only [Bool.and_eq_true, decide_eq_true_eq] at g1
    rw [List.length_range] at hi
    refine ⟨by omega, by omega, g1.2, fun t h1 h2 => ?_⟩
    have := g3 (t - now) (by omega)
    simp only [List.getElem_range, Bool.not_eq_true', Bool.and_eq_false_iff, decide_eq_false_iff_not] at this
    rcases this with this | this
    · omega
    · rwa [show now + (t - now) = t by omega] at this

theorem firstSig_none {sig : Nat → Bool} {now d : Nat} (h : firstSig sig now d = none) : ∀ t, now < t → t < now + d → sig t = false := by
  unfold firstSig at h
  rw [Option.map_eq_none_iff, List.find?_eq_none] at h
  intro t h1 h2
  have := h (t - now) (by rw [List.mem_range]; omega)
  rw [show now + (t - now) = t by omega] at this
  simp only [Bool.and_eq_true, decide_eq_true_eq, not_and, Bool.not_eq_true] at this
  exact this (by omega)

/-- What a call does, for non-negative times. -/
theorem msleep_eq (sig : Nat → Bool) (now late : Nat) {ms : Int} (h : 0 ≤ ms) :
    coda_msleep sig now late ms = match firstSig sig now (ms * 1000000).toNat with
      | some s => (s + late, -1)
      | none => (now + (ms * 1000000).toNat + late, 0) := by
  obtain ⟨g1, g2, g3, g4⟩ := Gmtime.C86_msleep ms h
  unfold coda_msleep nanosleep
  rw [if_neg (by omega), g1]
  cases firstSig sig now (ms * 1000000).toNat <;> rfl

/-- **C195: a call that returns 0 has slept for the time it was given**, and longer only as long as the process is not scheduled; no signal has arrived. -/
theorem C195_slept (sig : Nat → Bool) (now late : Nat) (ms : Int) (h : (coda_msleep sig now late ms).2 = 0) :
    0 ≤ ms ∧ ((coda_msleep sig now late ms).1 : Int) = now + ms * 1000000 + late ∧ ∀ t : Nat, now < t → (t : Int) < now + ms * 1000000 → sig t = false := by
  by_cases h0 : 0 ≤ ms
  · rw [msleep_eq sig now late h0] at h ⊢
    cases hf : firstSig sig now (ms * 1000000).toNat with
    | some s => rw [hf] at h; exact absurd (show (-1 : Int) = 0 from h) (by decide)
    | none =>
      refine ⟨h0, ?_, fun t h1 h2 => firstSig_none hf t h1 (by omega)⟩
      simp only
      omega
  · exfalso
    unfold coda_msleep nanosleep at h
    have := Gmtime.C86_msleep_negative ms (by omega)
    rw [if_pos (by omega)] at h
    exact absurd (show (-1 : Int) = 0 from h) (by decide)

/-- **C195: a call fails only for negative times, at once, or because a signal arrives before the time is over**; it returns then. -/
theorem C195_failed (sig : Nat → Bool) (now late : Nat) (ms : Int) (h : (coda_msleep sig now late ms).2 ≠ 0) :
    (coda_msleep sig now late ms).2 = -1 ∧
    ((ms < 0 ∧ (coda_msleep sig now late ms).1 = now) ∨
      ∃ s : Nat, now < s ∧ (s : Int) < now + ms * 1000000 ∧ sig s = true ∧ (∀ t, now < t → t < s → sig t = false) ∧ (coda_msleep sig now late ms).1 = s + late) := by
  by_cases h0 : 0 ≤ ms
  · rw [msleep_eq sig now late h0] at h ⊢
    cases hf : firstSig sig now (ms * 1000000).toNat with
    | some s =>
      obtain ⟨g1, g2, g3, g4⟩ := firstSig_some hf
      exact ⟨rfl, Or.inr ⟨s, g1, by omega, g3, g4, rfl⟩⟩
    | none => rw [hf] at h; exact absurd rfl h
  · have := Gmtime.C86_msleep_negative ms (by omega)
    have e : coda_msleep sig now late ms = (now, -1) := by
      unfold coda_msleep nanosleep
      rw [if_pos (by omega)]
    rw [e]
    exact ⟨rfl, Or.inl ⟨by omega, rfl⟩⟩

/-- **C195, in part: a call sleeps for the time it is given if no signal arrives.**  Missing: signals (`C195_refuted`). -/
theorem C195_quiet_partial (sig : Nat → Bool) (now late : Nat) (ms : Int) (h : 0 ≤ ms) (hq : ∀ t : Nat, now < t → (t : Int) < now + ms * 1000000 → sig t = false) :
    (coda_msleep sig now late ms).2 = 0 ∧ ((coda_msleep sig now late ms).1 : Int) = now + ms * 1000000 + late := by
  have h0 : (coda_msleep sig now late ms).2 = 0 := by
    apply Classical.byContradiction
    intro hne
    obtain ⟨_, ⟨g, _⟩ | ⟨s, g1, g2, g3, _⟩⟩ := C195_failed sig now late ms hne
    · omega
    · rw [hq s g1 g2] at g3; cases g3
  exact ⟨h0, (C195_slept sig now late ms h0).2.1⟩

/-- **C195 is false when a signal arrives** before the time is over, whenever that is: the call returns then (-1), and does not tell how much is left. -/
theorem C195_refuted (sig : Nat → Bool) (now late s : Nat) (ms : Int) (h1 : now < s) (h2 : (s : Int) < now + ms * 1000000) (hs : sig s = true) :
    (coda_msleep sig now late ms).2 = -1 ∧ (coda_msleep sig now 0 ms).1 ≤ s := by
  have key : ∀ late, (coda_msleep sig now late ms).2 ≠ 0 := by
    intro late h
    rw [(C195_slept sig now late ms h).2.2 s h1 h2] at hs
    cases hs
  refine ⟨(C195_failed sig now late ms (key late)).1, ?_⟩
  obtain ⟨_, ⟨g, _⟩ | ⟨s', g1, g2, g3, g4, g5⟩⟩ := C195_failed sig now 0 ms (key 0)
  · omega
  · rw [g5]
    apply Classical.byContradiction
    intro hlt
    rw [g4 s h1 (by omega)] at hs
    cases hs

/-- **C195, in part: a program that calls again until the call returns 0** has slept for at least the time it wanted, if it goes on.  Missing: that it goes on (`C195_refuted_insist`, `C195_refuted_negative`). -/
theorem C195_insist_partial (sig : Nat → Bool) (ms : Int) : ∀ (ls : List Nat) (now e : Nat), insist sig now ms ls = some e → 0 ≤ ms ∧ (now : Int) + ms * 1000000 ≤ e := by
  intro ls
  induction ls with
  | nil => intro now e h; cases h
  | cons late ls ih =>
    intro now e h
    simp only [insist] at h
    by_cases hr : (coda_msleep sig now late ms).2 = 0
    · rw [if_neg (by simpa using hr)] at h
      obtain ⟨g1, g2, _⟩ := C195_slept sig now late ms hr
      cases h
      exact ⟨g1, by omega⟩
    · rw [if_pos hr] at h
      obtain ⟨g1, g2⟩ := ih _ e h
      obtain ⟨_, ⟨g, _⟩ | ⟨s, g3, _, _, _, g5⟩⟩ := C195_failed sig now late ms hr
      · omega
      · exact ⟨g1, by omega⟩

/-- **C195: a program that insists never goes on while signals come more often than the time it wants to sleep**, however small the rest of its first sleep was: whatever the number of calls. -/
theorem C195_refuted_insist (sig : Nat → Bool) (p : Nat) (ms : Int) (hp : 0 < p) (hpm : (p : Int) < ms * 1000000) (hs : ∀ k, sig (k * p) = true) :
    ∀ (ls : List Nat) (now : Nat), insist sig now ms ls = none := by
  intro ls
  induction ls with
  | nil => intro now; rfl
  | cons late ls ih =>
    intro now
    have h1 : now < (now / p + 1) * p := by
      have := Nat.div_add_mod now p
      have := Nat.mod_lt now hp
      rw [Nat.add_mul, Nat.one_mul, Nat.mul_comm]
      omega
    have h2 : (now / p + 1) * p ≤ now + p := by
      rw [Nat.add_mul, Nat.one_mul]
      have := Nat.div_mul_le_self now p
      omega
    have := (C195_refuted sig now late ((now / p + 1) * p) ms h1 (by omega) (hs _)).1
    simp only [insist]
    rw [if_pos (by rw [this]; decide)]
    exact ih _

/-- **C195: nor does it for a negative time.** -/
theorem C195_refuted_negative (sig : Nat → Bool) (ms : Int) (h : ms < 0) : ∀ (ls : List Nat) (now : Nat), insist sig now ms ls = none := by
  intro ls
  induction ls with
  | nil => intro now; rfl
  | cons late ls ih =>
    intro now
    have hr : (coda_msleep sig now late ms).2 ≠ 0 := by
      intro h0
      have := (C195_slept sig now late ms h0).1
      omega
    simp only [insist]
    rw [if_pos hr]
    exact ih _

/-- A signal after 5 ns: a sleep of 10 ms ends then. -/
example : (coda_msleep (fun t => t == 5) 0 0 10).2 = -1 ∧ (coda_msleep (fun t => t == 5) 0 0 10).1 ≤ 5 :=
  C195_refuted (fun t => t == 5) 0 0 5 10 (by decide) (by decide) rfl

/-- No signals: 10 ms. -/
example : (coda_msleep (fun t => false) 7 3 10).2 = 0 ∧ ((coda_msleep (fun t => false) 7 3 10).1 : Int) = 10000010 :=
  C195_quiet_partial (fun t => false) 7 3 10 (by decide) (fun _ _ _ => rfl)

/-- A timer every millisecond: a sleep of two milliseconds never ends. -/
example : insist (fun t => t % 1000000 == 0) 0 2 (List.replicate 1000 0) = none :=
  C195_refuted_insist _ 1000000 2 (by decide) (by decide) (by intro k; simp) _ _

end Verif.Sleep
