import Verif.XmlFloat.Spec
import Verif.Txml.ConvLemmas
import Mathlib.Tactic.Linarith
import Mathlib.Tactic.Ring
import Mathlib.Tactic.FieldSimp
import Mathlib.Tactic.Positivity
import Mathlib.Tactic.Zify
/-
  Lemmas for C196: the rounding, and the reading of decimal numbers.
-/
set_option linter.unusedSimpArgs false
set_option linter.unusedVariables false

namespace Verif.XmlFloat

open Verif.Txml (Text cstr isDigit isSpace skipSpace scan)
open Verif.Txml.Spec (value Digit White)
open Spec

/-! ### Rounding -/

theorem nearInt_int (n : Int) : nearInt (n : ℚ) = n := by
  unfold nearInt
  rw [if_pos (by rw [Int.floor_intCast]; norm_num), Int.floor_intCast]

theorem nearInt_near (t : ℚ) (i : Int) : |(nearInt t : ℚ) - t| ≤ |(i : ℚ) - t| := by
  have h1 := Int.floor_le t
  have h2 := Int.lt_floor_add_one t
  rcases Int.lt_or_le ⌊t⌋ i with hi | hi
  · have hi' : (⌊t⌋ : ℚ) + 1 ≤ i := by exact_mod_cast hi
    have e : |(i : ℚ) - t| = i - t := abs_of_nonneg (by linarith)
    rw [e, abs_le]
    unfold nearInt
    split
    · constructor <;> linarith
    · split
      · push_cast; constructor <;> linarith
      · split
        · constructor <;> linarith
        · push_cast; constructor <;> linarith
  · have hi' : (i : ℚ) ≤ ⌊t⌋ := by exact_mod_cast hi
    have e : |(i : ℚ) - t| = t - i := by rw [abs_of_nonpos (by linarith)]; ring
    rw [e, abs_le]
    unfold nearInt
    split
    · constructor <;> linarith
    · split
      · push_cast; constructor <;> linarith
      · split
        · constructor <;> linarith
        · push_cast; constructor <;> linarith

theorem nearInt_le {t : ℚ} {i : Int} (h : t ≤ i) : nearInt t ≤ i := by
  have h1 := nearInt_near t i
  by_contra hlt
  have h2 : (i : ℚ) + 1 ≤ nearInt t := by exact_mod_cast (not_le.mp hlt)
  rw [abs_of_nonneg (by linarith), abs_of_nonneg (by linarith)] at h1
  linarith

theorem nearInt_nonneg {t : ℚ} (h : 0 ≤ t) : 0 ≤ nearInt t := by
  have h1 := nearInt_near t 0
  by_contra hlt
  have h2 : (nearInt t : ℚ) ≤ -1 := by exact_mod_cast (Int.le_sub_one_of_lt (not_le.mp hlt))
  rw [abs_of_nonpos (by linarith), Int.cast_zero, abs_of_nonpos (by linarith)] at h1
  linarith

theorem two_pos (k : Int) : (0 : ℚ) < 2 ^ k := zpow_pos (by norm_num) k

theorem two_add (a b : Int) : (2 : ℚ) ^ (a + b) = 2 ^ a * 2 ^ b := zpow_add₀ (by norm_num) a b

theorem two_mono {a b : Int} (h : a ≤ b) : (2 : ℚ) ^ a ≤ 2 ^ b := zpow_le_zpow_right₀ (by norm_num) h

/-- Numbers are smaller than 2^p units. -/
theorem unit_lt (f : Fmt) (x : ℚ) : x / 2 ^ expOf f x < 2 ^ f.p := by
  rw [div_lt_iff₀ (two_pos _), ← zpow_natCast (2 : ℚ) f.p, ← two_add]
  refine lt_of_lt_of_le (Int.lt_zpow_succ_log_self (b := 2) (by norm_num) x) ?_
  have : (2 : ℚ) ^ (Int.log 2 x + 1) ≤ 2 ^ ((f.p : Int) + expOf f x) := two_mono (by unfold expOf; omega)
  exact_mod_cast this

/-- Values of the type whose unit is smaller than that of x are smaller than x. -/
theorem small_unit (f : Fmt) {x : ℚ} (hx : 0 < x) {j : Int} (hj : f.emin ≤ j) (h : j < expOf f x) : (2 : ℚ) ^ ((f.p : Int) + expOf f x - 1) ≤ x := by
  have e : expOf f x = Int.log 2 x - f.p + 1 := by unfold expOf at h ⊢; omega
  have := Int.zpow_log_le_self (b := 2) (by norm_num) hx
  rw [e, show (f.p : Int) + (Int.log 2 x - f.p + 1) - 1 = Int.log 2 x by omega]
  exact_mod_cast this

/-- What `rnd` computes, whatever its size. -/
def raw (f : Fmt) (x : ℚ) : ℚ := (nearInt (x / 2 ^ expOf f x) : ℚ) * 2 ^ expOf f x

theorem raw_sub (f : Fmt) (x : ℚ) : |raw f x - x| = |(nearInt (x / 2 ^ expOf f x) : ℚ) - x / 2 ^ expOf f x| * 2 ^ expOf f x := by
  have h := two_pos (expOf f x)
  have : raw f x - x = ((nearInt (x / 2 ^ expOf f x) : ℚ) - x / 2 ^ expOf f x) * 2 ^ expOf f x := by
    unfold raw
    rw [sub_mul, div_mul_cancel₀ _ (ne_of_gt h)]
  rw [this, abs_mul, abs_of_pos h]

theorem raw_near_mul (f : Fmt) (x : ℚ) (i : Int) : |raw f x - x| ≤ |(i : ℚ) * 2 ^ expOf f x - x| := by
  have h := two_pos (expOf f x)
  have e : (i : ℚ) * 2 ^ expOf f x - x = ((i : ℚ) - x / 2 ^ expOf f x) * 2 ^ expOf f x := by
    rw [sub_mul, div_mul_cancel₀ _ (ne_of_gt h)]
  rw [raw_sub, e, abs_mul, abs_of_pos h]
  exact mul_le_mul_of_nonneg_right (nearInt_near _ _) (le_of_lt h)

/-- A multiple of a larger unit is a multiple of a smaller one. -/
theorem mul_unit (n : Int) {j k : Int} (h : k ≤ j) : ∃ i : Int, (n : ℚ) * 2 ^ j = i * 2 ^ k := by
  obtain ⟨d, hd⟩ := Int.eq_ofNat_of_zero_le (show 0 ≤ j - k by omega)
  refine ⟨n * 2 ^ d, ?_⟩
  rw [show j = (d : Int) + k by omega, two_add, zpow_natCast]
  push_cast
  ring

theorem raw_near (f : Fmt) {x : ℚ} (hx : 0 ≤ x) (hp : 0 < f.p) {y : ℚ} (hy : Rep f y) : |raw f x - x| ≤ |y - x| := by
  obtain ⟨n, j, h1, h2, h3, rfl⟩ := hy
  rcases Int.lt_or_le j (expOf f x) with hj | hj
  · rcases eq_or_lt_of_le hx with h0 | h0
    · subst h0
      have : raw f 0 = 0 := by
        have := nearInt_int 0
        unfold raw
        rw [zero_div]
        rw [Int.cast_zero] at this
        rw [this]; simp
      rw [this, sub_self, abs_zero]
      exact abs_nonneg _
    · have hs := small_unit f h0 h2 hj
      have hn : (n : ℚ) * 2 ^ j ≤ 2 ^ ((f.p : Int) + expOf f x - 1) := by
        have g1 : (n : ℚ) ≤ 2 ^ f.p := by
          have := le_trans (le_abs_self n) (le_of_lt h1)
          exact_mod_cast this
        calc (n : ℚ) * 2 ^ j ≤ 2 ^ f.p * 2 ^ j := mul_le_mul_of_nonneg_right g1 (le_of_lt (two_pos j))
          _ = 2 ^ ((f.p : Int) + j) := by rw [two_add, zpow_natCast]
          _ ≤ _ := two_mono (by omega)
      have hm := raw_near_mul f x (2 ^ (f.p - 1))
      have e : (((2 ^ (f.p - 1) : Int) : Int) : ℚ) * 2 ^ expOf f x = 2 ^ ((f.p : Int) + expOf f x - 1) := by
        push_cast
        rw [← zpow_natCast (2 : ℚ) (f.p - 1), ← two_add]
        congr 1
        omega
      rw [e] at hm
      refine le_trans hm ?_
      rw [abs_of_nonpos (by linarith), abs_of_nonpos (by linarith)]
      linarith
  · obtain ⟨i, hi⟩ := mul_unit n hj
    rw [hi]
    exact raw_near_mul f x i

theorem raw_nonneg (f : Fmt) {x : ℚ} (hx : 0 ≤ x) : 0 ≤ raw f x := by
  unfold raw
  have := nearInt_nonneg (div_nonneg hx (le_of_lt (two_pos (expOf f x))))
  exact mul_nonneg (by exact_mod_cast this) (le_of_lt (two_pos _))

/-- Values of the type are not changed. -/
theorem raw_rep (f : Fmt) {x : ℚ} (hx : 0 ≤ x) (hp : 0 < f.p) (h : Rep f x) : raw f x = x := by
  have := raw_near f hx hp h
  rw [sub_self, abs_zero] at this
  have := abs_eq_zero.mp (le_antisymm this (abs_nonneg _))
  linarith

theorem rnd_eq (f : Fmt) (x : ℚ) : rnd f x = if raw f x < 2 ^ ((f.p : Int) + f.emax) then some (raw f x) else none := rfl

/-- What is finite is a value of the type. -/
theorem rep_raw (f : Fmt) {x : ℚ} (hx : 0 ≤ x) (hp : 0 < f.p) (he : f.emin ≤ f.emax) (h : raw f x < 2 ^ ((f.p : Int) + f.emax)) : Rep f (raw f x) := by
  have hk0 : f.emin ≤ expOf f x := by unfold expOf; omega
  have hn0 : 0 ≤ nearInt (x / 2 ^ expOf f x) := nearInt_nonneg (div_nonneg hx (le_of_lt (two_pos _)))
  have hn1 : nearInt (x / 2 ^ expOf f x) ≤ 2 ^ f.p := nearInt_le (by push_cast; exact le_of_lt (unit_lt f x))
  by_cases hz : nearInt (x / 2 ^ expOf f x) = 0
  · exact ⟨0, f.emin, by simp, le_refl _, he, by unfold raw; rw [hz]; simp⟩
  by_cases hk : expOf f x ≤ f.emax
  · rcases lt_or_eq_of_le hn1 with hlt | heq
    · exact ⟨nearInt (x / 2 ^ expOf f x), expOf f x, by rwa [abs_of_nonneg hn0], hk0, hk, rfl⟩
    · have hv : raw f x = 2 ^ ((f.p : Int) + expOf f x) := by
        unfold raw
        rw [heq, two_add, zpow_natCast]; push_cast; rfl
      rw [hv, zpow_lt_zpow_iff_right₀ (by norm_num)] at h
      refine ⟨2 ^ (f.p - 1), expOf f x + 1, ?_, by omega, by omega, ?_⟩
      · rw [abs_of_nonneg (by positivity)]
        exact pow_lt_pow_right₀ (by norm_num) (by omega)
      · rw [hv]
        push_cast
        rw [← zpow_natCast (2 : ℚ) (f.p - 1), ← two_add]
        congr 1
        omega
  · exfalso
    have hx0 : 0 < x := by
      rcases eq_or_lt_of_le hx with h0 | h0
      · subst h0
        apply absurd _ hz
        rw [zero_div]
        have := nearInt_int 0
        rwa [Int.cast_zero] at this
      · exact h0
    have hs := small_unit f hx0 (j := expOf f x - 1) (by omega) (by omega)
    have hm := raw_near_mul f x (2 ^ (f.p - 1))
    have e : (((2 ^ (f.p - 1) : Int) : Int) : ℚ) * 2 ^ expOf f x = 2 ^ ((f.p : Int) + expOf f x - 1) := by
      push_cast
      rw [← zpow_natCast (2 : ℚ) (f.p - 1), ← two_add]
      congr 1
      omega
    rw [e, abs_of_nonpos (by linarith : (2 : ℚ) ^ ((f.p : Int) + expOf f x - 1) - x ≤ 0)] at hm
    have h2 := (abs_le.mp hm).1
    have h3 : (2 : ℚ) ^ ((f.p : Int) + f.emax) ≤ 2 ^ ((f.p : Int) + expOf f x - 1) := two_mono (by omega)
    linarith

/-- Numbers up to the largest value are finite. -/
theorem raw_lt (f : Fmt) {x : ℚ} (hx : 0 ≤ x) (hp : 0 < f.p) (he : f.emin ≤ f.emax) (h : x ≤ largest f) : raw f x < 2 ^ ((f.p : Int) + f.emax) := by
  have hL : largest f < 2 ^ ((f.p : Int) + f.emax) := by
    unfold largest
    rw [two_add, zpow_natCast]
    have := two_pos f.emax
    nlinarith
  rcases eq_or_lt_of_le hx with h0 | h0
  · subst h0
    have : raw f 0 = 0 := by
      have := nearInt_int 0
      unfold raw
      rw [zero_div]
      rw [Int.cast_zero] at this
      rw [this]; simp
    rw [this]; exact two_pos _
  have hlog : Int.log 2 x < (f.p : Int) + f.emax := by
    rw [← Int.lt_zpow_iff_log_lt (by norm_num) h0]
    have : x < (2 : ℚ) ^ ((f.p : Int) + f.emax) := lt_of_le_of_lt h hL
    exact_mod_cast this
  have hk : expOf f x ≤ f.emax := by unfold expOf; omega
  rcases lt_or_eq_of_le hk with hlt | heq
  · have hn1 : nearInt (x / 2 ^ expOf f x) ≤ 2 ^ f.p := nearInt_le (by push_cast; exact le_of_lt (unit_lt f x))
    have hn2 : ((nearInt (x / 2 ^ expOf f x) : Int) : ℚ) ≤ 2 ^ f.p := by exact_mod_cast hn1
    calc raw f x ≤ 2 ^ f.p * 2 ^ expOf f x := mul_le_mul_of_nonneg_right hn2 (le_of_lt (two_pos _))
      _ = 2 ^ ((f.p : Int) + expOf f x) := by rw [two_add, zpow_natCast]
      _ < _ := zpow_lt_zpow_right₀ (by norm_num) (by omega)
  · have hn1 : nearInt (x / 2 ^ expOf f x) ≤ 2 ^ f.p - 1 := nearInt_le (by
      push_cast
      rw [div_le_iff₀ (two_pos _), heq]
      exact h)
    have hn2 : ((nearInt (x / 2 ^ expOf f x) : Int) : ℚ) ≤ 2 ^ f.p - 1 := by exact_mod_cast hn1
    refine lt_of_le_of_lt ?_ hL
    unfold raw largest
    rw [← heq]
    exact mul_le_mul_of_nonneg_right hn2 (le_of_lt (two_pos _))

/-! ### Reading -/

theorem while_digits (ds X : Text) (h : ∀ c ∈ ds, Digit c) (hX : ∀ c ∈ X.head?, ¬ Digit c) : (ds ++ X).takeWhile isDigit = ds ∧ (ds ++ X).dropWhile isDigit = X := by
  induction ds with
  | nil =>
    cases X with
    | nil => exact ⟨rfl, rfl⟩
    | cons c X =>
      have : isDigit c = false := by
        rw [Bool.eq_false_iff]
        exact fun h => hX c (by simp) ((Txml.isDigit_iff c).mp h)
      simp [List.takeWhile, List.dropWhile, this]
  | cons d ds ih =>
    have hd := (Txml.isDigit_iff d).mpr (h d (by simp))
    obtain ⟨g1, g2⟩ := ih (fun c hc => h c (by simp [hc]))
    simp [List.takeWhile, List.dropWhile, hd, g1, g2]

theorem value_append (a b : Text) : value (a ++ b) = value a * 10 ^ b.length + value b := by
  induction a with
  | nil => simp [value]
  | cons c a ih =>
    simp only [List.cons_append, value, ih, List.length_append, Nat.pow_add]
    ring

theorem scan_value (ds X : Text) (h : ∀ c ∈ ds, Digit c) (hX : ∀ c ∈ X.head?, ¬ Digit c) : scan 0 (ds ++ X) = value ds := by
  rw [Txml.scan_digits ds X h hX]
  simp

theorem digit_lt {c : UInt8} (h : Digit c) : c ≠ 45 ∧ c ≠ 43 ∧ c ≠ 0 := by
  have := Txml.digit_ne h
  exact ⟨this.2.1, this.2.2.1, this.1⟩

theorem not_digit_of {c : UInt8} (h : c = 101 ∨ c = 69 ∨ c = 46) : ¬ Digit c := by
  rcases h with rfl | rfl | rfl <;> (unfold Digit; decide)

theorem expo_eq (ex : Option (UInt8 × Option Bool × Text)) (r : Text) (h : ∀ e s ds, ex = some (e, s, ds) → (e = 101 ∨ e = 69) ∧ ds ≠ [] ∧ ∀ c ∈ ds, Digit c) (hr : Stops r) :
    expo (exText ex ++ r) = exVal ex := by
  cases ex with
  | none =>
    cases r with
    | nil => rfl
    | cons c r =>
      have := hr c (by simp)
      simp only [exText, List.nil_append, expo, exVal]
      rw [if_neg (by intro h; rcases h with h | h <;> simp_all)]
  | some q =>
    obtain ⟨e, s, ds⟩ := q
    obtain ⟨h1, h2, h3⟩ := h e s ds rfl
    have hr' : ∀ c ∈ r.head?, ¬ Digit c := fun c hc => (hr c hc).1
    have hsc := scan_value ds r h3 hr'
    simp only [exText, List.cons_append, expo, exVal]
    rw [if_pos h1]
    cases s with
    | none =>
      cases ds with
      | nil => exact absurd rfl h2
      | cons d ds =>
        have hd := digit_lt (h3 d (by simp))
        simp only [signText, List.nil_append, List.cons_append] at hsc ⊢
        rw [if_neg hd.1, if_neg hd.2.1, hsc]
    | some b =>
      cases b
      · simp only [signText, List.singleton_append, List.cons_append, List.nil_append]
        rw [if_neg (by decide), if_pos trivial, hsc]
      · simp only [signText, List.singleton_append, List.cons_append, List.nil_append]
        rw [if_pos trivial, hsc]

/-- The exponent and what follows do not continue the digits. -/
theorem ex_head (ex : Option (UInt8 × Option Bool × Text)) (r : Text) (h : ∀ e s ds, ex = some (e, s, ds) → (e = 101 ∨ e = 69) ∧ ds ≠ [] ∧ ∀ c ∈ ds, Digit c) (hr : Stops r) :
    ∀ c ∈ (exText ex ++ r).head?, ¬ Digit c ∧ c ≠ 46 ∧ c ≠ 120 ∧ c ≠ 88 := by
  cases ex with
  | none =>
    intro c hc
    obtain ⟨g1, g2, g3, g4, g5, g6⟩ := hr c hc
    exact ⟨g1, g2, g5, g6⟩
  | some q =>
    obtain ⟨e, s, ds⟩ := q
    intro c hc
    have : e = c := by simpa [exText] using hc
    subst this
    obtain ⟨h1, _⟩ := h e s ds rfl
    refine ⟨not_digit_of (by rcases h1 with h | h <;> simp [h]), ?_⟩
    rcases h1 with rfl | rfl <;> decide

/-- The number without its sign. -/
def absVal (l : Lit) : ℚ := ((value l.ip : ℚ) + fpVal l.fp) * 10 ^ exVal l.ex

theorem val_eq (l : Lit) : l.val = sgn l.sign * absVal l := rfl

theorem absVal_nonneg (l : Lit) : 0 ≤ absVal l := by
  unfold absVal
  have : 0 ≤ fpVal l.fp := by
    cases l.fp with
    | none => exact le_refl _
    | some ds => simp only [fpVal]; positivity
  have h2 : (0 : ℚ) ≤ value l.ip := by positivity
  exact mul_nonneg (add_nonneg h2 this) (zpow_nonneg (by norm_num) _)

theorem decimal_eq (l : Lit) (h : l.ok) (r : Text) (hr : Stops r) : decimal (l.ip ++ (fpText l.fp ++ (exText l.ex ++ r))) = absVal l := by
  obtain ⟨h1, h2, h3, h4⟩ := h
  have hh := ex_head l.ex r h4 hr
  have he := expo_eq l.ex r h4 hr
  unfold absVal
  cases hf : l.fp with
  | none =>
    simp only [fpText, List.nil_append]
    obtain ⟨w1, w2⟩ := while_digits l.ip (exText l.ex ++ r) h1 (fun c hc => (hh c hc).1)
    have hm : mant (l.ip ++ (exText l.ex ++ r)) = (l.ip, [], exText l.ex ++ r) := by
      unfold mant
      rw [w1, w2]
      cases hX : exText l.ex ++ r with
      | nil => rfl
      | cons c X => simp only; rw [if_neg (hh c (by rw [hX]; simp)).2.1]
    unfold decimal
    have hs := scan_value l.ip [] h1 (by simp)
    rw [hm]
    rw [List.append_nil] at hs
    simp only [he, hs, fpVal, List.append_nil]
    simp
  | some ds =>
    simp only [fpText, List.cons_append]
    obtain ⟨w1, w2⟩ := while_digits l.ip (46 :: (ds ++ (exText l.ex ++ r))) h1 (fun c hc => by
      have : 46 = c := by simpa using hc
      exact not_digit_of (by simp [← this]))
    have hd := h2 ds hf
    obtain ⟨w3, w4⟩ := while_digits ds (exText l.ex ++ r) hd (fun c hc => (hh c hc).1)
    have hm : mant (l.ip ++ 46 :: (ds ++ (exText l.ex ++ r))) = (l.ip, ds, exText l.ex ++ r) := by
      unfold mant
      rw [w1, w2]
      simp only
      rw [if_pos trivial, w3, w4]
    unfold decimal
    have hs := scan_value (l.ip ++ ds) [] (fun c hc => by
      rcases List.mem_append.mp hc with hc | hc
      · exact h1 c hc
      · exact hd c hc) (by simp)
    rw [List.append_nil] at hs
    rw [hm]
    simp only [he, hs, value_append, fpVal]
    rw [zpow_sub₀ (by norm_num), zpow_natCast]
    push_cast
    have : (10 : ℚ) ^ ds.length ≠ 0 := by positivity
    field_simp

theorem special_false (c : UInt8) (t : Text) (hc : Digit c ∨ c = 46) (ht : ∀ d ∈ t.head?, d ≠ 120 ∧ d ≠ 88) : special (c :: t) = false := by
  have hc' : c ≠ 105 ∧ c ≠ 73 ∧ c ≠ 110 ∧ c ≠ 78 := by
    rcases hc with hc | rfl
    · refine ⟨?_, ?_, ?_, ?_⟩ <;> (rintro rfl; unfold Digit at hc; revert hc; decide)
    · decide
  unfold special
  split
  · rename_i h; cases h; exact absurd rfl (ht 120 (by simp)).1
  · rename_i h; cases h; exact absurd rfl (ht 88 (by simp)).2
  · rename_i h; cases h; simp [hc']
  · rename_i h; cases h

theorem digit_x {c : UInt8} (h : Digit c) : c ≠ 120 ∧ c ≠ 88 := by
  constructor <;> (rintro rfl; unfold Digit at h; revert h; decide)

/-- The number begins with a digit or a point. -/
theorem body_head (l : Lit) (h : l.ok) (r : Text) (hr : Stops r) :
    ∃ c t, l.ip ++ (fpText l.fp ++ (exText l.ex ++ r)) = c :: t ∧ (Digit c ∨ c = 46) ∧ ∀ d ∈ t.head?, d ≠ 120 ∧ d ≠ 88 := by
  obtain ⟨h1, h2, h3, h4⟩ := h
  have hh := ex_head l.ex r h4 hr
  have hX : ∀ d ∈ (fpText l.fp ++ (exText l.ex ++ r)).head?, d ≠ 120 ∧ d ≠ 88 := by
    intro d hd
    cases hf : l.fp with
    | none => rw [hf] at hd; exact (hh d hd).2.2
    | some ds =>
      rw [hf] at hd
      have : 46 = d := by simpa [fpText] using hd
      subst this; decide
  cases hi : l.ip with
  | cons c ip =>
    refine ⟨c, ip ++ (fpText l.fp ++ (exText l.ex ++ r)), rfl, Or.inl (h1 c (by simp [hi])), ?_⟩
    intro d hd
    cases hip : ip with
    | nil => rw [hip] at hd; exact hX d hd
    | cons d' ip' =>
      rw [hip] at hd
      have : d' = d := by simpa using hd
      subst this
      exact digit_x (h1 d' (by simp [hi, hip]))
  | nil =>
    rcases h3 with h3 | ⟨ds, hf, hne⟩
    · exact absurd hi h3
    · refine ⟨46, ds ++ (exText l.ex ++ r), by rw [hf]; rfl, Or.inr rfl, ?_⟩
      intro d hd
      cases hds : ds with
      | nil => exact absurd hds hne
      | cons d' ds' =>
        rw [hds] at hd
        have : d' = d := by simpa using hd
        subst this
        exact digit_x (h2 ds hf d' (by simp [hds]))

theorem cstr_stops (rest : Text) (h : Stops rest) : Stops (cstr rest) := fun c hc => h c (Txml.cstr_head rest c hc)

theorem sign_ne (s : Option Bool) : ∀ c ∈ signText s, c ≠ 0 := by
  intro c hc
  cases s with
  | none => cases hc
  | some b => cases b <;> (have : c = _ := List.mem_singleton.mp hc; subst this; decide)

/-- No byte of the number is 0. -/
theorem text_ne (l : Lit) (h : l.ok) : ∀ c ∈ l.text, c ≠ 0 := by
  obtain ⟨h1, h2, h3, h4⟩ := h
  unfold Lit.text
  intro c hc
  simp only [List.mem_append] at hc
  rcases hc with hc | hc | hc | hc
  · exact sign_ne _ c hc
  · exact (digit_lt (h1 c hc)).2.2
  · cases hf : l.fp with
    | none => rw [hf] at hc; cases hc
    | some ds =>
      rw [hf] at hc
      rcases List.mem_cons.mp hc with rfl | hc
      · decide
      · exact (digit_lt (h2 ds hf c hc)).2.2
  · cases hx : l.ex with
    | none => rw [hx] at hc; cases hc
    | some q =>
      obtain ⟨e, s, ds⟩ := q
      rw [hx] at hc
      obtain ⟨g1, g2, g3⟩ := h4 e s ds hx
      rcases List.mem_cons.mp hc with rfl | hc
      · rcases g1 with rfl | rfl <;> decide
      · rcases List.mem_append.mp hc with hc | hc
        · exact sign_ne _ c hc
        · exact (digit_lt (g3 c hc)).2.2

/-- What is read of a text that begins with a number. -/
theorem strtox_eq (f : Fmt) (ws rest : Text) (l : Lit) (hw : ∀ c ∈ ws, White c) (h : l.ok) (hr : Stops rest) :
    strtox f (ws ++ l.text ++ rest) = match rnd f (absVal l) with
      | none => some (.inf (decide (l.sign = some true)))
      | some v => some (.fin (sgn l.sign * v)) := by
  have hr' := cstr_stops rest hr
  obtain ⟨c, t, e1, e2, e3⟩ := body_head l h (cstr rest) hr'
  have hcw : ¬ White c ∧ c ≠ 45 ∧ c ≠ 43 := by
    rcases e2 with e2 | rfl
    · have := Txml.digit_ne e2; exact ⟨this.2.2.2, this.2.1, this.2.2.1⟩
    · unfold White; decide
  have hd := decimal_eq l h (cstr rest) hr'
  have hb : cstr (ws ++ l.text ++ rest) = ws ++ (signText l.sign ++ (c :: t)) := by
    rw [Txml.cstr_append _ _ (by
      intro c hc
      rcases List.mem_append.mp hc with hc | hc
      · exact Txml.white_ne (hw c hc)
      · exact text_ne l h c hc), Lit.text, ← e1]
    simp
  have hsv : ∀ neg, signedVal f neg (c :: t) = match rnd f (absVal l) with
      | none => some (.inf neg)
      | some v => some (.fin (if neg then -v else v)) := by
    intro neg
    unfold signedVal
    rw [special_false c t e2 e3, if_neg (by decide), ← e1, hd]
    cases rnd f (absVal l) <;> rfl
  unfold strtox
  cases hs : l.sign with
  | none =>
    rw [hs] at hb
    rw [hb, Txml.skip_append ws _ hw (by intro d hd; have : c = d := by simpa [signText] using hd
                                         subst this; exact hcw.1)]
    simp only [signText, List.nil_append]
    rw [if_neg hcw.2.1, if_neg hcw.2.2, hsv]
    cases rnd f (absVal l) <;> simp [sgn]
  | some b =>
    rw [hs] at hb
    cases b
    · rw [hb, Txml.skip_append ws _ hw (by intro d hd; have : 43 = d := by simpa [signText] using hd
                                           subst this; unfold White; decide)]
      simp only [signText, List.singleton_append]
      rw [if_neg (by decide), if_pos trivial, hsv]
      cases rnd f (absVal l) <;> simp [sgn]
    · rw [hb, Txml.skip_append ws _ hw (by intro d hd; have : 45 = d := by simpa [signText] using hd
                                           subst this; unfold White; decide)]
      simp only [signText, List.singleton_append]
      rw [if_pos trivial, hsv]
      cases rnd f (absVal l) <;> simp [sgn]

end Verif.XmlFloat
