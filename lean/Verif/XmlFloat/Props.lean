import Verif.XmlFloat.Lemmas
import Mathlib.Tactic.NormNum
/-
  Property C196: fractions in XML documents.
-/
set_option linter.unusedSimpArgs false
set_option linter.unusedVariables false

namespace Verif.XmlFloat

open Verif.Txml (Text)
open Verif.Txml.Spec (value Digit White)
open Spec

/-- The three types of members, and how each is set. -/
inductive Member : Fmt → (Text → Option Val) → Prop where
  | float : Member float setFloat
  | double : Member double setDouble
  | longDouble : Member longDouble setLongDouble

theorem member_fmt {f : Fmt} {set : Text → Option Val} (h : Member f set) : 0 < f.p ∧ f.emin ≤ f.emax ∧ set = strtox f := by
  cases h
  · exact ⟨by decide, by decide, rfl⟩
  · exact ⟨by decide, by decide, rfl⟩
  · exact ⟨by decide, by decide, rfl⟩

theorem sgn_cases (s : Option Bool) : sgn s = 1 ∨ sgn s = -1 := by
  cases s with
  | none => exact Or.inl rfl
  | some b => cases b <;> simp [sgn]

/-- The limits of <float.h> (C11 5.2.4.2.2; IEEE 754 and, for long double, the x87 format): MANT_DIG, MIN_EXP and MAX_EXP of float, double and long double. -/
def limits : List (Nat × Int × Int) := [(24, -125, 128), (53, -1021, 1024), (64, -16381, 16384)]

/-- **C196: the formats of the three types** are those of <float.h>. -/
theorem C196_formats : [float, double, longDouble].map (fun f => (f.p, f.emin + (f.p : Int), f.emax + (f.p : Int))) = limits := by decide

theorem rep_sgn {f : Fmt} {x : ℚ} (s : Option Bool) (h : Rep f x) : Rep f (sgn s * x) := by
  obtain ⟨n, k, h1, h2, h3, rfl⟩ := h
  rcases sgn_cases s with e | e
  · exact ⟨n, k, h1, h2, h3, by rw [e, one_mul]⟩
  · exact ⟨-n, k, by rwa [abs_neg], h2, h3, by rw [e]; push_cast; ring⟩

theorem sgn_sgn (s : Option Bool) (x : ℚ) : sgn s * (sgn s * x) = x := by
  rcases sgn_cases s with e | e <;> rw [e] <;> ring

theorem abs_sgn (s : Option Bool) (x y : ℚ) : |sgn s * x - sgn s * y| = |x - y| := by
  rw [← mul_sub, abs_mul]
  rcases sgn_cases s with e | e <;> rw [e] <;> simp

theorem abs_val (l : Lit) : |l.val| = absVal l := by
  rw [val_eq, abs_mul, abs_of_nonneg (absVal_nonneg l)]
  rcases sgn_cases l.sign with e | e <;> rw [e] <;> simp

/-- **C196, in part: a member of a floating point type gets the value of its type that is nearest to the decimal number the text begins with** (after white space), if the number is not larger than
the largest value: for every text.  Missing: larger numbers (`C196_refuted_large`), texts that are not numbers or go on after the number (`C196_refuted_rest`), infinities, NaN and hexadecimal
numbers. -/
theorem C196_nearest_partial {f : Fmt} {set : Text → Option Val} (hm : Member f set) (ws rest : Text) (l : Lit) (hw : ∀ c ∈ ws, White c) (h : l.ok) (hr : Stops rest) (hl : |l.val| ≤ largest f) :
    ∃ v : ℚ, set (ws ++ l.text ++ rest) = some (.fin v) ∧ Rep f v ∧ ∀ y, Rep f y → |v - l.val| ≤ |y - l.val| := by
  obtain ⟨hp, he, rfl⟩ := member_fmt hm
  rw [abs_val] at hl
  have h0 := absVal_nonneg l
  have hlt := raw_lt f h0 hp he hl
  refine ⟨sgn l.sign * raw f (absVal l), ?_, rep_sgn _ (rep_raw f h0 hp he hlt), fun y hy => ?_⟩
  · rw [strtox_eq f ws rest l hw h hr, rnd_eq, if_pos hlt]
  · have := raw_near f h0 hp (rep_sgn l.sign hy)
    rw [val_eq, abs_sgn]
    have e := abs_sgn l.sign (sgn l.sign * y) (absVal l)
    rw [sgn_sgn] at e
    rwa [e]

/-- **C196: values of the type are read exactly.** -/
theorem C196_exact {f : Fmt} {set : Text → Option Val} (hm : Member f set) (ws rest : Text) (l : Lit) (hw : ∀ c ∈ ws, White c) (h : l.ok) (hr : Stops rest) (hx : Rep f l.val) :
    set (ws ++ l.text ++ rest) = some (.fin l.val) := by
  obtain ⟨hp, he, _⟩ := member_fmt hm
  have hl : |l.val| ≤ largest f := by
    obtain ⟨n, k, h1, h2, h3, e⟩ := hx
    rw [e, abs_mul, abs_of_pos (two_pos k)]
    have hn : |(n : ℚ)| ≤ 2 ^ f.p - 1 := by
      have : |n| ≤ 2 ^ f.p - 1 := by omega
      exact_mod_cast this
    unfold largest
    exact mul_le_mul hn (two_mono h3) (le_of_lt (two_pos k)) (le_trans (abs_nonneg _) hn)
  obtain ⟨v, e, _, hn⟩ := C196_nearest_partial hm ws rest l hw h hr hl
  have := hn l.val hx
  rw [sub_self, abs_zero] at this
  have := abs_eq_zero.mp (le_antisymm this (abs_nonneg _))
  rw [e, show v = l.val by linarith]

/-- **C196: whole numbers** of up to 24 (float), 53 (double) and 64 (long double) bits are read exactly. -/
theorem C196_whole {f : Fmt} {set : Text → Option Val} (hm : Member f set) (ws rest ds : Text) (s : Option Bool) (hw : ∀ c ∈ ws, White c) (hr : Stops rest) (hne : ds ≠ []) (hd : ∀ c ∈ ds, Digit c)
    (hb : value ds < 2 ^ f.p) : set (ws ++ signText s ++ ds ++ rest) = some (.fin (sgn s * (value ds : ℚ))) := by
  have hv : (⟨s, ds, none, none⟩ : Lit).val = sgn s * (value ds : ℚ) := by simp [Lit.val, fpVal, exVal]
  have ht : ws ++ (⟨s, ds, none, none⟩ : Lit).text ++ rest = ws ++ signText s ++ ds ++ rest := by simp [Lit.text, fpText, exText]
  have := C196_exact hm ws rest ⟨s, ds, none, none⟩ hw ⟨hd, by simp, Or.inl hne, by simp⟩ hr (by
    rw [hv]
    apply rep_sgn
    have : f.emin ≤ 0 ∧ 0 ≤ f.emax := by cases hm <;> decide
    refine ⟨value ds, 0, ?_, this.1, this.2, by simp⟩
    rw [abs_of_nonneg (by positivity)]
    exact_mod_cast hb)
  rw [hv, ht] at this
  exact this

/-- **C196: odd whole numbers of one bit more than the type has**, which lie in the middle between two of its values, are read as the one of these that is divisible by 4 (ties to even). -/
theorem C196_ties {f : Fmt} {set : Text → Option Val} (hm : Member f set) (ws rest : Text) (l : Lit) (m : Nat) (hw : ∀ c ∈ ws, White c) (h : l.ok) (hr : Stops rest)
    (hv : |l.val| = ((2 * m + 1 : Nat) : ℚ)) (h1 : 2 ^ f.p ≤ 2 * m + 1) (h2 : 2 * m + 1 < 2 ^ (f.p + 1)) : ∃ j : Int, set (ws ++ l.text ++ rest) = some (.fin (4 * j)) ∧ |4 * j - l.val| = 1 := by
  have hb : f.emin ≤ 1 ∧ 2 ≤ f.emax := by cases hm <;> decide
  obtain ⟨hp, he, rfl⟩ := member_fmt hm
  rw [abs_val] at hv
  have hlog : Int.log 2 (absVal l) = f.p := by
    rw [hv, Int.log_natCast, Nat.log_eq_of_pow_le_of_lt_pow h1 h2]
  have hexp : expOf f (absVal l) = 1 := by
    unfold expOf
    rw [hlog]
    omega
  have hfl : ⌊((2 * m + 1 : Nat) : ℚ) / 2⌋ = (m : Int) := by
    rw [Int.floor_eq_iff]
    push_cast
    constructor <;> linarith
  have hfr : ((2 * m + 1 : Nat) : ℚ) / 2 - ((m : Int) : ℚ) = 1 / 2 := by push_cast; ring
  have key : ∃ j : Int, raw f (absVal l) = 4 * j ∧ |4 * (j : ℚ) - absVal l| = 1 := by
    unfold raw
    rw [hexp, zpow_one, hv]
    unfold nearInt
    rw [hfl, hfr, if_neg (lt_irrefl _), if_neg (lt_irrefl _)]
    by_cases hev : (m : Int) % 2 = 0
    · rw [if_pos hev]
      obtain ⟨j, hj⟩ : ∃ j : Int, (m : Int) = 2 * j := ⟨m / 2, by omega⟩
      have hj' : (m : ℚ) = 2 * j := by exact_mod_cast hj
      refine ⟨j, by push_cast; rw [hj']; ring, ?_⟩
      push_cast
      rw [hj', abs_of_nonpos (by linarith)]
      ring
    · rw [if_neg hev]
      obtain ⟨j, hj⟩ : ∃ j : Int, (m : Int) = 2 * j - 1 := ⟨(m + 1) / 2, by omega⟩
      have hj' : (m : ℚ) = 2 * j - 1 := by exact_mod_cast hj
      refine ⟨j, by push_cast; rw [hj']; ring, ?_⟩
      push_cast
      rw [hj', abs_of_nonneg (by linarith)]
      ring
  obtain ⟨j, k1, k2⟩ := key
  have hlt : raw f (absVal l) < 2 ^ ((f.p : Int) + f.emax) := by
    have e1 : (2 : ℚ) ^ ((f.p : Int) + 2) ≤ 2 ^ ((f.p : Int) + f.emax) := two_mono (by omega)
    have e2 : (2 : ℚ) ^ ((f.p : Int) + 2) = 4 * 2 ^ f.p := by rw [two_add, zpow_natCast]; norm_num; ring
    have e3 : absVal l < 2 * 2 ^ f.p := by rw [hv]; have : 2 * m + 1 < 2 * 2 ^ f.p := by rw [pow_succ] at h2; omega
                                           exact_mod_cast this
    have e4 : (2 : ℚ) ≤ 2 ^ f.p := by
      have := Nat.pow_le_pow_right (show 0 < 2 by decide) hp
      exact_mod_cast this
    have := (abs_le.mp (le_of_eq k2)).2
    rw [k1]
    linarith
  rcases sgn_cases l.sign with e | e
  · refine ⟨j, ?_, ?_⟩
    · rw [strtox_eq f ws rest l hw h hr, rnd_eq, if_pos hlt, k1]
      simp only [e, one_mul]
    · rw [val_eq, e, one_mul]; exact k2
  · refine ⟨-j, ?_, ?_⟩
    · rw [strtox_eq f ws rest l hw h hr, rnd_eq, if_pos hlt, k1]
      simp only [e]
      push_cast
      congr 2
      ring
    · rw [val_eq, e]
      push_cast
      rw [show 4 * -(j : ℚ) - -1 * absVal l = -(4 * j - absVal l) by ring, abs_neg]
      exact k2

/-- 16777217, which is 2^24 + 1, in a float. -/
example : ∃ j : Int, setFloat [49, 54, 55, 55, 55, 50, 49, 55] = some (.fin (4 * j)) ∧ |4 * (j : ℚ) - 16777217| = 1 := by
  have hv : (⟨none, [49, 54, 55, 55, 55, 50, 49, 55], none, none⟩ : Lit).val = 16777217 := by
    simp only [Lit.val, fpVal, exVal, sgn, show value [49, 54, 55, 55, 55, 50, 49, 55] = 16777217 by decide +kernel]
    norm_num
  have := C196_ties Member.float [] [] ⟨none, [49, 54, 55, 55, 55, 50, 49, 55], none, none⟩ 8388608 (by simp) ⟨by unfold Digit; decide, by simp, Or.inl (by simp), by simp⟩
    (by intro c hc; cases hc) (by rw [hv]; norm_num) (by norm_num [float]) (by norm_num [float])
  rw [hv] at this
  exact this

/-- **C196: of texts of white space, and of a sign alone, 0 is read.** -/
theorem C196_blank {f : Fmt} {set : Text → Option Val} (hm : Member f set) (ws : Text) (s : Option Bool) (hw : ∀ c ∈ ws, White c) : set (ws ++ signText s) = some (.fin 0) := by
  obtain ⟨hp, he, rfl⟩ := member_fmt hm
  have hraw : raw f 0 = 0 := raw_rep f (le_refl _) hp ⟨0, f.emin, by simp, le_refl _, he, by simp⟩
  have hdec : decimal [] = 0 := by unfold decimal mant; simp [Txml.scan]
  have hsig : ∀ neg, signedVal f neg [] = some (.fin 0) := by
    intro neg
    unfold signedVal
    rw [show special [] = false from rfl, if_neg (by decide), hdec, rnd_eq, hraw, if_pos (two_pos _)]
    cases neg <;> simp
  have hsk : Txml.skipSpace (Txml.cstr (ws ++ signText s)) = signText s := by
    induction ws with
    | nil => cases s with
      | none => rfl
      | some b => cases b <;> decide
    | cons c ws ih =>
      have hc := hw c (by simp)
      have := ih (fun c hc => hw c (by simp [hc]))
      simp only [List.cons_append, Txml.cstr]
      rw [if_neg (Txml.white_ne hc)]
      simp only [Txml.skipSpace, (Txml.isSpace_iff c).mpr hc, if_true]
      exact this
  unfold strtox
  rw [hsk]
  cases s with
  | none => rfl
  | some b => cases b <;> simp [signText, hsig]

/-- What is read depends on the number only, not on how it is written. -/
theorem read_val {f : Fmt} (hp : 0 < f.p) (he : f.emin ≤ f.emax) (l l' : Lit) (h : l.val = l'.val) : sgn l.sign * raw f (absVal l) = sgn l'.sign * raw f (absVal l') := by
  have ha : absVal l = absVal l' := by rw [← abs_val, ← abs_val, h]
  rw [val_eq, val_eq, ha] at h
  rw [ha]
  by_cases h0 : absVal l' = 0
  · have : raw f 0 = 0 := raw_rep f (le_refl _) hp ⟨0, f.emin, by simp, le_refl _, he, by simp⟩
    rw [h0, this, mul_zero, mul_zero]
  · rw [mul_right_cancel₀ h0 h]

/-- **C196, order: a larger number is not read as a smaller value**, however the two are written. -/
theorem C196_order {f : Fmt} {set : Text → Option Val} (hm : Member f set) (ws rest ws' rest' : Text) (l l' : Lit) (hw : ∀ c ∈ ws, White c) (hw' : ∀ c ∈ ws', White c) (h : l.ok) (h' : l'.ok)
    (hr : Stops rest) (hr' : Stops rest') (v v' : ℚ) (e : set (ws ++ l.text ++ rest) = some (.fin v)) (e' : set (ws' ++ l'.text ++ rest') = some (.fin v')) (hl : |l.val| ≤ largest f)
    (hl' : |l'.val| ≤ largest f) (hle : l.val ≤ l'.val) : v ≤ v' := by
  obtain ⟨u, g1, g2, g3⟩ := C196_nearest_partial hm ws rest l hw h hr hl
  obtain ⟨u', g1', g2', g3'⟩ := C196_nearest_partial hm ws' rest' l' hw' h' hr' hl'
  rw [e] at g1; cases g1
  rw [e'] at g1'; cases g1'
  by_contra hlt
  have hlt := not_le.mp hlt
  have k1 := g3 v' g2'
  have k2 := g3' v g2
  have m1 : (v + v') / 2 ≤ l.val := by
    by_contra hc
    have hc := not_le.mp hc
    rw [abs_of_nonneg (by linarith : 0 ≤ v - l.val), le_abs] at k1
    rcases k1 with k1 | k1 <;> linarith
  have m2 : l'.val ≤ (v + v') / 2 := by
    by_contra hc
    have hc := not_le.mp hc
    rw [abs_of_nonpos (by linarith : v' - l'.val ≤ 0), le_abs] at k2
    rcases k2 with k2 | k2 <;> linarith
  obtain ⟨hp, he, rfl⟩ := member_fmt hm
  have hv := read_val hp he l l' (by linarith)
  rw [abs_val] at hl hl'
  rw [strtox_eq f ws rest l hw h hr, rnd_eq, if_pos (raw_lt f (absVal_nonneg l) hp he hl)] at e
  rw [strtox_eq f ws' rest' l' hw' h' hr', rnd_eq, if_pos (raw_lt f (absVal_nonneg l') hp he hl')] at e'
  cases e; cases e'
  rw [hv] at hlt
  exact absurd hlt (lt_irrefl _)

/-- **C196: the sign is kept**: a number that is not negative is not read as a negative value, and a number with a minus sign is not read as a positive one. -/
theorem C196_sign {f : Fmt} {set : Text → Option Val} (hm : Member f set) (ws rest : Text) (l : Lit) (hw : ∀ c ∈ ws, White c) (h : l.ok) (hr : Stops rest) (v : ℚ)
    (e : set (ws ++ l.text ++ rest) = some (.fin v)) : 0 ≤ sgn l.sign * v := by
  obtain ⟨hp, he, rfl⟩ := member_fmt hm
  rw [strtox_eq f ws rest l hw h hr, rnd_eq] at e
  split at e
  · cases e
  · rename_i v' h'
    cases e
    rw [sgn_sgn]
    split at h'
    · cases h'
      exact raw_nonneg f (absVal_nonneg l)
    · cases h'

/-- **C196 is false for numbers that are much larger than the largest value**: the member becomes infinite, and nobody is told. -/
theorem C196_refuted_large {f : Fmt} {set : Text → Option Val} (hm : Member f set) (ws rest : Text) (l : Lit) (hw : ∀ c ∈ ws, White c) (h : l.ok) (hr : Stops rest)
    (hl : 2 ^ ((f.p : Int) + f.emax) ≤ |l.val|) : set (ws ++ l.text ++ rest) = some (.inf (decide (l.sign = some true))) := by
  obtain ⟨hp, he, rfl⟩ := member_fmt hm
  rw [abs_val] at hl
  have h0 := absVal_nonneg l
  have hge : ¬ raw f (absVal l) < 2 ^ ((f.p : Int) + f.emax) := by
    intro hlt
    have hrep := rep_raw f h0 hp he hlt
    have hx : (0 : ℚ) < absVal l := lt_of_lt_of_le (two_pos _) hl
    have hlog : (f.p : Int) + f.emax ≤ Int.log 2 (absVal l) := by
      rw [← Int.zpow_le_iff_le_log (by norm_num) hx]
      exact_mod_cast hl
    have hk : f.emax < expOf f (absVal l) := by unfold expOf; omega
    have hs := small_unit f hx (j := expOf f (absVal l) - 1) (by omega) (by omega)
    have hm := raw_near_mul f (absVal l) (2 ^ (f.p - 1))
    have e : (((2 ^ (f.p - 1) : Int) : Int) : ℚ) * 2 ^ expOf f (absVal l) = 2 ^ ((f.p : Int) + expOf f (absVal l) - 1) := by
      push_cast
      rw [← zpow_natCast (2 : ℚ) (f.p - 1), ← two_add]
      congr 1
      omega
    rw [e, abs_of_nonpos (by linarith : (2 : ℚ) ^ ((f.p : Int) + expOf f (absVal l) - 1) - absVal l ≤ 0)] at hm
    have h2 := (abs_le.mp hm).1
    have h3 : (2 : ℚ) ^ ((f.p : Int) + f.emax) ≤ 2 ^ ((f.p : Int) + expOf f (absVal l) - 1) := two_mono (by omega)
    linarith
  rw [strtox_eq f ws rest l hw h hr, rnd_eq, if_neg hge]

/-- **C196 is false for texts that go on after the number**: the rest is not looked at.  With a decimal comma the fraction is lost. -/
theorem C196_refuted_rest {f : Fmt} {set : Text → Option Val} (hm : Member f set) (ws rest : Text) (l : Lit) (hw : ∀ c ∈ ws, White c) (h : l.ok) (hr : Stops rest) :
    set (ws ++ l.text ++ rest) = set (ws ++ l.text) := by
  obtain ⟨_, _, rfl⟩ := member_fmt hm
  have := strtox_eq f ws [] l hw h (by intro c hc; cases hc)
  rw [List.append_nil] at this
  rw [this, strtox_eq f ws rest l hw h hr]

/-- **C196 is false for texts without a number** (of letters other than i, I, n and N, for example): the member becomes 0. -/
theorem C196_refuted_none {f : Fmt} {set : Text → Option Val} (hm : Member f set) (c : UInt8) (t : Text) (hc : 97 ≤ c.toNat ∧ c.toNat ≤ 122) (hi : c ≠ 105 ∧ c ≠ 110) :
    set (c :: t) = some (.fin 0) := by
  obtain ⟨hp, he, rfl⟩ := member_fmt hm
  have g : ∀ d : UInt8, d.toNat < 97 → c ≠ d := by rintro d hd rfl; omega
  have hsp : Txml.isSpace c = false := by
    rw [Bool.eq_false_iff]
    intro hs
    have := (Txml.isSpace_iff c).mp hs
    unfold White at this
    omega
  have hdg : Txml.isDigit c = false := by
    rw [Bool.eq_false_iff]
    intro hs
    have := (Txml.isDigit_iff c).mp hs
    unfold Digit at this
    omega
  have hmant : mant (c :: Txml.cstr t) = ([], [], c :: Txml.cstr t) := by
    unfold mant
    simp only [List.dropWhile, List.takeWhile, hdg]
    rw [if_neg (g 46 (by decide))]
  have hdec : decimal (c :: Txml.cstr t) = 0 := by
    unfold decimal
    rw [hmant]
    simp [Txml.scan]
  have hspec : special (c :: Txml.cstr t) = false := by
    unfold special
    split
    · rename_i h; exact absurd (List.cons.inj h).1 (g 48 (by decide))
    · rename_i h; exact absurd (List.cons.inj h).1 (g 48 (by decide))
    · rename_i h; cases h; simp [hi.1, hi.2, g 73 (by decide), g 78 (by decide)]
    · rename_i h; cases h
  have hraw : raw f 0 = 0 := raw_rep f (le_refl _) hp ⟨0, f.emin, by simp, le_refl _, he, by simp⟩
  unfold strtox
  simp only [Txml.cstr]
  rw [if_neg (g 0 (by decide))]
  simp only [Txml.skipSpace, hsp, Bool.false_eq_true, if_false]
  rw [if_neg (g 45 (by decide)), if_neg (g 43 (by decide))]
  unfold signedVal
  rw [hspec, if_neg (by decide), hdec, rnd_eq, hraw, if_pos (two_pos _)]
  simp

/-- The text 0.1. -/
def tenth : Lit := ⟨none, [48], some [49], none⟩

/-- **C196: no type has the number 0.1**, so no member gets it. -/
theorem C196_refuted_tenth (f : Fmt) : tenth.val = 1 / 10 ∧ ¬ Rep f tenth.val := by
  have hv : tenth.val = 1 / 10 := by
    simp only [tenth, Lit.val, fpVal, exVal, sgn, show value [48] = 0 by decide, show value [49] = 1 by decide]
    norm_num
  refine ⟨hv, ?_⟩
  rw [hv]
  rintro ⟨n, k, _, _, _, e⟩
  -- 2^m = 10·n·2^j is impossible: 5 does not divide a power of 2
  have h5 : ∀ m : Nat, ¬ (5 : Int) ∣ 2 ^ m := by
    intro m
    induction m with
    | zero => decide
    | succ m ih => intro h; rw [pow_succ] at h; exact ih (by omega)
  rcases Int.lt_or_le k 0 with hk | hk
  · obtain ⟨m, hm⟩ := Int.eq_ofNat_of_zero_le (show 0 ≤ -k by omega)
    have e2 : (2 : ℚ) ^ m = 10 * n := by
      have hz : (2 : ℚ) ^ k * 2 ^ m = 1 := by
        rw [← zpow_natCast, ← two_add, show k + (m : Int) = 0 by omega, zpow_zero]
      calc (2 : ℚ) ^ m = 10 * (1 / 10) * 2 ^ m := by ring
        _ = 10 * n * (2 ^ k * 2 ^ m) := by rw [e]; ring
        _ = 10 * n := by rw [hz, mul_one]
    have e3 : (2 : Int) ^ m = 10 * n := by exact_mod_cast e2
    exact h5 m ⟨2 * n, by rw [e3]; ring⟩
  · obtain ⟨m, hm⟩ := Int.eq_ofNat_of_zero_le hk
    have e2 : (1 : ℚ) = 10 * n * 2 ^ m := by
      rw [hm] at e
      have : (2 : ℚ) ^ ((m : Nat) : Int) = 2 ^ m := zpow_natCast _ _
      have e' : (1 : ℚ) / 10 = n * 2 ^ m := by rw [← this]; exact e
      linarith
    have e3 : (1 : Int) = 10 * n * 2 ^ m := by exact_mod_cast e2
    exact h5 0 ⟨2 * n * 2 ^ m, by rw [pow_zero, e3]; ring⟩

/-- The text " -2.5E+1m" is read as -25 by all types. -/
example {f : Fmt} {set : Text → Option Val} (hm : Member f set) : set ([32] ++ [45, 50, 46, 53, 69, 43, 49] ++ [109]) = some (.fin (-25)) := by
  have hv : (⟨some true, [50], some [53], some (69, some false, [49])⟩ : Lit).val = -25 := by
    simp only [Lit.val, fpVal, exVal, sgn, show value [50] = 2 by decide, show value [53] = 5 by decide, show value [49] = 1 by decide]
    norm_num
  have := C196_exact hm [32] [109] ⟨some true, [50], some [53], some (69, some false, [49])⟩ (by intro c hc; rw [List.mem_singleton.mp hc]; exact Or.inl rfl)
    ⟨by intro c hc; rw [List.mem_singleton.mp hc]; unfold Digit; decide, by intro ds h c hc; cases h; rw [List.mem_singleton.mp hc]; unfold Digit; decide, by simp,
      by intro e s ds h; cases h; refine ⟨by simp, by simp, ?_⟩; intro c hc; rw [List.mem_singleton.mp hc]; unfold Digit; decide⟩
    (by intro c hc; have : 109 = c := by simpa using hc
        subst this; unfold Digit; decide)
    (by rw [hv]; refine ⟨-25, 0, ?_, ?_, ?_, by norm_num⟩
        · cases hm <;> (simp only [float, double, longDouble]; norm_num)
        · cases hm <;> decide
        · cases hm <;> decide)
  rw [hv] at this
  exact this

end Verif.XmlFloat
