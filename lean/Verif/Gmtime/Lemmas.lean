import Verif.Gmtime.Model
import Verif.Gmtime.Spec

namespace Verif.Gmtime

/-- Days from 1 March of year 0 to 1 March of year `y`. -/
def base (y : Nat) : Nat := 365 * y + y / 4 - y / 100 + y / 400

def lp (y : Nat) : Nat := if isLeap y then 1 else 0

theorem mk3 {a b c a' b' c' : Int} (h1 : a = a') (h2 : b = b') (h3 : c = c') : (a, b, c) = (a', b', c') := by
  rw [h1, h2, h3]

theorem isLeap_iff (y : Nat) : isLeap y = true ↔ (y % 4 = 0 ∧ (y % 100 ≠ 0 ∨ y % 400 = 0)) := by
  simp [isLeap]

theorem yearLen_eq (y : Nat) : yearLen y = 365 + lp y := by
  unfold yearLen lp; split <;> rfl

theorem base_succ (y : Nat) : base (y + 1) = base y + 365 + lp (y + 1) := by
  unfold base lp
  by_cases h : isLeap (y + 1) = true
  · rw [if_pos h]
    rw [isLeap_iff] at h
    omega
  · rw [if_neg h]
    rw [isLeap_iff] at h
    by_cases h4 : (y + 1) % 4 = 0
    · have h1 : (y + 1) % 100 = 0 := by
        by_cases hh : (y + 1) % 100 = 0
        · exact hh
        · exact absurd ⟨h4, Or.inl hh⟩ h
      have h2 : (y + 1) % 400 ≠ 0 := fun hh => h ⟨h4, Or.inr hh⟩
      clear h
      omega
    · have h1 : (y + 1) % 100 ≠ 0 := by omega
      have h2 : (y + 1) % 400 ≠ 0 := by omega
      clear h
      have e1 : (y + 1) / 4 = y / 4 := by omega
      have e2 : (y + 1) / 100 = y / 100 := by omega
      have e3 : (y + 1) / 400 = y / 400 := by omega
      rw [e1, e2, e3]
      omega

/-- 1 March of the year 1970 + k is 59 or 60 days after 1 January. -/
theorem newYear_base (k : Nat) : newYear k + 59 + lp (1970 + k) + 719468 = base (1970 + k) := by
  induction k with
  | zero => decide +kernel
  | succ k ih =>
    have h := base_succ (1970 + k)
    rw [newYear, yearLen_eq]
    rw [show 1970 + (k + 1) = 1970 + k + 1 from rfl, h]
    omega

theorem year0_spec (d : Nat) : ∃ y : Nat, (d + 2) * 400 / 146097 = y ∧ d < base (y + 1) ∧ (base y ≤ d ∨ (d < base y ∧ base (y - 1) ≤ d ∧ 1 ≤ y)) := by
  refine ⟨_, rfl, ?_, ?_⟩
  · unfold base; omega
  · by_cases h : base ((d + 2) * 400 / 146097) ≤ d
    · exact Or.inl h
    · right
      refine ⟨by omega, ?_, ?_⟩
      · unfold base at h ⊢; omega
      · unfold base at h; omega

/-! ### months -/

def mon1 (yday : Nat) : Nat := (yday + 31) * 10 / 306
def mday1 (yday : Nat) : Nat := yday + 31 - 367 * mon1 yday / 12

/-- a common year and a leap year -/
def yr (b : Bool) : Nat := if b then 2000 else 2001

theorem monthLen_lp (y m : Nat) : monthLen y m = monthLen (yr (isLeap y)) m := by
  have h1 : isLeap 2000 = true := by decide
  have h2 : isLeap 2001 = false := by decide
  cases h : isLeap y
  · unfold monthLen yr; simp [h, h2]
  · unfold monthLen yr; simp [h, h1]

theorem beforeMonth_lp (y : Nat) : ∀ m, beforeMonth y m = beforeMonth (yr (isLeap y)) m
  | 0 => rfl
  | 1 => rfl
  | m + 2 => by rw [beforeMonth, beforeMonth, beforeMonth_lp y (m + 1), monthLen_lp y (m + 1)]

/-- March to December. -/
theorem months_late : ∀ b : Bool, ∀ yd : Fin 306, 1 ≤ mon1 yd ∧ mon1 yd + 2 ≤ 12 ∧ 3 ≤ mon1 yd + 2 ∧ 30 ≤ 367 * mon1 yd / 12 ∧
    367 * mon1 yd / 12 ≤ yd + 30 ∧ mday1 yd ≤ monthLen (yr b) (mon1 yd + 2) ∧
    beforeMonth (yr b) (mon1 yd + 2) + (mday1 yd - 1) = yd.val + 59 + (if b then 1 else 0) := by decide +kernel

/-- January and February. -/
theorem months_early : ∀ b : Bool, ∀ yd : Fin 366, 306 ≤ yd.val → (yd.val = 365 → b = true) →
    11 ≤ mon1 yd ∧ mon1 yd - 10 ≤ 2 ∧ 30 ≤ 367 * mon1 yd / 12 ∧
    367 * mon1 yd / 12 ≤ yd + 30 ∧ mday1 yd ≤ monthLen (yr b) (mon1 yd - 10) ∧
    beforeMonth (yr b) (mon1 yd - 10) + (mday1 yd - 1) + 306 = yd.val := by decide +kernel

theorem mday1_pos {yd : Nat} (h : 367 * mon1 yd / 12 ≤ yd + 30) : 1 ≤ mday1 yd := by unfold mday1; omega

/-! ### reducing the machine arithmetic -/

theorem u64_id {x : Int} (h0 : 0 ≤ x) (h1 : x < 18446744073709551616) : u64 x = x := by unfold u64; omega
theorem i32_id {x : Int} (h0 : -2147483648 ≤ x) (h1 : x < 2147483648) : i32 x = x := by unfold i32; omega

theorem marchDays_eq (t : Nat) (h : t < 9223372036854775808) : marchDays t = ((t / 86400 + 719468 : Nat) : Int) := by
  unfold marchDays u64
  omega

theorem year0_eq (d : Nat) (h : d < 9223372036854775808 / 86400 + 719469) : year0 d = (((d + 2) * 400 / 146097 : Nat) : Int) := by
  unfold year0 u64
  omega

theorem yday0_eq (d : Nat) (h : d < 9223372036854775808 / 86400 + 719469) :
    yday0 d = (d : Int) - (base ((d + 2) * 400 / 146097) : Int) := by
  unfold yday0
  rw [year0_eq d h]
  obtain ⟨y, hy, h1, h2⟩ := year0_spec d
  rw [hy]
  have hb := base_succ y
  have hl : lp (y + 1) ≤ 1 := by unfold lp; split <;> omega
  have hb2 : base y ≤ d + 366 := by
    rcases h2 with h2 | ⟨_, h2, h3⟩
    · omega
    · have := base_succ (y - 1)
      rw [Nat.sub_add_cancel h3] at this
      have hl : lp y ≤ 1 := by unfold lp; split <;> omega
      omega
  have hd : d < base y + 366 := by omega
  have e : u64 (u64 (u64 (u64 (365 * (y : Int)) + (y : Int) / 4) - (y : Int) / 100) + (y : Int) / 400) = (base y : Int) := by
    unfold u64 base at *
    omega
  dsimp only
  rw [e]
  unfold u64 i32
  omega

theorem leap_eq (y : Nat) : leap (y : Int) = (lp y : Int) := by
  unfold leap lp
  by_cases h : isLeap y = true
  · rw [if_pos h]
    rw [isLeap_iff] at h
    rw [if_pos (by omega)]; rfl
  · rw [if_neg h]
    rw [isLeap_iff] at h
    rw [if_neg (by omega)]; rfl

/-- After the correction: a year starting in March, and a day in it. -/
theorem fix_eq (d : Nat) (h : d < 9223372036854775808 / 86400 + 719469) : ∃ y yd : Nat,
    fix (year0 d) (yday0 d) = ((y : Int), (yd : Int)) ∧ base y + yd = d ∧ yd < 365 + lp (y + 1) := by
  rw [yday0_eq d h, year0_eq d h]
  obtain ⟨y, hy, h1, h2⟩ := year0_spec d
  rw [hy]
  unfold fix
  rcases h2 with h2 | ⟨h2, h3, h4⟩
  · rw [if_neg (by omega)]
    refine ⟨y, d - base y, ?_, by omega, ?_⟩
    · congr 1; omega
    · have := base_succ y; omega
  · rw [if_pos (by omega), leap_eq]
    have hs := base_succ (y - 1)
    rw [Nat.sub_add_cancel h4] at hs
    have hl : lp y ≤ 1 := by unfold lp; split <;> omega
    have hy2 : y < 18446744073709551616 := by omega
    refine ⟨y - 1, d - base (y - 1), ?_, by omega, ?_⟩
    · congr 1
      · unfold u64; omega
      · unfold u64 i32; omega
    · rw [Nat.sub_add_cancel h4]; omega

theorem mday_eq (m x : Nat) (h1 : m ≤ 1000) (h2 : x ≤ 1000) (h3 : 30 ≤ 367 * m / 12) (h4 : 367 * m / 12 ≤ x + 30) :
    u64 (u64 (u64 (x : Int) - u64 (u64 (367 * (m : Int)) / 12 - 30)) + 1) = ((x + 31 - 367 * m / 12 : Nat) : Int) := by
  have e1 : u64 (367 * (m : Int)) = ((367 * m : Nat) : Int) := by rw [u64_id (by omega) (by omega)]; rfl
  have e2 : u64 (((367 * m : Nat) : Int) / 12 - 30) = ((367 * m / 12 - 30 : Nat) : Int) := by
    rw [u64_id (by omega) (by omega)]; omega
  rw [e1, e2, u64_id (x := (x : Int)) (by omega) (by omega), u64_id (x := (x : Int) - _) (by omega) (by omega), u64_id (by omega) (by omega)]
  omega

theorem monthLate_eq (y yd : Nat) (hy : y < 9223372036854775808) (h : yd < 306) :
    month (y : Int) (yd : Int) = ((y : Int), ((mon1 yd + 2 : Nat) : Int), ((mday1 yd : Nat) : Int)) := by
  have ht := months_late true ⟨yd, h⟩
  obtain ⟨a1, a2, a3, a4, a5, a6, _⟩ := ht
  simp only at a1 a2 a3 a4 a5
  unfold month
  have e : u64 ((((yd : Int) + 31) * 10).tdiv 306) = ((mon1 yd : Nat) : Int) := by
    rw [Int.tdiv_eq_ediv_of_nonneg (by omega)]
    have e0 : (((yd : Int) + 31) * 10) / 306 = ((mon1 yd : Nat) : Int) := by unfold mon1; omega
    rw [e0]
    exact u64_id (by omega) (by omega)
  dsimp only
  rw [e, if_neg (by omega)]
  refine mk3 rfl ?_ ?_
  · unfold u64; omega
  · unfold mday1; exact mday_eq _ _ (by omega) (by omega) (by omega) (by omega)

theorem monthEarly_eq (y yd : Nat) (hy : y < 9223372036854775808) (h0 : 306 ≤ yd) (h : yd < 366) :
    month (y : Int) (yd : Int) = (((y + 1 : Nat) : Int), ((mon1 yd - 10 : Nat) : Int), ((mday1 yd : Nat) : Int)) := by
  obtain ⟨a1, a2, a4, a5, a6, _⟩ := months_early true ⟨yd, h⟩ h0 (fun _ => rfl)
  simp only at a1 a2 a4 a5
  unfold month
  have e : u64 ((((yd : Int) + 31) * 10).tdiv 306) = ((mon1 yd : Nat) : Int) := by
    rw [Int.tdiv_eq_ediv_of_nonneg (by omega)]
    have e0 : (((yd : Int) + 31) * 10) / 306 = ((mon1 yd : Nat) : Int) := by unfold mon1; omega
    rw [e0]
    exact u64_id (by omega) (by omega)
  dsimp only
  rw [e, if_pos (by omega)]
  refine mk3 ?_ ?_ ?_
  · unfold u64; omega
  · unfold u64; omega
  · unfold mday1; exact mday_eq _ _ (by omega) (by omega) (by omega) (by omega)

theorem base_ge (y : Nat) : 365 * y ≤ base y := by unfold base; omega

/-- The date computed, before it is stored. -/
theorem civil (t : Nat) (h : t < 9223372036854775808) : ∃ y m d : Nat, IsDate y m d ∧ dayNumber y m d = t / 86400 ∧
    (month (fix (year0 (marchDays t)) (yday0 (marchDays t))).1 (fix (year0 (marchDays t)) (yday0 (marchDays t))).2 = ((y : Int), (m : Int), (d : Int))) := by
  rw [marchDays_eq t h]
  obtain ⟨y, yd, hf, hd, hlt⟩ := fix_eq (t / 86400 + 719468) (by omega)
  rw [hf]
  dsimp only
  have hy : y < 9223372036854775808 := by have := base_ge y; omega
  have hl : lp (y + 1) ≤ 1 := by unfold lp; split <;> omega
  by_cases hc : yd < 306
  · rw [monthLate_eq y yd hy hc]
    obtain ⟨b1, b2, b3, b4, b5, b6, b7⟩ := months_late (isLeap y) ⟨yd, hc⟩
    simp only at b1 b2 b3 b4 b5 b6 b7
    rw [← monthLen_lp] at b6
    rw [← beforeMonth_lp] at b7
    have hy0 : 1970 ≤ y := by
      rcases Nat.lt_or_ge y 1970 with hlt | hge
      · exfalso
        have : base y ≤ base 1969 := by unfold base; omega
        have e : base 1969 = 719162 := by decide
        omega
      · exact hge
    refine ⟨y, mon1 yd + 2, mday1 yd, ⟨hy0, by omega, b2, mday1_pos b5, b6⟩, ?_, rfl⟩
    have hn := newYear_base (y - 1970)
    rw [Nat.add_sub_cancel' hy0] at hn
    unfold dayNumber
    have : lp y = if isLeap y then 1 else 0 := rfl
    omega
  · have hc' : yd < 366 := by omega
    rw [monthEarly_eq y yd hy (by omega) hc']
    have hb : yd = 365 → isLeap (y + 1) = true := by
      intro h5
      cases hh : isLeap (y + 1)
      · unfold lp at hlt; rw [hh] at hlt; simp at hlt; omega
      · rfl
    obtain ⟨b1, b2, b4, b5, b6, b7⟩ := months_early (isLeap (y + 1)) ⟨yd, hc'⟩ (by show 306 ≤ yd; omega) hb
    simp only at b1 b2 b4 b5 b6 b7
    rw [← monthLen_lp] at b6
    rw [← beforeMonth_lp] at b7
    have hy0 : 1969 ≤ y := by
      rcases Nat.lt_or_ge y 1969 with hlt | hge
      · exfalso
        have : base y ≤ base 1968 := by unfold base; omega
        have e : base 1968 = 718797 := by decide
        omega
      · exact hge
    refine ⟨y + 1, mon1 yd - 10, mday1 yd, ⟨by omega, by omega, by omega, mday1_pos b5, b6⟩, ?_, rfl⟩
    have hn := newYear_base (y + 1 - 1970)
    rw [Nat.add_sub_cancel' (by omega)] at hn
    have hs := base_succ y
    unfold dayNumber
    omega

/-! ### uniqueness of dates -/

theorem newYear_mono {a b : Nat} (h : a ≤ b) : newYear a ≤ newYear b := by
  induction b with
  | zero => rw [Nat.le_zero.mp h]; exact Nat.le_refl _
  | succ b ih =>
    rcases Nat.lt_or_ge a (b + 1) with h1 | h1
    · have := ih (by omega)
      rw [newYear]; omega
    · rw [show a = b + 1 from by omega]; exact Nat.le_refl _

theorem before_facts : ∀ b : Bool, ∀ m : Fin 13, 1 ≤ m.val → beforeMonth (yr b) m.val + monthLen (yr b) m.val ≤ 365 + (if b then 1 else 0) ∧
    ∀ m' : Fin 13, m.val < m'.val → beforeMonth (yr b) m.val + monthLen (yr b) m.val ≤ beforeMonth (yr b) m'.val := by decide +kernel

theorem date_unique {y m d y' m' d' : Nat} (h : IsDate y m d) (h' : IsDate y' m' d') (he : dayNumber y m d = dayNumber y' m' d') :
    y = y' ∧ m = m' ∧ d = d' := by
  obtain ⟨a1, a2, a3, a4, a5⟩ := h
  obtain ⟨b1, b2, b3, b4, b5⟩ := h'
  unfold dayNumber at he
  have f := before_facts (isLeap y) ⟨m, by omega⟩ a2
  have f' := before_facts (isLeap y') ⟨m', by omega⟩ b2
  simp only [← monthLen_lp, ← beforeMonth_lp] at f f'
  have ylen : ∀ z : Nat, yearLen z = 365 + (if isLeap z then 1 else 0) := by intro z; rw [yearLen_eq]; rfl
  have key : ∀ {u v : Nat}, 1970 ≤ u → u < v → newYear (u - 1970) + yearLen u ≤ newYear (v - 1970) := by
    intro u v hu huv
    have := newYear_mono (show u - 1970 + 1 ≤ v - 1970 by omega)
    rw [newYear, Nat.add_sub_cancel' hu] at this
    exact this
  have hy : y = y' := by
    rcases Nat.lt_trichotomy y y' with hlt | heq | hgt
    · have := key a1 hlt
      have := ylen y
      omega
    · exact heq
    · have := key b1 hgt
      have := ylen y'
      omega
  subst hy
  have hm : m = m' := by
    rcases Nat.lt_trichotomy m m' with hlt | heq | hgt
    · have := f.2 ⟨m', by omega⟩ hlt
      simp only at this
      omega
    · exact heq
    · have := f'.2 ⟨m, by omega⟩ hgt
      simp only at this
      omega
  subst hm
  exact ⟨rfl, rfl, by omega⟩

end Verif.Gmtime
