/-
  C61-C63: coda_gmtime; C86: coda_msleep.
-/
import Verif.Gmtime.Lemmas

namespace Verif.Gmtime

/-- C61: for every time stamp `t` from 0 up to (not including) 2^31 · 31536000 seconds, the year, month (1-12) and day stored are a date of
the Gregorian calendar, and it is the date `t / 86400` days after 1 January 1970. -/
theorem C61_gregorian_date (t : Nat) (h : t < 2 ^ 31 * 31536000) : ∃ y m d : Nat,
    (gmtime t).year = y ∧ (gmtime t).mon = m ∧ (gmtime t).mday = d ∧ IsDate y m d ∧ dayNumber y m d = t / 86400 := by
  obtain ⟨y, m, d, h1, h2, h3⟩ := civil t (by omega)
  have hy : y < 2147483648 := by
    have hn := newYear_base (y - 1970)
    rw [Nat.add_sub_cancel' h1.1] at hn
    have hl : lp y ≤ 1 := by unfold lp; split <;> omega
    unfold dayNumber at h2
    unfold base at hn
    omega
  obtain ⟨_, a2, a3, a4, a5⟩ := h1
  have hm : monthLen y m ≤ 31 := by unfold monthLen; split <;> (try split) <;> omega
  refine ⟨y, m, d, ?_, ?_, ?_, ⟨by assumption, a2, a3, a4, a5⟩, h2⟩
  · show i32 _ = _
    rw [h3]; exact i32_id (by omega) (by show (y : Int) < _; omega)
  · show i32 _ = _
    rw [h3]; exact i32_id (by show _ ≤ (m : Int); omega) (by show (m : Int) < _; omega)
  · show i32 _ = _
    rw [h3]; exact i32_id (by show _ ≤ (d : Int); omega) (by show (d : Int) < _; omega)

/-- C61: that date is unique. -/
theorem C61_unique (y m d y' m' d' : Nat) (h : IsDate y m d) (h' : IsDate y' m' d') (he : dayNumber y m d = dayNumber y' m' d') :
    y = y' ∧ m = m' ∧ d = d' := date_unique h h' he

/-- 29 February 2024 and the last second of the range. -/
example : gmtime 1709164800 = ⟨0, 0, 0, 29, 2, 2024, 4⟩ := by decide +kernel
example : IsDate 2024 2 29 ∧ ¬ IsDate 2023 2 29 ∧ IsDate 2000 2 29 ∧ ¬ IsDate 2100 2 29 := by decide
example : dayNumber 2024 2 29 = 1709164800 / 86400 := by decide +kernel
example : gmtime (2 ^ 31 * 31536000 - 1) = ⟨59, 59, 23, 12, 6, 2146059812, 5⟩ := by decide +kernel

/-- Beyond the range the year does not fit into an int (found far outside any practical time stamp). -/
theorem C61_range : (gmtime (2 ^ 31 * 31556952)).year < 0 := by decide +kernel

/-- The comment "valid for positive time_t only" is accurate: one second before 1970. -/
theorem C61_negative : (gmtime (-1)).year ≠ 1969 := by decide +kernel

/-- C62: hour, minute and second are in their ranges and denote the second of the day; the weekday is Thursday (4) on day 0 and the next one
on every following day. -/
theorem C62_time_of_day (t : Nat) (h : t < 2 ^ 63) :
    0 ≤ (gmtime t).sec ∧ (gmtime t).sec < 60 ∧ 0 ≤ (gmtime t).min ∧ (gmtime t).min < 60 ∧ 0 ≤ (gmtime t).hour ∧ (gmtime t).hour < 24 ∧
    (gmtime t).sec + 60 * (gmtime t).min + 3600 * (gmtime t).hour = ((t % 86400 : Nat) : Int) := by
  have e : u64 (t : Int) = t := u64_id (by omega) (by omega)
  simp only [gmtime, e]
  rw [i32_id (x := (t : Int) % 86400 % 3600 % 60) (by omega) (by omega), i32_id (x := (t : Int) % 86400 % 3600 / 60) (by omega) (by omega),
    i32_id (x := (t : Int) % 86400 / 3600) (by omega) (by omega)]
  omega

/-- C62, weekday. -/
theorem C62_weekday (t : Nat) (h : t + 86400 < 2 ^ 63) :
    0 ≤ (gmtime t).wday ∧ (gmtime t).wday < 7 ∧ (t < 86400 → (gmtime t).wday = 4) ∧
    (gmtime ((t + 86400 : Nat) : Int)).wday = (if (gmtime t).wday = 6 then 0 else (gmtime t).wday + 1) := by
  have e : u64 (t : Int) = t := u64_id (by omega) (by omega)
  have e' : u64 ((t + 86400 : Nat) : Int) = ((t + 86400 : Nat) : Int) := u64_id (by omega) (by omega)
  have w : ∀ x : Nat, x < 2 ^ 63 → i32 (u64 (4 + (x : Int) / 86400) % 7) = (4 + (x : Int) / 86400) % 7 := by
    intro x hx
    rw [u64_id (x := 4 + (x : Int) / 86400) (by omega) (by omega)]
    exact i32_id (by omega) (by omega)
  simp only [gmtime, e, e']
  rw [w t (by omega), w (t + 86400) h]
  refine ⟨by omega, by omega, by omega, ?_⟩
  split <;> omega

example : (gmtime 1709164800).wday = 4 ∧ gmtime 86399 = ⟨59, 59, 23, 1, 1, 1970, 4⟩ := by decide +kernel

/-- C63 is false: gmtime(3) stores 70 (years since 1900) and 0 (January) for the time stamp 0. -/
theorem C63_refuted : (gmtime 0).year ≠ 70 ∧ (gmtime 0).mon ≠ 0 := by decide +kernel

/-- C63, partial: the stored year is 1900 more and the stored month one more than what gmtime(3) stores: (year − 1900, month − 1) of the date.
Missing: the convention of struct tm itself. -/
theorem C63_offset_partial (t : Nat) (h : t < 2 ^ 31 * 31536000) (y m d : Nat) (hd : IsDate y m d) (hn : dayNumber y m d = t / 86400) :
    (gmtime t).year = ((y : Int) - 1900) + 1900 ∧ (gmtime t).mon = ((m : Int) - 1) + 1 ∧ (gmtime t).mday = d := by
  obtain ⟨y', m', d', e1, e2, e3, hd', hn'⟩ := C61_gregorian_date t h
  obtain ⟨rfl, rfl, rfl⟩ := date_unique hd hd' (by rw [hn, hn'])
  rw [e1, e2, e3]
  omega

example : IsDate 2024 2 29 ∧ dayNumber 2024 2 29 = 1709164800 / 86400 := by decide +kernel

/-- C86: for every non-negative int the timespec is normalised and denotes exactly `ms` milliseconds. -/
theorem C86_msleep (ms : Int) (h : 0 ≤ ms) :
    (msleep ms).1 * 1000000000 + (msleep ms).2 = ms * 1000000 ∧ 0 ≤ (msleep ms).2 ∧ (msleep ms).2 < 1000000000 ∧ 0 ≤ (msleep ms).1 := by
  unfold msleep
  rw [Int.tdiv_eq_ediv_of_nonneg h, Int.tmod_eq_emod_of_nonneg h]
  dsimp only
  omega

/-- C86: for a negative int nanosleep is called with a negative time, which it rejects; nothing overflows: |tv_nsec| < 10^9. -/
theorem C86_msleep_negative (ms : Int) (h : ms < 0) :
    ((msleep ms).1 < 0 ∨ (msleep ms).2 < 0) ∧ (msleep ms).2 ≤ 0 ∧ -1000000000 < (msleep ms).2 := by
  unfold msleep
  obtain ⟨k, rfl⟩ : ∃ k : Int, ms = -k := ⟨-ms, by omega⟩
  rw [Int.neg_tdiv, Int.neg_tmod, Int.tdiv_eq_ediv_of_nonneg (by omega), Int.tmod_eq_emod_of_nonneg (by omega)]
  dsimp only
  omega

example : msleep 1500 = (1, 500000000) ∧ msleep (-1) = (0, -1000000) := by decide

end Verif.Gmtime
