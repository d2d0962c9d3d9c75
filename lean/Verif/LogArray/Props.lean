/-
  C64: log_array.
-/
import Verif.LogArray.Model

namespace Verif.LogArray

variable {T : Type}

theorem loop_spec : ∀ (k i j : Nat), 2 ^ k ≤ i → i < 2 ^ (k + 1) → loop i j = (j + (k + 1)) % 2 ^ 64 := by
  intro k
  induction k with
  | zero =>
    intro i j h1 h2
    have : i = 1 := by omega
    subst this
    rw [loop, dif_neg (by omega), loop, dif_pos (by omega)]
  | succ k ih =>
    intro i j h1 h2
    rw [loop, dif_neg (by have := Nat.two_pow_pos (k + 1); omega)]
    rw [ih (i / 2) _ (by rw [Nat.pow_succ] at h1; omega) (by rw [Nat.pow_succ] at h2; omega)]
    omega

/-- C64: for `i > 0` with 2^k ≤ i < 2^(k+1), i.e. k = ⌊log₂ i⌋, the bucket is k, or the last one if there is no bucket k. -/
theorem C64_bucket (maxlog i k : Nat) (hm : 1 ≤ maxlog) (hi : i < 2 ^ 64) (h1 : 2 ^ k ≤ i) (h2 : i < 2 ^ (k + 1)) :
    index maxlog i = min k (maxlog - 1) ∧ index maxlog i < maxlog := by
  have hk : k < 64 := by
    rcases Nat.lt_or_ge k 64 with h | h
    · exact h
    · have := Nat.pow_le_pow_right (show 0 < 2 by omega) h
      omega
  have e : loop i (2 ^ 64 - 1) = k := by
    rw [loop_spec k i _ h1 h2]; omega
  unfold index
  rw [e]
  dsimp only
  split <;> omega

/-- C64: the value 0 selects the last bucket. -/
theorem C64_zero (maxlog : Nat) (hm : 1 ≤ maxlog) (h : maxlog < 2 ^ 32) : index maxlog 0 = maxlog - 1 := by
  unfold index
  rw [loop, dif_pos rfl]
  dsimp only
  rw [if_neg (by omega)]

/-- C64: no value whatsoever leaves the array; the selected element is an element of the array. -/
theorem C64_in_bounds (a : List T) (i : Nat) (ha : a ≠ []) : ∃ x, get_by_value a i = .ok x ∧ a[index a.length i]? = some x := by
  have hlt : index a.length i < a.length := by
    have := List.length_pos_iff.mpr ha
    unfold index
    dsimp only
    split <;> omega
  exact ⟨a[index a.length i], by unfold get_by_value get_at; rw [List.getElem?_eq_getElem hlt], List.getElem?_eq_getElem hlt⟩

/-- C64: what is stored for a value is found again for every value of the same bucket, and no other bucket is changed. -/
theorem C64_store (a a' : List T) (i : Nat) (x : T) (h : set_by_value a i x = .ok a') :
    a'.length = a.length ∧ get_by_value a' i = .ok x ∧ ∀ k, k ≠ index a.length i → a'[k]? = a[k]? := by
  unfold set_by_value at h
  split at h
  · rename_i hlt
    simp only [Res.ok.injEq] at h
    subst h
    refine ⟨List.length_set, ?_, ?_⟩
    · unfold get_by_value get_at
      rw [List.length_set]
      simp [hlt]
    · intro k hk
      rw [List.getElem?_set, if_neg (fun hh => hk hh.symm)]
  · simp at h

theorem swapLoop_spec : ∀ (n i : Nat) (a b : List T), a.length = b.length → i + n = a.length →
    swapLoop n i a b = .ok (a.take i ++ b.drop i, b.take i ++ a.drop i)
  | 0, i, a, b, h, hn => by
    rw [swapLoop, List.take_of_length_le (by omega), List.take_of_length_le (by omega), List.drop_eq_nil_of_le (by omega),
      List.drop_eq_nil_of_le (by omega), List.append_nil, List.append_nil]
  | n + 1, i, a, b, h, hn => by
    have ha : i < a.length := by omega
    have hb : i < b.length := by omega
    rw [swapLoop, List.getElem?_eq_getElem ha, List.getElem?_eq_getElem hb]
    dsimp only
    rw [swapLoop_spec n (i + 1) _ _ (by simp [h]) (by simp; omega)]
    congr 1
    have h1 : (a.set i b[i]).take (i + 1) = a.take i ++ [b[i]] := by
      rw [List.take_set, List.take_add_one, List.getElem?_eq_getElem ha]
      rw [List.set_append_right _ _ (by simp; omega)]
      simp [Nat.min_eq_left (Nat.le_of_lt ha)]
    have h2 : (b.set i a[i]).take (i + 1) = b.take i ++ [a[i]] := by
      rw [List.take_set, List.take_add_one, List.getElem?_eq_getElem hb]
      rw [List.set_append_right _ _ (by simp; omega)]
      simp [Nat.min_eq_left (Nat.le_of_lt hb)]
    have h3 : (a.set i b[i]).drop (i + 1) = a.drop (i + 1) := by rw [List.drop_set, if_pos (by omega)]
    have h4 : (b.set i a[i]).drop (i + 1) = b.drop (i + 1) := by rw [List.drop_set, if_pos (by omega)]
    rw [h1, h2, h3, h4]
    rw [List.append_assoc, List.append_assoc, List.singleton_append, List.singleton_append, ← List.drop_eq_getElem_cons hb,
      ← List.drop_eq_getElem_cons ha]

/-- C64: swap exchanges the two arrays. -/
theorem C64_swap (a b : List T) (h : a.length = b.length) : swap a b = .ok (b, a) := by
  unfold swap
  rw [swapLoop_spec _ 0 a b h (by omega)]
  simp

example : get_by_value [10, 11, 12, 13] 4 = .ok 12 ∧ get_by_value [10, 11, 12, 13] 1000 = .ok 13 ∧ get_by_value [10, 11, 12, 13] 1 = .ok 10 ∧
    get_by_value [10, 11, 12, 13] 0 = .ok 13 := by decide +kernel
example : 2 ^ 2 ≤ 4 ∧ 4 < 2 ^ (2 + 1) ∧ 4 < 2 ^ 64 ∧ index 8 4 = 2 := by decide +kernel
example : swap [1, 2, 3] [4, 5, 6] = .ok ([4, 5, 6], [1, 2, 3]) ∧ set_by_value [10, 11, 12, 13] 5 0 = .ok [10, 11, 0, 13] := by decide +kernel

end Verif.LogArray
