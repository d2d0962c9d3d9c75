import Verif.Capacity.Spec
/-
  Property C197: estimate_capacity and the memory of the C++ library.
-/
set_option linter.unusedSimpArgs false
set_option linter.unusedVariables false

namespace Verif.Capacity

open Spec

theorem heaps_zero (els : List V) : heaps els = 0 ↔ ∀ v ∈ els, heap v = 0 := by
  induction els with
  | nil => simp [heaps]
  | cons v els ih => simp [heaps, ih]

theorem heaps_pos (els : List V) : 0 < heaps els ↔ ∃ v ∈ els, 0 < heap v := by
  induction els with
  | nil => simp [heaps]
  | cons v els ih =>
    simp only [heaps, List.mem_cons, exists_eq_or_imp, ← ih]
    omega

/-- **C197, in part: the estimate is exact** for numbers, pointers, and vectors whose elements have nothing on the heap (numbers, short strings).  Missing: everything else (the refutations below: none of
it has an exact estimate, except vectors of bool without room). -/
theorem C197_exact_partial (v : V) (h : match v with | .plain _ => True | .vec _ _ _ els => ∀ x ∈ els, heap x = 0 | _ => False) : estimate_capacity v = memory v := by
  cases v with
  | plain size => simp [estimate_capacity, memory, self, heap]
  | str size elem loc cap => exact h.elim
  | vec size elem cap els =>
    have := (heaps_zero els).mpr h
    simp only [estimate_capacity, memory, self, heap, this]
    omega
  | bits size cap => exact h.elim

/-- **C197 is false for all strings**: a string that lies in its object is counted twice; for a longer one the terminator is forgotten. -/
theorem C197_refuted_string (size elem loc cap : Nat) (h : Good (.str size elem loc cap)) :
    estimate_capacity (.str size elem loc cap) ≠ memory (.str size elem loc cap) ∧
    (cap = loc → estimate_capacity (.str size elem loc cap) = memory (.str size elem loc cap) + loc * elem) ∧
    (loc < cap → estimate_capacity (.str size elem loc cap) + elem = memory (.str size elem loc cap)) := by
  obtain ⟨h1, h2, h3, h4⟩ := h
  have h5 : 0 < loc * elem := Nat.mul_pos h2 h1
  simp only [estimate_capacity, memory, self, heap]
  rcases Nat.lt_or_eq_of_le h3 with hlt | rfl
  · rw [if_neg (by omega), Nat.add_mul, Nat.one_mul]
    exact ⟨by omega, by omega, fun _ => by omega⟩
  · rw [if_pos (Nat.le_refl _)]
    exact ⟨by omega, fun _ => by omega, by omega⟩

/-- **C197: how far off the estimate of a string is**: by less than twice, and by one element at most if it is too low. -/
theorem C197_string_bounds (size elem loc cap : Nat) (h : Good (.str size elem loc cap)) :
    estimate_capacity (.str size elem loc cap) < 2 * memory (.str size elem loc cap) ∧ memory (.str size elem loc cap) ≤ estimate_capacity (.str size elem loc cap) + elem := by
  obtain ⟨g1, g2, g3⟩ := C197_refuted_string size elem loc cap h
  obtain ⟨h1, h2, h3, h4⟩ := h
  rw [Nat.add_mul, Nat.one_mul] at h4
  have hm : size ≤ memory (.str size elem loc cap) := by simp only [memory, self]; omega
  rcases Nat.lt_or_eq_of_le h3 with hlt | e
  · have := g3 hlt
    exact ⟨by omega, by omega⟩
  · have := g2 e.symm
    exact ⟨by omega, by omega⟩

/-- **C197 is false for vectors of bool**: their elements are counted eight times. -/
theorem C197_refuted_bits (size cap : Nat) (h : Good (.bits size cap)) :
    estimate_capacity (.bits size cap) - size = 8 * (memory (.bits size cap) - size) ∧ (0 < cap → memory (.bits size cap) < estimate_capacity (.bits size cap)) := by
  have h : cap % 64 = 0 := h
  simp only [estimate_capacity, memory, self, heap]
  exact ⟨by omega, fun _ => by omega⟩

/-- **C197 is false for vectors with an element that has something on the heap**, and for no other vectors: the estimate is too low by just that. -/
theorem C197_refuted_vector (size elem cap : Nat) (els : List V) :
    estimate_capacity (.vec size elem cap els) + heaps els = memory (.vec size elem cap els) ∧
    (estimate_capacity (.vec size elem cap els) < memory (.vec size elem cap els) ↔ ∃ x ∈ els, 0 < heap x) := by
  rw [← heaps_pos]
  simp only [estimate_capacity, memory, self, heap]
  exact ⟨by omega, by omega⟩

/-- **C197: no bound**: for every number n there is a vector of one string whose estimate is less than its memory by more than n. -/
theorem C197_refuted_unbounded (n : Nat) : ∃ v, Good v ∧ estimate_capacity v + n < memory v := by
  refine ⟨.vec 24 32 1 [.str 32 1 15 (n + 16)], ⟨by decide, by simp, ⟨by decide, by decide, by omega, by decide⟩, trivial⟩, ?_⟩
  simp only [estimate_capacity, memory, self, heap, heaps]
  rw [if_neg (by omega)]
  omega

/-- libstdc++ on x86-64: the empty std::string takes 32 bytes and is estimated at 47; a string of 16 characters (capacity 30) takes 63 and is estimated at 62; a vector<bool> of 64 elements takes
48 bytes and is estimated at 104. -/
example : Good (.str 32 1 15 15) ∧ memory (.str 32 1 15 15) = 32 ∧ estimate_capacity (.str 32 1 15 15) = 47 ∧ memory (.str 32 1 15 30) = 63 ∧ estimate_capacity (.str 32 1 15 30) = 62 ∧
    Good (.bits 40 64) ∧ memory (.bits 40 64) = 48 ∧ estimate_capacity (.bits 40 64) = 104 := by
  refine ⟨⟨by decide, by decide, by decide, by decide⟩, ?_⟩
  simp [memory, self, heap, estimate_capacity, Good]

/-- A vector of two short strings: exact. -/
example : estimate_capacity (.vec 24 32 2 [.str 32 1 15 15, .str 32 1 15 15]) = 88 ∧ memory (.vec 24 32 2 [.str 32 1 15 15, .str 32 1 15 15]) = 88 := by
  simp [memory, self, heap, heaps, estimate_capacity]

end Verif.Capacity
