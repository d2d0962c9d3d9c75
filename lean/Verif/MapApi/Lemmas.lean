import Verif.MapApi.Spec
import Verif.ShmMap.Props
/-
  Helper lemmas for C110–C115.
-/
set_option linter.unusedVariables false
set_option linter.unusedSimpArgs false

namespace Verif.MapApi

open Verif.ShmPool Verif.ShmMap

variable {V : Type}

/-! ## layout -/

theorem up_le (x : Nat) : x ≤ (x + 1023) / 1024 * 1024 := by omega
theorem up_lt (x : Nat) : (x + 1023) / 1024 * 1024 ≤ x + 1023 := by omega

theorem floor1024_eq {x : Nat} (h : x + 1023 < 2 ^ 32) : floor1024 x = (x + 1023) / 1024 * 1024 := by
  unfold floor1024
  rw [Nat.mod_eq_of_lt (by omega : x < 2 ^ 32), Nat.mod_eq_of_lt h]

theorem toInt_eq {x : Nat} (h : x < 2 ^ 31) : toInt x = x := by
  unfold toInt
  rw [if_pos h]

theorem headerSize_eq : headerSize = 1024 := by decide

theorem stacksSize_eq {p : Params} (h : 4 * p.N + 1023 < 2 ^ 31) : stacksSize p = ((4 * p.N + 1023) / 1024 * 1024 : Nat) := by
  unfold stacksSize
  rw [floor1024_eq (by omega), toInt_eq (by omega)]

theorem dataSize_eq {p : Params} (h : p.nsz * p.N + 1023 < 2 ^ 31) : dataSize p = ((p.nsz * p.N + 1023) / 1024 * 1024 : Nat) := by
  unfold dataSize
  generalize p.nsz * p.N = x at *
  rw [floor1024_eq (by omega), toInt_eq (by omega)]

theorem required_aux (X Y H : Nat) (h1 : H < 2 ^ 31) (h : X + Y + 1024 < 2 ^ 31) :
    (if (1024 : Int) + (Y : Int) < 2 ^ 31 ∧ -(2 ^ 31) ≤ (1024 : Int) + (Y : Int) ∧ (1024 : Int) + (Y : Int) + (X : Int) < 2 ^ 31 ∧ -(2 ^ 31) ≤ (1024 : Int) + (Y : Int) + (X : Int) then
      Res.ok ((((1024 : Int) + (Y : Int) + (X : Int) + 4 * (H : Int)) % 2 ^ 64).toNat) else .ub) = Res.ok (1024 + Y + X + 4 * H) := by
  rw [if_pos (by refine ⟨?_, ?_, ?_, ?_⟩ <;> omega), Int.emod_eq_of_lt (by omega) (by omega)]
  congr 1

theorem required_eq {p : Params} (h1 : p.H < 2 ^ 31) (h : 4 * p.N + p.nsz * p.N + 3070 < 2 ^ 31) : required_space p = .ok (Spec.bytes p) := by
  have e1 := stacksSize_eq (p := p) (by omega)
  have e2 := dataSize_eq (p := p) (by omega)
  have a := up_lt (p.nsz * p.N)
  have b := up_lt (4 * p.N)
  unfold required_space Spec.bytes
  rw [headerSize_eq, e1, e2]
  exact required_aux _ _ _ h1 (by omega)

/-! ## attach -/

theorem applyA_append (s : Seg V) (a b : List AWr) : applyA s (a ++ b) = applyA (applyA s a) b := by
  unfold applyA; rw [List.foldl_append]

theorem applyA_cons (s : Seg V) (w : AWr) (ws : List AWr) : applyA s (w :: ws) = applyA (w.apply s) ws := rfl
theorem applyA_nil (s : Seg V) : applyA s [] = s := rfl

theorem applyA_hash (n : Nat) (s : Seg V) :
    applyA s ((List.range n).map (fun i => AWr.hash i NONE)) = { s with hash := fun i => if i < n then NONE else s.hash i } := by
  induction n with
  | zero => simp [applyA]
  | succ n ih =>
    rw [List.range_succ, List.map_append, applyA_append, ih]
    simp only [applyA, List.map_cons, List.map_nil, List.foldl_cons, List.foldl_nil, AWr.apply]
    congr 1
    funext i
    unfold put
    dsimp only
    by_cases h : i = n
    · rw [if_pos h, if_pos (by omega)]
    · rw [if_neg h]
      by_cases h' : i < n
      · rw [if_pos h', if_pos (by omega)]
      · rw [if_neg h', if_neg (by omega)]

/-- attach with all its writes is the attach of the map model. -/
theorem attachWrites_all (p : Params) (s : Seg V) :
    (applyA s (attachWrites p s).1, (attachWrites p s).2) = ShmMap.attach p.N p.H p.tsz p.nsz s := by
  rcases s with ⟨on, is, hs, ⟨pr, pi, pc, ⟨fr, fi, st⟩⟩, k, v, n, h⟩
  unfold attachWrites headWrites ShmMap.attach pattach sattach stkWrites poolWrites
  dsimp only
  by_cases h1 : on = 0 ∧ is = 0 ∧ hs = 0
  · simp only [h1, and_self, if_true]
    by_cases h2 : fr = 0 ∧ fi = 0 <;>
    by_cases h3 : pr = 0 ∧ pi = 0 <;>
    by_cases h5 : p.N ≠ fr ∨ 4 ≠ fi <;>
    by_cases h4 : p.N ≠ pr ∨ p.nsz ≠ pi <;>
    simp only [h2, h3, h5, h4, if_true, if_false, decide_true, decide_false, Bool.false_eq_true, List.append_nil, applyA_append, applyA_cons, applyA_nil, applyA_hash, AWr.apply, and_self]
  · by_cases h6 : p.N ≠ on ∨ p.tsz ≠ is ∨ p.H ≠ hs
    · simp only [h1, h6, if_true, if_false, decide_true, applyA_nil]
    · by_cases h2 : fr = 0 ∧ fi = 0 <;>
      by_cases h3 : pr = 0 ∧ pi = 0 <;>
      by_cases h5 : p.N ≠ fr ∨ 4 ≠ fi <;>
      by_cases h4 : p.N ≠ pr ∨ p.nsz ≠ pi <;>
      simp only [h1, h6, h2, h3, h5, h4, if_true, if_false, decide_true, decide_false, Bool.false_eq_true, List.append_nil, List.nil_append, applyA_append, applyA_cons, applyA_nil, AWr.apply, and_self]

end Verif.MapApi
