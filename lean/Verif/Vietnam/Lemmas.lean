import Verif.Vietnam.Model
import Verif.Vietnam.Spec
set_option linter.unusedSimpArgs false
set_option linter.unusedVariables false

namespace Verif.Vietnam

/-! The code as a function on the bytes that are left. -/

def val2 (a b : UInt8) : Nat := (a &&& 0x1F).toNat * 64 + (b &&& 0x3F).toNat
def val3 (a b c : UInt8) : Nat := (a &&& 0x0F).toNat * 4096 + (b &&& 0x3F).toNat * 64 + (c &&& 0x3F).toNat
def val4 (a b c d : UInt8) : Nat :=
  (a &&& 0x07).toNat * 262144 + (b &&& 0x3F).toNat * 4096 + (c &&& 0x3F).toNat * 64 + (d &&& 0x3F).toNat

/-- Length of the sequence that starts with `a` (at least 0x80). -/
def need (a : UInt8) : Nat := if a &&& 0xF0 = 0xF0 then 4 else if a &&& 0xF0 = 0xE0 then 3 else 2

/-- Its code. -/
def val (t : List UInt8) : Nat :=
  match t with
  | [a, b] => val2 a b
  | [a, b, c] => val3 a b c
  | [a, b, c, d] => val4 a b c d
  | _ => 0

/-- What is written for a complete sequence whose code is not 0. -/
def out (t : List UInt8) : List UInt8 :=
  if 0x0300 ≤ val t ∧ val t ≤ 0x036F then []
  else match letter (val t) with
    | some l => [l]
    | none => t

theorem need_pos (a : UInt8) : 2 ≤ need a := by
  unfold need; split
  · omega
  · split <;> omega

def strip : List UInt8 → List UInt8
  | [] => []
  | a :: r =>
    if a < 0x80 then a :: strip r
    else if r.length + 1 < need a then a :: r
    else
      let t := (a :: r).take (need a)
      let u := (a :: r).drop (need a)
      if val t = 0 then u else out t ++ strip u
termination_by l => l.length
decreasing_by
  · simp
  · have := need_pos a
    simp [List.length_drop]; omega

theorem strip_ascii {a : UInt8} {r : List UInt8} (h : a < 0x80) : strip (a :: r) = a :: strip r := by
  rw [strip, if_pos h]

theorem strip_cut {a : UInt8} {r : List UInt8} (h : ¬ a < 0x80) (hn : r.length + 1 < need a) : strip (a :: r) = a :: r := by
  rw [strip, if_neg h, if_pos hn]

theorem strip_zero {a : UInt8} {r : List UInt8} (h : ¬ a < 0x80) (hn : ¬ r.length + 1 < need a)
    (hz : val ((a :: r).take (need a)) = 0) : strip (a :: r) = (a :: r).drop (need a) := by
  rw [strip, if_neg h, if_neg hn]; simp only [hz, if_true]

theorem strip_seq {a : UInt8} {r : List UInt8} (h : ¬ a < 0x80) (hn : ¬ r.length + 1 < need a)
    (hz : ¬ val ((a :: r).take (need a)) = 0) :
    strip (a :: r) = out ((a :: r).take (need a)) ++ strip ((a :: r).drop (need a)) := by
  rw [strip, if_neg h, if_neg hn]; simp only [hz, if_false]

theorem copy_eq (b : Buf) : ∀ n p result, p + n ≤ b.length → copy b n p result = .ok (result ++ (b.drop p).take n) := by
  intro n
  induction n with
  | zero => intro p r _; simp [copy]
  | succ n ih =>
    intro p r h
    have hp : p < b.length := by omega
    simp only [copy, rd_eq hp, Res.ok_bind]
    rw [ih (p + 1) _ (by omega), List.append_assoc, List.drop_eq_getElem_cons hp]
    rfl

theorem part_eq (b : Buf) (p : Nat) (m : UInt8) (s : Nat) (h : p < b.length) : part b p m s = .ok ((b[p] &&& m).toNat * 2^s) := by
  simp only [part, rd_eq h, Res.ok_bind]

theorem take2 (b : Buf) (p : Nat) (h : p + 1 < b.length) : (b.drop p).take 2 = [b[p], b[p+1]] := by
  rw [List.drop_eq_getElem_cons (by omega), List.drop_eq_getElem_cons (i := p + 1) (by omega)]; rfl
theorem take3 (b : Buf) (p : Nat) (h : p + 2 < b.length) : (b.drop p).take 3 = [b[p], b[p+1], b[p+2]] := by
  rw [List.drop_eq_getElem_cons (by omega), List.drop_eq_getElem_cons (i := p + 1) (by omega), List.drop_eq_getElem_cons (i := p + 1 + 1) (by omega)]; rfl
theorem take4 (b : Buf) (p : Nat) (h : p + 3 < b.length) : (b.drop p).take 4 = [b[p], b[p+1], b[p+2], b[p+3]] := by
  rw [List.drop_eq_getElem_cons (by omega), List.drop_eq_getElem_cons (i := p + 1) (by omega), List.drop_eq_getElem_cons (i := p + 1 + 1) (by omega),
    List.drop_eq_getElem_cons (i := p + 1 + 1 + 1) (by omega)]; rfl

/-- The sequence at `p`. -/
theorem decode_eq (b : Buf) (p e : Nat) (he : e ≤ b.length) (hp : p < e) :
    decode b p e (b[p]'(by omega)) =
      if e - p < need (b[p]'(by omega)) then .ok (0, p, 0)
      else .ok (val ((b.drop p).take (need (b[p]'(by omega)))), p + need (b[p]'(by omega)), need (b[p]'(by omega))) := by
  have hb : p < b.length := by omega
  unfold decode need
  by_cases h1 : b[p] &&& 0xF0 = 0xF0
  · simp only [h1, if_true]
    by_cases h : p + 3 < e
    · rw [if_pos h, if_neg (by omega), part_eq b p _ _ hb, part_eq b (p+1) _ _ (by omega), part_eq b (p+2) _ _ (by omega),
        part_eq b (p+3) _ _ (by omega)]
      rw [take4 b p (by omega)]
      simp [val, val4]
    · rw [if_neg h, if_pos (by omega)]
  · rw [if_neg h1, if_neg h1]
    by_cases h2 : b[p] &&& 0xF0 = 0xE0
    · simp only [h2, if_true]
      by_cases h : p + 2 < e
      · rw [if_pos h, part_eq b p _ _ hb, part_eq b (p+1) _ _ (by omega), part_eq b (p+2) _ _ (by omega)]
        rw [if_neg (by omega)]
        rw [take3 b p (by omega)]
        simp [val, val3]
      · rw [if_neg h, if_pos (by omega)]
    · simp only [h2, if_false]
      by_cases h : p + 1 < e
      · rw [if_pos h, part_eq b p _ _ hb, part_eq b (p+1) _ _ (by omega)]
        rw [if_neg (by omega)]
        rw [take2 b p (by omega)]
        simp [val, val2]
      · rw [if_neg h, if_pos (by omega)]

theorem drop_take_cons (b : Buf) (p e : Nat) (he : e ≤ b.length) (hp : p < e) :
    (b.take e).drop p = (b[p]'(by omega)) :: (b.take e).drop (p + 1) := by
  rw [List.drop_eq_getElem_cons (by simp; omega)]
  simp

theorem loop_eq (b : Buf) (e : Nat) (he : e ≤ b.length) :
    ∀ fuel p result, p ≤ e → e - p < fuel → loop b e fuel p result = .ok (result ++ strip ((b.take e).drop p)) := by
  intro fuel
  induction fuel with
  | zero => intro p r _ h; omega
  | succ fuel ih =>
    intro p r hpe hf
    by_cases hp : p < e
    · have hb : p < b.length := by omega
      rw [loop, if_pos hp]
      simp only [rd_eq hb, Res.ok_bind]
      rw [drop_take_cons b p e he hp]
      by_cases h8 : b[p] < 0x80
      · rw [if_pos h8, ih (p + 1) _ (by omega) (by omega), strip_ascii h8, List.append_assoc]; rfl
      · rw [if_neg h8, decode_eq b p e he hp]
        have hl : ((b.take e).drop (p + 1)).length + 1 = e - p := by simp; omega
        have hn2 := need_pos b[p]
        by_cases hn : e - p < need b[p]
        · rw [if_pos hn, strip_cut h8 (by omega)]
          simp only [Res.ok_bind]
          rw [if_neg (by omega)]
          simp only [emit, if_true]
          rw [copy_eq b _ _ _ (by omega)]
          simp only [Res.ok_bind]
          rw [ih e _ (by omega) (by omega)]
          rw [← drop_take_cons b p e he hp]
          simp [strip]
          rw [List.drop_take]
        · rw [if_neg hn]
          simp only [Res.ok_bind]
          have ht : (b.drop p).take (need b[p]) = (b[p] :: (b.take e).drop (p + 1)).take (need b[p]) := by
            rw [← drop_take_cons b p e he hp, List.drop_take, List.take_take]; congr 1; omega
          have hd : (b[p] :: (b.take e).drop (p + 1)).drop (need b[p]) = (b.take e).drop (p + need b[p]) := by
            rw [← drop_take_cons b p e he hp, List.drop_drop]
          rw [ht]
          by_cases hz : val ((b[p] :: (b.take e).drop (p + 1)).take (need b[p])) = 0
          · rw [strip_zero h8 (by omega) hz]
            rw [hz, if_neg (by omega)]
            simp only [emit, if_true]
            rw [copy_eq b _ _ _ (by omega)]
            simp only [Res.ok_bind]
            rw [ih e _ (by omega) (by omega), hd]
            simp [strip]
            rw [List.drop_take]
          · rw [strip_seq h8 (by omega) hz]
            by_cases hm : 0x0300 ≤ val ((b[p] :: (b.take e).drop (p + 1)).take (need b[p])) ∧
                val ((b[p] :: (b.take e).drop (p + 1)).take (need b[p])) ≤ 0x036F
            · rw [if_pos hm, ih _ _ (by omega) (by omega), hd]
              unfold out; rw [if_pos hm]; rfl
            · rw [if_neg hm]
              unfold out; rw [if_neg hm]
              simp only [emit]
              rw [if_neg hz]
              match hl : letter (val ((b[p] :: (b.take e).drop (p + 1)).take (need b[p]))) with
              | some l =>
                simp only [Res.ok_bind]
                rw [ih _ _ (by omega) (by omega), hd, List.append_assoc]
              | none =>
                simp only []
                rw [Nat.add_sub_cancel, copy_eq b _ _ _ (by omega)]
                simp only [Res.ok_bind]
                rw [ih _ _ (by omega) (by omega), hd, List.append_assoc, ht]
    · rw [loop, if_neg hp]
      have : p = e := by omega
      subst this
      simp [strip]

theorem remove_eq (b : Buf) (sz : Nat) (h : sz ≤ b.length) : coda_remove_tones_utf8 b sz = .ok (strip (b.take sz)) := by
  rw [coda_remove_tones_utf8, loop_eq b sz h _ 0 [] (by omega) (by omega)]; simp

/-! Lengths -/

theorem letter_ascii {n : Nat} {l : UInt8} (h : letter n = some l) : l < 0x80 := by
  unfold letter at h
  match hf : cases.find? (fun c => c.1.contains n) with
  | none => rw [hf] at h; simp at h
  | some e =>
    rw [hf] at h
    simp at h
    have hm := List.mem_of_find?_eq_some hf
    have : ∀ e ∈ cases, e.2 < 0x80 := by decide +kernel
    rw [← h]; exact this e hm

theorem out_length (t : List UInt8) (h : t ≠ []) : (out t).length ≤ t.length := by
  have := List.length_pos_iff.2 h
  unfold out; split
  · simp
  · split
    · simp; omega
    · exact Nat.le_refl _

theorem strip_length : ∀ (n : Nat) (l : List UInt8), l.length ≤ n → (strip l).length ≤ l.length := by
  intro n
  induction n with
  | zero => intro l h; have : l = [] := List.length_eq_zero_iff.1 (by omega); subst this; simp [strip]
  | succ n ih =>
    intro l h
    match l with
    | [] => simp [strip]
    | a :: r =>
      simp only [List.length_cons] at h
      have hn2 := need_pos a
      by_cases h8 : a < 0x80
      · rw [strip_ascii h8]; have := ih r (by omega); simp; omega
      · by_cases hn : r.length + 1 < need a
        · rw [strip_cut h8 hn]; exact Nat.le_refl _
        · by_cases hz : val ((a :: r).take (need a)) = 0
          · rw [strip_zero h8 hn hz]; simp
          · rw [strip_seq h8 hn hz, List.length_append]
            have h1 := out_length ((a :: r).take (need a)) (by
              intro he; have := congrArg List.length he; simp at this; omega)
            have h2 := ih ((a :: r).drop (need a)) (by simp; omega)
            simp at h1 h2 ⊢; omega

end Verif.Vietnam
