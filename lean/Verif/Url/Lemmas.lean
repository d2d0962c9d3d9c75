import Verif.Url.Model
import Verif.Url.Spec

set_option linter.unusedSimpArgs false
set_option linter.unusedVariables false

namespace Verif.Url
open Spec

/-! ### tables -/

theorem byte_all {P : UInt8 → Prop} (h : ∀ c : Fin 256, P (UInt8.ofNat c.val)) (c : UInt8) : P c := by
  have := h ⟨c.toNat, c.toNat_lt⟩
  simpa using this

theorem mustEnc_eq (c : UInt8) : mustEnc c = .ok (!unreserved c.toNat && decide (c ≠ 32)) := by
  revert c; apply byte_all; decide +kernel

theorem hex_hi (c : UInt8) : rd table_hexval (c >>> 4).toNat = .ok (hexU (c.toNat / 16)) := by
  revert c; apply byte_all; decide +kernel

theorem hex_lo (c : UInt8) : rd table_hexval (c &&& 0xf).toNat = .ok (hexU (c.toNat % 16)) := by
  revert c; apply byte_all; decide +kernel

theorem dec1_eq (c : UInt8) : dec1 c = .ok (UInt8.ofNat (hexv c)) := by
  revert c; apply byte_all; decide +kernel

theorem hexv_lt (c : UInt8) : hexv c < 16 := by
  revert c; apply byte_all; decide +kernel

theorem hexv_hexU (c : UInt8) : 16 * hexv (hexU (c.toNat / 16)) + hexv (hexU (c.toNat % 16)) = c.toNat := by
  revert c; apply byte_all; decide +kernel

theorem unreserved_ne (c : UInt8) : unreserved c.toNat = true → c ≠ 37 ∧ c ≠ 43 ∧ c ≠ 92 ∧ c ≠ 32 := by
  revert c; apply byte_all; decide +kernel

theorem dec2_eq (a b : UInt8) : dec2 a b = .ok (UInt8.ofNat (16 * hexv a + hexv b)) := by
  have ha := hexv_lt a
  have hb := hexv_lt b
  simp only [dec2, dec1_eq, Res.ok_bind]
  congr 2
  simp
  omega

theorem c32 (c : UInt8) : c = 32 ↔ c.toNat = 32 := by
  rw [← UInt8.toNat_inj]; rfl

/-! ### std::string variants -/

theorem urlencLoop_spec (rest : Buf) : ∀ (data dst : Buf),
    urlencLoop (data ++ rest) data.length dst = .ok (dst ++ data.flatMap enc) := by
  intro data
  induction data with
  | nil => intro dst; cases rest <;> simp [urlencLoop]
  | cons c data ih =>
    intro dst
    simp only [List.cons_append, List.length_cons, urlencLoop, mustEnc_eq, hex_hi, hex_lo, Res.ok_bind, ih,
      List.flatMap_cons, enc, c32]
    by_cases h1 : unreserved c.toNat
    · have := (unreserved_ne c h1).2.2.2
      rw [ne_eq, c32] at this
      simp [h1, this]
    · by_cases h2 : c = 32
      · subst h2
        have h3 : unreserved 32 = false := by decide
        simp [h3]
      · have h2' := h2
        rw [c32] at h2'
        simp [h1, h2, h2', pct]

theorem urlencNoplusLoop_spec (rest : Buf) : ∀ (data dst : Buf),
    urlencNoplusLoop (data ++ rest) data.length dst = .ok (dst ++ data.flatMap encNoplus) := by
  intro data
  induction data with
  | nil => intro dst; cases rest <;> simp [urlencNoplusLoop]
  | cons c data ih =>
    intro dst
    simp only [List.cons_append, List.length_cons, urlencNoplusLoop, mustEnc_eq, hex_hi, hex_lo, Res.ok_bind, ih,
      List.flatMap_cons, encNoplus, c32]
    by_cases h1 : unreserved c.toNat
    · have := (unreserved_ne c h1).2.2.2
      rw [ne_eq, c32] at this
      simp [h1, this]
    · by_cases h2 : c = 32
      · subst h2
        have h3 : unreserved 32 = false := by decide
        simp [h3, pct]
      · have h2' := h2
        rw [c32] at h2'
        simp [h1, h2, h2', pct]

theorem exists_dec : ∀ (k : Nat) (s : List UInt8), s.length ≤ k → ∃ t, Dec s t := by
  intro k
  induction k with
  | zero => intro s h; exact ⟨[], by rw [List.eq_nil_of_length_eq_zero (by omega : s.length = 0)]; exact .nil⟩
  | succ k ih =>
    intro s h
    cases s with
    | nil => exact ⟨[], .nil⟩
    | cons c s =>
      obtain ⟨t, ht⟩ := ih s (by simpa using h)
      by_cases h37 : c = 37
      · subst h37
        match s, h, ht with
        | [], _, ht => exact ⟨_, .short (by simp) ht⟩
        | [a], _, ht => exact ⟨_, .short (by simp) ht⟩
        | a :: b :: s', h, _ =>
          obtain ⟨t', ht'⟩ := ih s' (by simp at h; omega)
          exact ⟨_, .pct ht'⟩
      · by_cases h43 : c = 43
        · subst h43; exact ⟨_, .plus ht⟩
        · exact ⟨_, .other h37 h43 ht⟩

theorem dec_unique {s t t' : List UInt8} (h : Dec s t) (h' : Dec s t') : t = t' := by
  induction h generalizing t' with
  | nil => cases h'; rfl
  | plus _ ih =>
    cases h' with
    | plus h => rw [ih h]
    | other h1 h2 h => exact absurd rfl h2
  | pct _ ih =>
    cases h' with
    | pct h => rw [ih h]
    | short hl h => simp at hl; omega
    | other h1 h2 h => exact absurd rfl h1
  | short hl _ ih =>
    cases h' with
    | pct h => simp at hl; omega
    | short _ h => rw [ih h]
    | other h1 h2 h => exact absurd rfl h1
  | other h1 h2 _ ih =>
    cases h' with
    | plus h => exact absurd rfl h2
    | pct h => exact absurd rfl h1
    | short hl h => exact absurd rfl h1
    | other _ _ h => rw [ih h]

theorem dec_length {s t : List UInt8} (h : Dec s t) : t.length ≤ s.length := by
  induction h <;> simp <;> omega

theorem urldecLoop_cons (c : UInt8) (s : Buf) (n : Nat) (dst : Buf) : urldecLoop (c :: s) (n + 1) dst =
    if c = 37 ∧ n + 1 > 2 then
      match s with
      | a :: b :: s' => do
        let v ← dec2 a b
        urldecLoop s' (n - 2) (dst ++ [v])
      | _ => .ub
    else if c = 43 then urldecLoop s n (dst ++ [32])
    else urldecLoop s n (dst ++ [c]) := by rw [urldecLoop.eq_def]; rfl

theorem urldecBufLoop_cons (c : UInt8) (s : Buf) (n : Nat) (out : Buf) (o : Nat) :
    urldecBufLoop (c :: s) (n + 1) out o =
    (if c = 37 ∧ n + 1 > 2 then
      match s with
      | a :: b :: s' => do
        let v ← dec2 a b
        let out ← wr out o v
        urldecBufLoop s' (n - 2) out (o + 1)
      | _ => .ub
    else if c = 43 then do
      let out ← wr out o 32
      urldecBufLoop s n out (o + 1)
    else do
      let out ← wr out o c
      urldecBufLoop s n out (o + 1)) := by rw [urldecBufLoop.eq_def]; rfl

theorem urldecLoop_spec (rest : Buf) {data t : List UInt8} (h : Dec data t) : ∀ (dst : Buf),
    urldecLoop (data ++ rest) data.length dst = .ok (dst ++ t) := by
  induction h with
  | nil => intro dst; simp [urldecLoop]
  | plus _ ih => intro dst; simp only [List.cons_append, List.length_cons, urldecLoop_cons]; simp [ih]
  | @pct a b s t _ ih =>
    intro dst
    simp only [List.cons_append, List.length_cons, urldecLoop_cons]
    rw [if_pos ⟨trivial, by omega⟩, dec2_eq, Res.ok_bind, show s.length + 1 + 1 - 2 = s.length by omega, ih]
    simp
  | @short s t hl _ ih =>
    intro dst
    simp only [List.cons_append, List.length_cons, urldecLoop_cons]
    rw [if_neg (by simp; omega), if_neg (by decide), ih]
    simp
  | @other c s t h1 h2 _ ih =>
    intro dst
    simp only [List.cons_append, List.length_cons, urldecLoop_cons]
    rw [if_neg (by simp [h1]), if_neg h2, ih]
    simp

theorem dec_enc : ∀ data : List UInt8, Dec (data.flatMap enc) data := by
  intro data
  induction data with
  | nil => exact .nil
  | cons c data ih =>
    rw [List.flatMap_cons]
    unfold enc
    split
    · rename_i h
      have := unreserved_ne c h
      exact .other this.1 this.2.1 ih
    · split
      · rename_i h
        rw [← c32] at h
        subst h
        exact .plus ih
      · have := Dec.pct (a := hexU (c.toNat / 16)) (b := hexU (c.toNat % 16)) ih
        rw [hexv_hexU, UInt8.ofNat_toNat] at this
        exact this

theorem dec_encNoplus : ∀ data : List UInt8, Dec (data.flatMap encNoplus) data := by
  intro data
  induction data with
  | nil => exact .nil
  | cons c data ih =>
    rw [List.flatMap_cons]
    unfold encNoplus
    split
    · rename_i h
      have := unreserved_ne c h
      exact .other this.1 this.2.1 ih
    · have := Dec.pct (a := hexU (c.toNat / 16)) (b := hexU (c.toNat % 16)) ih
      rw [hexv_hexU, UInt8.ofNat_toNat] at this
      exact this

/-! ### buffer variants -/

theorem enc_length (c : UInt8) : 1 ≤ (enc c).length ∧ (enc c).length ≤ 3 := by
  unfold enc; split
  · simp
  · split <;> simp [pct]

theorem flatMap_enc_length (data : List UInt8) : (data.flatMap enc).length ≤ 3 * data.length := by
  induction data with
  | nil => simp
  | cons c data ih => have := enc_length c; simp only [List.flatMap_cons, List.length_append, List.length_cons]; omega

theorem patch_snoc_patch {b : Buf} {o : Nat} {e f : List UInt8} {k : Nat} (hk : k = o + e.length)
    (h : k ≤ b.length) : patch (patch b o e) k f = patch b o (e ++ f) := by
  subst hk; exact patch_patch h

theorem urlencBufLoop_spec (rest : Buf) : ∀ (data out : Buf) (o : Nat),
    o + (data.flatMap enc).length ≤ out.length →
    urlencBufLoop (data ++ rest) data.length out o
      = .ok (patch out o (data.flatMap enc), o + (data.flatMap enc).length) := by
  intro data
  induction data with
  | nil => intro out o _; cases rest <;> simp [urlencBufLoop]
  | cons c data ih =>
    intro out o ho
    simp only [List.flatMap_cons, List.length_append] at ho ⊢
    simp only [List.cons_append, List.length_cons, urlencBufLoop, mustEnc_eq, hex_hi, hex_lo, Res.ok_bind, c32]
    by_cases h1 : unreserved c.toNat
    · have h2 := (unreserved_ne c h1).2.2.2
      rw [ne_eq, c32] at h2
      have he : enc c = [c] := by simp [enc, h1]
      rw [he] at ho ⊢
      simp only [List.length_singleton] at ho ⊢
      have hw : wr out o c = .ok (patch out o [c]) := wr_eq (by omega)
      simp only [h1, h2, hw, Res.ok_bind, Bool.not_true, Bool.false_and, Bool.false_eq_true, if_false]
      rw [ih _ _ (by rw [patch_length (by simp; omega)]; omega), patch_snoc_patch (by simp) (by omega)]
      simp; omega
    · by_cases h2 : c.toNat = 32
      · have he : enc c = [43] := by rw [← c32] at h2; subst h2; decide
        rw [he] at ho ⊢
        simp only [List.length_singleton] at ho ⊢
        have hw : wr out o 43 = .ok (patch out o [43]) := wr_eq (by omega)
        have hd : decide (c ≠ 32) = false := by simp [c32, h2]
        simp only [h2, hw, hd, Res.ok_bind, Bool.and_false, Bool.false_eq_true, if_false, if_true]
        rw [ih _ _ (by rw [patch_length (by simp; omega)]; omega), patch_snoc_patch (by simp) (by omega)]
        simp; omega
      · have he : enc c = pct c := by simp [enc, h1, h2]
        rw [he] at ho ⊢
        simp only [pct, List.length_cons, List.length_nil] at ho ⊢
        have hw : wr out o 37 = .ok (patch out o [37]) := wr_eq (by omega)
        have hd : decide (c ≠ 32) = true := by simp [c32, h2]
        simp only [Bool.not_eq_true] at h1
        simp only [h1, hd, hw, Res.ok_bind, Bool.not_false, Bool.and_self, if_true]
        rw [wr_patch (by simp) (by omega), Res.ok_bind, wr_patch (by simp) (by omega), Res.ok_bind]
        rw [ih _ _ (by rw [patch_length (by simp; omega)]; omega), patch_snoc_patch (by simp) (by omega)]
        simp; omega

theorem urldecBufLoop_spec (rest : Buf) {data t : List UInt8} (h : Dec data t) : ∀ (out : Buf) (o : Nat),
    o + t.length ≤ out.length →
    urldecBufLoop (data ++ rest) data.length out o = .ok (patch out o t, o + t.length) := by
  induction h with
  | nil => intro out o _; simp [urldecBufLoop]
  | plus _ ih =>
    intro out o ho
    simp only [List.length_cons] at ho
    have hw : wr out o 32 = .ok (patch out o [32]) := wr_eq (by omega)
    simp only [List.cons_append, List.length_cons, urldecBufLoop_cons]
    rw [if_neg (by simp), if_pos (by first | trivial | rfl), hw, Res.ok_bind, ih _ _ (by rw [patch_length (by simp; omega)]; omega),
      patch_snoc_patch (by simp) (by omega)]
    simp; omega
  | @pct a b s t _ ih =>
    intro out o ho
    simp only [List.length_cons] at ho
    have hw : ∀ v, wr out o v = .ok (patch out o [v]) := fun v => wr_eq (by omega)
    simp only [List.cons_append, List.length_cons, urldecBufLoop_cons]
    rw [if_pos ⟨trivial, by omega⟩, dec2_eq, Res.ok_bind, hw, Res.ok_bind,
      show s.length + 1 + 1 - 2 = s.length by omega, ih _ _ (by rw [patch_length (by simp; omega)]; omega),
      patch_snoc_patch (by simp) (by omega)]
    simp; omega
  | @short s t hl _ ih =>
    intro out o ho
    simp only [List.length_cons] at ho
    have hw : wr out o 37 = .ok (patch out o [37]) := wr_eq (by omega)
    simp only [List.cons_append, List.length_cons, urldecBufLoop_cons]
    rw [if_neg (by simp; omega), if_neg (by decide), hw, Res.ok_bind, ih _ _ (by rw [patch_length (by simp; omega)]; omega),
      patch_snoc_patch (by simp) (by omega)]
    simp; omega
  | @other c s t h1 h2 _ ih =>
    intro out o ho
    simp only [List.length_cons] at ho
    have hw : wr out o c = .ok (patch out o [c]) := wr_eq (by omega)
    simp only [List.cons_append, List.length_cons, urldecBufLoop_cons]
    rw [if_neg (by simp [h1]), if_neg h2, hw, Res.ok_bind, ih _ _ (by rw [patch_length (by simp; omega)]; omega),
      patch_snoc_patch (by simp) (by omega)]
    simp; omega

theorem rd_of_drop {m l : Buf} {i k : Nat} {c : UInt8} (h : m.drop i = l) (hl : l[k]? = some c) :
    rd m (i + k) = .ok c := by
  rw [rd_ok_iff, ← hl, ← h, List.getElem?_drop]

theorem drop_patch {m : Buf} {o i j : Nat} {v : UInt8} (h : o ≤ i) (hi : i < m.length) (hj : i < j) :
    (patch m o [v]).drop j = m.drop j := by
  unfold patch
  have e : (m.take o ++ [v]).length = o + 1 := by simp; omega
  rw [show j = (m.take o ++ [v]).length + (j - (o + 1)) by rw [e]; omega, List.drop_append, List.drop_drop, e]
  rw [List.drop_of_length_le (by rw [e]; omega)]
  simp
  try (congr 1; omega)

theorem urldecAliasLoop_succ (m : Buf) (i n o : Nat) : urldecAliasLoop m i (n + 1) o = (do
    let c ← rd m i
    if c = 37 ∧ n + 1 > 2 then
      match n with
      | n' + 2 => do
        let a ← rd m (i + 1)
        let b ← rd m (i + 2)
        let v ← dec2 a b
        let m ← wr m o v
        urldecAliasLoop m (i + 3) n' (o + 1)
      | _ => .ub
    else if c = 43 then do
      let m ← wr m o 32
      urldecAliasLoop m (i + 1) n (o + 1)
    else do
      let m ← wr m o c
      urldecAliasLoop m (i + 1) n (o + 1)) := by rw [urldecAliasLoop.eq_def]; rfl

theorem urldecAliasLoop_spec {data t : List UInt8} (h : Dec data t) : ∀ (m rest : Buf) (i o : Nat),
    m.drop i = data ++ rest → i + data.length ≤ m.length → o ≤ i →
    urldecAliasLoop m i data.length o = .ok (patch m o t, o + t.length) := by
  induction h with
  | nil => intro m rest i o _ _ _; simp [urldecAliasLoop]
  | @plus s t hs ih =>
    intro m rest i o hm hi ho
    have hl := dec_length hs
    simp only [List.length_cons] at hi
    have hw : wr m o 32 = .ok (patch m o [32]) := wr_eq (by omega)
    have hr := rd_of_drop (k := 0) hm (by simp; rfl)
    have hm' : m.drop (i + 1) = s ++ rest := by rw [← List.drop_drop, hm]; rfl
    rw [Nat.add_zero] at hr
    simp only [List.length_cons, urldecAliasLoop_succ, hr, Res.ok_bind]
    rw [if_neg (by simp), if_pos (by first | trivial | rfl), hw, Res.ok_bind, ih _ rest _ _
      (by rw [drop_patch ho (by omega) (by omega), hm']) (by rw [patch_length (by simp; omega)]; omega) (by omega),
      patch_snoc_patch (by simp) (by omega)]
    simp; omega
  | @pct a b s t hs ih =>
    intro m rest i o hm hi ho
    have hl := dec_length hs
    simp only [List.length_cons] at hi
    have hw : ∀ v, wr m o v = .ok (patch m o [v]) := fun v => wr_eq (by omega)
    have hr := rd_of_drop (k := 0) hm (by simp; rfl)
    have hr1 := rd_of_drop (k := 1) hm (by simp; rfl)
    have hr2 := rd_of_drop (k := 2) hm (by simp; rfl)
    have hm' : m.drop (i + 3) = s ++ rest := by rw [← List.drop_drop, hm]; rfl
    rw [Nat.add_zero] at hr
    simp only [List.length_cons, urldecAliasLoop_succ, hr, hr1, hr2, Res.ok_bind]
    rw [if_pos ⟨trivial, by omega⟩, dec2_eq, Res.ok_bind, hw, Res.ok_bind, ih _ rest _ _
      (by rw [drop_patch (i := i) ho (by omega) (by omega), hm']) (by rw [patch_length (by simp; omega)]; omega) (by omega),
      patch_snoc_patch (by simp) (by omega)]
    simp; omega
  | @short s t hsl hs ih =>
    intro m rest i o hm hi ho
    have hl := dec_length hs
    simp only [List.length_cons] at hi
    have hw : wr m o 37 = .ok (patch m o [37]) := wr_eq (by omega)
    have hr := rd_of_drop (k := 0) hm (by simp; rfl)
    have hm' : m.drop (i + 1) = s ++ rest := by rw [← List.drop_drop, hm]; rfl
    rw [Nat.add_zero] at hr
    simp only [List.length_cons, urldecAliasLoop_succ, hr, Res.ok_bind]
    rw [if_neg (by simp; omega), if_neg (by decide), hw, Res.ok_bind, ih _ rest _ _
      (by rw [drop_patch ho (by omega) (by omega), hm']) (by rw [patch_length (by simp; omega)]; omega) (by omega),
      patch_snoc_patch (by simp) (by omega)]
    simp; omega
  | @other c s t h1 h2 hs ih =>
    intro m rest i o hm hi ho
    have hl := dec_length hs
    simp only [List.length_cons] at hi
    have hw : wr m o c = .ok (patch m o [c]) := wr_eq (by omega)
    have hr := rd_of_drop (k := 0) hm (by simp; rfl)
    have hm' : m.drop (i + 1) = s ++ rest := by rw [← List.drop_drop, hm]; rfl
    rw [Nat.add_zero] at hr
    simp only [List.length_cons, urldecAliasLoop_succ, hr, Res.ok_bind]
    rw [if_neg (by simp [h1]), if_neg h2, hw, Res.ok_bind, ih _ rest _ _
      (by rw [drop_patch ho (by omega) (by omega), hm']) (by rw [patch_length (by simp; omega)]; omega) (by omega),
      patch_snoc_patch (by simp) (by omega)]
    simp; omega

end Verif.Url
