import Verif.Vietnam.Lemmas
set_option linter.unusedSimpArgs false
set_option linter.unusedVariables false

namespace Verif.Vietnam

/-! ### C71: bounds -/

/-- C71: nothing outside of the first `sz` bytes is read, and the result is not longer than `sz`. -/
theorem C71_bounds (b : Buf) (sz : Nat) (h : sz ≤ b.length) :
    ∃ out, coda_remove_tones_utf8 b sz = .ok out ∧ out.length ≤ sz ∧ coda_remove_tones_utf8 (b.take sz) sz = .ok out := by
  refine ⟨strip (b.take sz), remove_eq b sz h, ?_, ?_⟩
  · have := strip_length _ (b.take sz) (Nat.le_refl _)
    simp at this; omega
  · rw [remove_eq _ _ (by simp; omega), List.take_take, Nat.min_self]

/-- The result depends on the first `sz` bytes only. -/
theorem C71_local (b c : Buf) (sz : Nat) (hb : sz ≤ b.length) (hc : sz ≤ c.length) (h : b.take sz = c.take sz) :
    coda_remove_tones_utf8 b sz = coda_remove_tones_utf8 c sz := by
  rw [remove_eq b sz hb, remove_eq c sz hc, h]

/-- C71: ASCII text is returned unchanged. -/
theorem C71_ascii (s r : List UInt8) (h : ∀ c ∈ s, c < 0x80) : coda_remove_tones_utf8 (s ++ r) s.length = .ok s := by
  rw [remove_eq _ _ (by simp), List.take_left']
  · congr 1
    induction s with
    | nil => simp [strip]
    | cons a s ih =>
      rw [strip_ascii (h a (by simp)), ih (fun c hc => h c (by simp [hc]))]
  · rfl

/-- ASCII text in front of any other bytes is copied, too. -/
theorem C71_prefix (s r : List UInt8) (h : ∀ c ∈ s, c < 0x80) :
    ∃ out, coda_remove_tones_utf8 r r.length = .ok out ∧ coda_remove_tones_utf8 (s ++ r) (s ++ r).length = .ok (s ++ out) := by
  refine ⟨strip r, by rw [remove_eq _ _ (Nat.le_refl _), List.take_length], ?_⟩
  rw [remove_eq _ _ (Nat.le_refl _), List.take_length]
  congr 1
  induction s with
  | nil => rfl
  | cons a s ih =>
    rw [List.cons_append, strip_ascii (h a (by simp)), ih (fun c hc => h c (by simp [hc]))]; rfl

/-! ### C72: characters -/

theorem cases_table : cases = table.map (fun e => (e.1.toList.map Char.toNat, UInt8.ofNat e.2.toNat)) := by decide +kernel

theorem toNat_inj {a b : Char} (h : a.toNat = b.toNat) : a = b := Char.ext (UInt32.toNat.inj h)

theorem contains_map (l : List Char) (c : Char) : (l.map Char.toNat).contains c.toNat = l.contains c := by
  induction l with
  | nil => rfl
  | cons a l ih =>
    rw [List.map_cons, List.contains_cons, List.contains_cons, ih]
    congr 1
    by_cases h : c = a
    · rw [h, beq_self_eq_true, beq_self_eq_true]
    · rw [beq_eq_false_iff_ne.2 h, beq_eq_false_iff_ne.2 (fun e => h (toNat_inj e))]

theorem letter_char (c : Char) :
    letter c.toNat = (table.find? (fun e => e.1.toList.contains c)).map (fun e => UInt8.ofNat e.2.toNat) := by
  unfold letter
  rw [cases_table, List.find?_map]
  have : (fun c' : List Nat × UInt8 => c'.1.contains c.toNat) ∘ (fun e : String × Char => (e.1.toList.map Char.toNat, UInt8.ofNat e.2.toNat))
      = fun e : String × Char => e.1.toList.contains c := by
    funext e; exact contains_map _ _
  rw [this, Option.map_map]; rfl

theorem and1F (x : Nat) (h : x < 32) : (UInt8.ofNat (x + 0xc0) &&& 0x1F).toNat = x := by
  have : ∀ x : Fin 32, (UInt8.ofNat (x.val + 0xc0) &&& 0x1F).toNat = x.val := by decide +kernel
  exact this ⟨x, h⟩
theorem and3F (x : Nat) (h : x < 64) : (UInt8.ofNat (x + 0x80) &&& 0x3F).toNat = x := by
  have : ∀ x : Fin 64, (UInt8.ofNat (x.val + 0x80) &&& 0x3F).toNat = x.val := by decide +kernel
  exact this ⟨x, h⟩
theorem and0F (x : Nat) (h : x < 16) : (UInt8.ofNat (x + 0xe0) &&& 0x0F).toNat = x := by
  have : ∀ x : Fin 16, (UInt8.ofNat (x.val + 0xe0) &&& 0x0F).toNat = x.val := by decide +kernel
  exact this ⟨x, h⟩
theorem and07 (x : Nat) (h : x < 8) : (UInt8.ofNat (x + 0xf0) &&& 0x07).toNat = x := by
  have : ∀ x : Fin 8, (UInt8.ofNat (x.val + 0xf0) &&& 0x07).toNat = x.val := by decide +kernel
  exact this ⟨x, h⟩
theorem need2 (x : Nat) (h : x < 32) : need (UInt8.ofNat (x + 0xc0)) = 2 ∧ ¬ UInt8.ofNat (x + 0xc0) < 0x80 := by
  have : ∀ x : Fin 32, need (UInt8.ofNat (x.val + 0xc0)) = 2 ∧ ¬ UInt8.ofNat (x.val + 0xc0) < 0x80 := by decide +kernel
  exact this ⟨x, h⟩
theorem need3 (x : Nat) (h : x < 16) : need (UInt8.ofNat (x + 0xe0)) = 3 ∧ ¬ UInt8.ofNat (x + 0xe0) < 0x80 := by
  have : ∀ x : Fin 16, need (UInt8.ofNat (x.val + 0xe0)) = 3 ∧ ¬ UInt8.ofNat (x.val + 0xe0) < 0x80 := by decide +kernel
  exact this ⟨x, h⟩
theorem need4 (x : Nat) (h : x < 8) : need (UInt8.ofNat (x + 0xf0)) = 4 ∧ ¬ UInt8.ofNat (x + 0xf0) < 0x80 := by
  have : ∀ x : Fin 8, need (UInt8.ofNat (x.val + 0xf0)) = 4 ∧ ¬ UInt8.ofNat (x.val + 0xf0) < 0x80 := by decide +kernel
  exact this ⟨x, h⟩

/-- A complete sequence with a code other than 0. -/
theorem strip_append {a : UInt8} {r u : List UInt8} (h : ¬ a < 0x80) (hn : r.length + 1 = need a) (hz : val (a :: r) ≠ 0) :
    strip (a :: r ++ u) = out (a :: r) ++ strip u := by
  have ht : (a :: (r ++ u)).take (need a) = a :: r := by
    rw [← hn]; simp
  have hd : (a :: (r ++ u)).drop (need a) = u := by
    rw [← hn]; simp
  rw [List.cons_append, strip_seq h (by simp; omega) (by rw [ht]; exact hz), ht, hd]

/-- The UTF-8 sequence of a character beyond ASCII. -/
theorem enc_spec (c : Char) (h : ¬ c.toNat ≤ 0x7f) :
    ∃ a r, String.utf8EncodeChar c = a :: r ∧ ¬ a < 0x80 ∧ r.length + 1 = need a ∧ val (a :: r) = c.toNat := by
  have hlt : c.toNat < 0x110000 := by
    have := c.valid
    simp only [UInt32.isValidChar, Nat.isValidChar] at this
    show c.val.toNat < _
    omega
  have h' : ¬ c.val.toNat ≤ 0x7f := h
  unfold String.utf8EncodeChar
  simp only []
  rw [if_neg h']
  change c.val.toNat < _ at hlt
  show ∃ a r, _ ∧ _ ∧ _ ∧ _ = c.val.toNat
  generalize c.val.toNat = v at *
  by_cases h2 : v ≤ 0x7ff
  · rw [if_pos h2]
    obtain ⟨n1, n2⟩ := need2 (v / 64 % 32) (by omega)
    refine ⟨_, _, rfl, n2, by rw [n1]; rfl, ?_⟩
    simp only [val, val2]
    rw [and1F _ (by omega), and3F _ (by omega)]; omega
  · rw [if_neg h2]
    by_cases h3 : v ≤ 0xffff
    · rw [if_pos h3]
      obtain ⟨n1, n2⟩ := need3 (v / 4096 % 16) (by omega)
      refine ⟨_, _, rfl, n2, by rw [n1]; rfl, ?_⟩
      simp only [val, val3]
      rw [and0F _ (by omega), and3F _ (by omega), and3F _ (by omega)]; omega
    · rw [if_neg h3]
      obtain ⟨n1, n2⟩ := need4 (v / 262144 % 8) (by omega)
      refine ⟨_, _, rfl, n2, by rw [n1]; rfl, ?_⟩
      simp only [val, val4]
      rw [and07 _ (by omega), and3F _ (by omega), and3F _ (by omega), and3F _ (by omega)]; omega

theorem table_high : ∀ e ∈ table, ∀ c ∈ e.1.toList, 0x7f < c.toNat := by decide +kernel
theorem table_low : ∀ e ∈ table, e.2.toNat ≤ 0x7f := by decide +kernel

theorem plain_ascii (c : Char) (h : c.toNat ≤ 0x7f) : plain c = [c] := by
  unfold plain
  rw [if_neg (by simp [isMark]; omega)]
  have : table.find? (fun e => e.1.toList.contains c) = none := by
    rw [List.find?_eq_none]
    intro e he hc
    have := table_high e he c (by simpa using hc)
    omega
  rw [this]

theorem enc_ascii (c : Char) (h : c.toNat ≤ 0x7f) : String.utf8EncodeChar c = [UInt8.ofNat c.toNat] := by
  unfold String.utf8EncodeChar
  simp only []
  rw [if_pos (show c.val.toNat ≤ 0x7f from h)]; rfl

theorem out_char (c : Char) (t : List UInt8) (he : String.utf8EncodeChar c = t) (hv : val t = c.toNat) : out t = utf8 (plain c) := by
  unfold out plain
  rw [hv, letter_char]
  by_cases hm : 0x300 ≤ c.toNat ∧ c.toNat ≤ 0x36F
  · rw [if_pos hm, if_pos (by simp [isMark]; exact hm)]; rfl
  · rw [if_neg hm, if_neg (by simp [isMark]; omega)]
    match hf : table.find? (fun e => e.1.toList.contains c) with
    | none => simp only [hf, Option.map_none, utf8, List.flatMap_cons, List.flatMap_nil, List.append_nil, he]
    | some e =>
      have := table_low e (List.mem_of_find?_eq_some hf)
      simp only [hf, Option.map_some, utf8, List.flatMap_cons, List.flatMap_nil, List.append_nil, enc_ascii _ this]

theorem strip_char (c : Char) (u : List UInt8) : strip (String.utf8EncodeChar c ++ u) = utf8 (plain c) ++ strip u := by
  by_cases h : c.toNat ≤ 0x7f
  · rw [plain_ascii c h]
    simp only [utf8, List.flatMap_cons, List.flatMap_nil, List.append_nil, enc_ascii c h]
    have h8 : UInt8.ofNat c.toNat < 0x80 := by
      have : ∀ x : Fin 128, UInt8.ofNat x.val < 0x80 := by decide +kernel
      exact this ⟨c.toNat, by omega⟩
    rw [List.singleton_append, strip_ascii h8]; rfl
  · obtain ⟨a, r, he, h8, hn, hv⟩ := enc_spec c h
    rw [he, strip_append h8 hn (by rw [hv]; omega), out_char c (a :: r) he hv]

/-- C72: on well-formed UTF-8 the result is the UTF-8 of the text in which each character is replaced by itself without tones: nothing for a
combining mark, the base letter for a Vietnamese letter, itself otherwise. -/
theorem C72_characters (t : List Char) (r : List UInt8) :
    coda_remove_tones_utf8 (utf8 t ++ r) (utf8 t).length = .ok (utf8 (t.flatMap plain)) := by
  rw [remove_eq _ _ (by simp), List.take_left' rfl]
  congr 1
  induction t with
  | nil => simp [utf8, strip]
  | cons c t ih =>
    have h1 : utf8 (c :: t) = String.utf8EncodeChar c ++ utf8 t := by simp [utf8]
    have h2 : utf8 ((c :: t).flatMap plain) = utf8 (plain c) ++ utf8 (t.flatMap plain) := by simp [utf8]
    rw [h1, h2, strip_char, ih]

theorem strip_utf8 (t : List Char) (u : List UInt8) : strip (utf8 t ++ u) = utf8 (t.flatMap plain) ++ strip u := by
  induction t with
  | nil => simp [utf8]
  | cons c t ih =>
    have h1 : utf8 (c :: t) = String.utf8EncodeChar c ++ utf8 t := by simp [utf8]
    have h2 : utf8 ((c :: t).flatMap plain) = utf8 (plain c) ++ utf8 (t.flatMap plain) := by simp [utf8]
    rw [h1, h2, List.append_assoc, strip_char, ih, List.append_assoc]

/-- A character that is cut at the end of the text is kept byte by byte, and what comes before it is treated as usual. -/
theorem C72_truncated (t : List Char) (c : Char) (k : Nat) (hk : k < (String.utf8EncodeChar c).length) :
    coda_remove_tones_utf8 (utf8 t ++ (String.utf8EncodeChar c).take k) (utf8 t ++ (String.utf8EncodeChar c).take k).length
      = .ok (utf8 (t.flatMap plain) ++ (String.utf8EncodeChar c).take k) := by
  rw [remove_eq _ _ (Nat.le_refl _), List.take_length, strip_utf8]
  congr 2
  match k, hk with
  | 0, _ => simp [strip]
  | k + 1, hk =>
    by_cases h : c.toNat ≤ 0x7f
    · rw [enc_ascii c h] at hk; simp at hk
    · obtain ⟨a, r, he, h8, hn, hv⟩ := enc_spec c h
      rw [he] at hk ⊢
      simp at hk
      rw [List.take_succ_cons, strip_cut h8 (by simp; omega)]

/-- The result has no combining marks and none of the letters of the table. -/
theorem C72_result_plain (t : List Char) (c : Char) (h : c ∈ t.flatMap plain) : plain c = [c] := by
  rw [List.mem_flatMap] at h
  obtain ⟨d, _, hd⟩ := h
  unfold plain at hd
  split at hd
  · simp at hd
  · rename_i hm
    split at hd
    · rename_i e he
      simp only [List.mem_singleton] at hd
      rw [hd]; exact plain_ascii _ (table_low e (List.mem_of_find?_eq_some he))
    · rename_i hn
      simp only [List.mem_singleton] at hd
      subst hd
      unfold plain
      rw [if_neg hm, hn]

/-- Texts are treated character by character: the result of a concatenation is the concatenation of the results. -/
theorem C72_concat (t u : List Char) :
    ∃ a b, coda_remove_tones_utf8 (utf8 t) (utf8 t).length = .ok a ∧ coda_remove_tones_utf8 (utf8 u) (utf8 u).length = .ok b ∧
      coda_remove_tones_utf8 (utf8 (t ++ u)) (utf8 (t ++ u)).length = .ok (a ++ b) := by
  have k := fun t => C72_characters t []
  simp only [List.append_nil] at k
  refine ⟨_, _, k t, k u, ?_⟩
  rw [k]; simp [utf8]

example : coda_remove_tones_utf8 (utf8 ['à', 'b'] ++ [0xE1, 0xBA]) 5 = .ok [97, 98, 0xE1, 0xBA] := by decide +kernel
example : utf8 "Đà Nẵng".toList = [0xC4, 0x90, 0xC3, 0xA0, 32, 78, 0xE1, 0xBA, 0xB5, 110, 103] := by decide +kernel
example : "Đà Nẵng".toList.flatMap plain = "Da Nang".toList := by decide +kernel
example : (['a', Char.ofNat 0x301, 'ж'] : List Char).flatMap plain = ['a', 'ж'] := by decide +kernel
example : coda_remove_tones_utf8 [0xC4, 0x90, 0xC3, 0xA0, 32, 78, 0xE1, 0xBA, 0xB5, 110, 103] 11 = .ok [68, 97, 32, 78, 97, 110, 103] := by decide +kernel

/-! ### C73: idempotence -/

theorem flatMap_self (t : List Char) (h : ∀ c ∈ t, plain c = [c]) : t.flatMap plain = t := by
  induction t with
  | nil => rfl
  | cons c t ih => rw [List.flatMap_cons, h c (by simp), ih (fun d hd => h d (by simp [hd]))]; rfl

/-- C73 on well-formed UTF-8. -/
theorem C73_utf8_partial (t : List Char) :
    ∃ a, coda_remove_tones_utf8 (utf8 t) (utf8 t).length = .ok a ∧ coda_remove_tones_utf8 a a.length = .ok a := by
  have k := fun t => C72_characters t []
  simp only [List.append_nil] at k
  refine ⟨_, k t, ?_⟩
  rw [k, flatMap_self _ (C72_result_plain t)]

theorem seqLen_eq (a : UInt8) (h : ¬ a < 0x80) : seqLen a = need a := by
  have : ∀ x : Fin 256, ¬ UInt8.ofNat x.val < 0x80 → seqLen (UInt8.ofNat x.val) = need (UInt8.ofNat x.val) := by decide +kernel
  have := this ⟨a.toNat, a.toNat_lt⟩
  simp at this
  exact this (by simpa using h)

theorem and3F_mod (a : UInt8) : (a &&& 0x3F).toNat = a.toNat % 64 := by
  have : ∀ x : Fin 256, (UInt8.ofNat x.val &&& 0x3F).toNat = x.val % 64 := by decide +kernel
  have := this ⟨a.toNat, a.toNat_lt⟩
  simpa using this
theorem and1F_mod (a : UInt8) : (a &&& 0x1F).toNat = a.toNat % 32 := by
  have : ∀ x : Fin 256, (UInt8.ofNat x.val &&& 0x1F).toNat = x.val % 32 := by decide +kernel
  have := this ⟨a.toNat, a.toNat_lt⟩
  simpa using this
theorem and0F_mod (a : UInt8) : (a &&& 0x0F).toNat = a.toNat % 16 := by
  have : ∀ x : Fin 256, (UInt8.ofNat x.val &&& 0x0F).toNat = x.val % 16 := by decide +kernel
  have := this ⟨a.toNat, a.toNat_lt⟩
  simpa using this
theorem and07_mod (a : UInt8) : (a &&& 0x07).toNat = a.toNat % 8 := by
  have : ∀ x : Fin 256, (UInt8.ofNat x.val &&& 0x07).toNat = x.val % 8 := by decide +kernel
  have := this ⟨a.toNat, a.toNat_lt⟩
  simpa using this

theorem zero_iff (a : UInt8) (r : List UInt8) (h : ¬ a < 0x80) (hl : r.length + 1 = seqLen a) (hz : val (a :: r) = 0) : isZero (a :: r) = true := by
  unfold seqLen at hl
  simp only [isZero]
  by_cases h4 : 0xF0 ≤ a
  · rw [if_pos h4] at hl ⊢
    match r, hl with
    | [b, c, d], _ =>
      simp only [val, val4, and3F_mod, and07_mod] at hz
      simp; omega
  · rw [if_neg h4] at hl ⊢
    by_cases h3 : 0xE0 ≤ a
    · rw [if_pos h3] at hl ⊢
      match r, hl with
      | [b, c], _ =>
        simp only [val, val3, and3F_mod, and0F_mod] at hz
        simp; omega
    · rw [if_neg h3] at hl ⊢
      match r, hl with
      | [b], _ =>
        simp only [val, val2, and3F_mod, and1F_mod] at hz
        simp; omega

theorem strip_idem : ∀ (fuel : Nat) (l : List UInt8), l.length ≤ fuel → hasZero fuel l = false → strip (strip l) = strip l := by
  intro fuel
  induction fuel with
  | zero => intro l h _; have : l = [] := List.length_eq_zero_iff.1 (by omega); subst this; simp [strip]
  | succ n ih =>
    intro l h hz
    match l with
    | [] => simp [strip]
    | a :: r =>
      simp only [List.length_cons] at h
      have hn2 := need_pos a
      simp only [hasZero] at hz
      by_cases h8 : a < 0x80
      · rw [if_pos h8] at hz
        rw [strip_ascii h8, strip_ascii h8, ih r (by omega) hz]
      · rw [if_neg h8] at hz
        have hse := seqLen_eq a h8
        by_cases hn : r.length + 1 < need a
        · rw [strip_cut h8 hn, strip_cut h8 hn]
        · rw [if_neg (by omega), hse, Bool.or_eq_false_iff] at hz
          obtain ⟨hz1, hz2⟩ := hz
          have hlen : ((a :: r).take (need a)).length = need a := by simp; omega
          obtain ⟨q, hq⟩ : ∃ q, (a :: r).take (need a) = a :: q := by
            have : need a = (need a - 1) + 1 := by omega
            rw [this, List.take_succ_cons]; exact ⟨_, rfl⟩
          have hql : q.length + 1 = need a := by rw [hq] at hlen; simpa using hlen
          have hz3 : ¬ val ((a :: r).take (need a)) = 0 := by
            intro e
            rw [hq] at e hz1
            rw [zero_iff a q h8 (by omega) e] at hz1
            simp at hz1
          have hi := ih ((a :: r).drop (need a)) (by simp; omega) hz2
          rw [strip_seq h8 hn hz3]
          rw [hq] at hz3 ⊢
          by_cases hm : 0x0300 ≤ val (a :: q) ∧ val (a :: q) ≤ 0x036F
          · have : out (a :: q) = [] := by unfold out; rw [if_pos hm]
            rw [this]; exact hi
          · match hl : letter (val (a :: q)) with
            | some x =>
              have : out (a :: q) = [x] := by unfold out; rw [if_neg hm, hl]
              rw [this, List.singleton_append, strip_ascii (letter_ascii hl), hi]
            | none =>
              have : out (a :: q) = a :: q := by unfold out; rw [if_neg hm, hl]
              rw [this, strip_append h8 hql hz3, this, hi]

/-- C73, partial: applying the function twice is the same as applying it once for every byte string, well-formed or not, in which no complete
multi-byte sequence encodes 0.  Missing: the byte strings with such a sequence, for which it is false. -/
theorem C73_idempotent_partial (s : List UInt8) (h : hasZero s.length s = false) :
    ∃ a, coda_remove_tones_utf8 s s.length = .ok a ∧ coda_remove_tones_utf8 a a.length = .ok a := by
  refine ⟨strip s, by rw [remove_eq _ _ (Nat.le_refl _), List.take_length], ?_⟩
  rw [remove_eq _ _ (Nat.le_refl _), List.take_length, strip_idem _ s (Nat.le_refl _) h]

/-- C73 is false: after an overlong NUL the rest is copied with its tones, which the second run removes. -/
theorem C73_refuted :
    coda_remove_tones_utf8 [0xC0, 0x80, 0xC3, 0x80] 4 = .ok [0xC3, 0x80] ∧ coda_remove_tones_utf8 [0xC3, 0x80] 2 = .ok [65] := by decide +kernel

/-- C73 is false for all byte strings in which an overlong NUL stands behind any text, if what follows has anything to remove. -/
theorem C73_refuted_all (t : List Char) (rest r : List UInt8) (h : coda_remove_tones_utf8 rest rest.length = .ok r) (hr : r ≠ rest) :
    ∃ a b, coda_remove_tones_utf8 (utf8 t ++ 0xC0 :: 0x80 :: rest) (utf8 t ++ 0xC0 :: 0x80 :: rest).length = .ok a ∧ coda_remove_tones_utf8 a a.length = .ok b ∧ a ≠ b := by
  have hz : strip (0xC0 :: 0x80 :: rest) = rest := by
    have n2 : need 0xC0 = 2 := by decide
    have v0 : val [0xC0, 0x80] = 0 := by decide
    rw [strip]
    simp only [n2, List.take_succ_cons, List.take_zero, v0, if_true, List.drop_succ_cons, List.drop_zero]
    rw [if_neg (by decide), if_neg (by simp)]
  have hs : r = strip rest := by
    rw [remove_eq _ _ (Nat.le_refl _), List.take_length] at h
    injection h with h
    exact h.symm
  refine ⟨utf8 (t.flatMap plain) ++ rest, utf8 (t.flatMap plain) ++ r, ?_, ?_, ?_⟩
  · rw [remove_eq _ _ (Nat.le_refl _), List.take_length, strip_utf8, hz]
  · rw [remove_eq _ _ (Nat.le_refl _), List.take_length, strip_utf8, flatMap_self _ (C72_result_plain t), hs]
  · intro e
    exact hr (List.append_cancel_left e).symm

/-- malformed input without such a sequence: stray continuation bytes, a mark, a truncated sequence at the end -/
example : hasZero 9 [0xC3, 0x83, 0x85, 0x85, 0xCC, 0x81, 97, 0xE1, 0xBA] = false := by decide +kernel
example : coda_remove_tones_utf8 [0xC3, 0x83, 0x85, 0x85, 0xCC, 0x81, 97, 0xE1, 0xBA] 9 = .ok [65, 0x85, 0x85, 97, 0xE1, 0xBA] := by decide +kernel
example : hasZero 4 [0xC0, 0x80, 0xC3, 0x80] = true := by decide +kernel

end Verif.Vietnam
