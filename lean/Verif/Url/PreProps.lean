/-
  C24, C109: which texts `coda_url_preunescape` keeps inside of the buffer, and what it makes of the texts that it garbles.
-/
import Verif.Url.UnescProps

set_option linter.unusedSimpArgs false
set_option linter.unusedVariables false

namespace Verif.Url
open Spec (CString Pre hexDigit hexv)

theorem pre_byte {a b : UInt8} (ha : isxdigit a = true) (hb : isxdigit b = true) :
    UInt8.ofNat (xval a * 16 + xval b) = UInt8.ofNat (16 * hexv a + hexv b) ∧ ((UInt8.ofNat (16 * hexv a + hexv b) ≥ 128) ↔ 128 ≤ 16 * hexv a + hexv b) := by
  have := xval_lt ha; have := xval_lt hb
  rw [xval_eq ha] at *; rw [xval_eq hb] at *
  refine ⟨by rw [Nat.mul_comm], ?_⟩
  rw [ge_iff_le, UInt8.le_iff_toNat_le, UInt8.toNat_ofNat']
  show 128 ≤ _ % 256 ↔ _
  rw [Nat.mod_eq_of_lt (by omega)]

theorem pre_stop (fuel : Nat) (s dest : Buf) (ptr sz : Nat) (hs : s ≠ []) (h : ¬ ptr < sz + 5) : preLoop (fuel + 1) s dest ptr sz = .ok (dest, ptr) := by
  cases s with
  | nil => exact absurd rfl hs
  | cons c s => simp only [preLoop]; rw [if_pos (Or.inr h)]

theorem pre_high (fuel : Nat) (s dest : Buf) (ptr sz : Nat) {a b : UInt8} (ha : hexDigit a = true) (hb : hexDigit b = true) (hv : 128 ≤ 16 * hexv a + hexv b) (hl : ptr < sz + 5) :
    preLoop (fuel + 1) (37 :: a :: b :: s) dest ptr sz = (wr dest ptr (UInt8.ofNat (16 * hexv a + hexv b)) >>= fun d => preLoop fuel s d (ptr + 1) sz) := by
  rw [hexDigit_eq] at ha hb
  obtain ⟨e, g⟩ := pre_byte ha hb
  simp only [preLoop, hl, not_true, or_false, if_true, two, rd_cons_zero, rd_cons_succ, ha, hb, Res.ok_bind, xnum, e, List.drop_succ_cons, List.drop_zero]
  rw [if_neg (by decide), if_pos (g.mpr hv)]

theorem pre_low (fuel : Nat) (s dest : Buf) (ptr sz : Nat) {a b : UInt8} (ha : hexDigit a = true) (hb : hexDigit b = true) (hv : 16 * hexv a + hexv b < 128) (hl : ptr < sz + 5) :
    preLoop (fuel + 1) (37 :: a :: b :: s) dest ptr sz =
      ((if ptr + 4 < sz then wrs dest ptr [37, a, b] else .ok dest : Res Buf) >>= fun d => preLoop fuel s d (ptr + 3) sz) := by
  rw [hexDigit_eq] at ha hb
  obtain ⟨e, g⟩ := pre_byte ha hb
  simp only [preLoop, hl, not_true, or_false, if_true, two, rd_cons_zero, rd_cons_succ, ha, hb, Res.ok_bind, xnum, e, List.drop_succ_cons, List.drop_zero,
    List.take_succ_cons, List.take_zero]
  rw [if_neg (by decide), if_neg (by rw [g]; omega)]

theorem pre_hex (fuel : Nat) (s dest : Buf) (ptr sz : Nat) {a b : UInt8} (ha : hexDigit a = true) (hb : hexDigit b = true) (hl : ptr < sz + 5) :
    preLoop (fuel + 1) (92 :: 120 :: a :: b :: s) dest ptr sz =
      if 128 ≤ 16 * hexv a + hexv b then (wr dest ptr (UInt8.ofNat (16 * hexv a + hexv b)) >>= fun d => preLoop fuel s d (ptr + 1) sz)
      else ((if ptr + 3 < sz then wrs dest ptr [92, 120, a, b] else .ok dest : Res Buf) >>= fun d => preLoop fuel s d ptr sz) := by
  rw [hexDigit_eq] at ha hb
  obtain ⟨e, g⟩ := pre_byte ha hb
  have e1 : ((92 : UInt8) = 0 ∨ ¬ ptr < sz + 5) = False := by simp only [hl, not_true, or_false]; decide
  have e3 : ((92 : UInt8) = 37) = False := by decide
  simp only [preLoop, e1, e3, if_false, Res.ok_bind, Bool.false_eq_true, if_true, isX, List.tail_cons, two, rd_cons_zero, rd_cons_succ, ha, hb, xnum, e,
    List.drop_succ_cons, List.drop_zero, List.take_succ_cons, List.take_zero]
  by_cases hv : 128 ≤ 16 * hexv a + hexv b
  · rw [if_pos hv, if_pos (g.mpr hv)]
  · rw [if_neg hv, if_neg (by rw [g]; exact hv)]

theorem pre_other (fuel : Nat) (s dest : Buf) (ptr sz : Nat) {c : UInt8} (hc : c ≠ 0) (h1 : c = 37 → two s = .ok false) (h2 : c = 92 → isX s = .ok false) (hl : ptr < sz + 5) :
    preLoop (fuel + 1) (c :: s) dest ptr sz = (wr dest ptr c >>= fun d => preLoop fuel s d (ptr + 1) sz) := by
  have e1 : (if c = 37 then two s else .ok false : Res Bool) = .ok false := by
    split
    · rename_i h; exact h1 h
    · rfl
  have e3 : (if c = 92 then isX s else .ok false : Res Bool) = .ok false := by
    split
    · rename_i h; exact h2 h
    · rfl
  simp only [preLoop, hc, hl, not_true, or_self, if_false, e1, e3, Res.ok_bind, Bool.false_eq_true]

/-- A character after which no escape that began before it can go on. -/
def Ends (d : UInt8) : Prop := isxdigit d = false ∧ d ≠ 120

theorem two_ends (s tl : Buf) {d : UInt8} (hd : Ends d) : two (s ++ d :: tl) = .ok (Spec.two s) := by
  have z := hd.1
  match s with
  | [] => simp [two, Spec.two, z]
  | [a] => cases h : isxdigit a <;> simp [two, Spec.two, z, h]
  | a :: b :: s => cases h : isxdigit a <;> simp [two, Spec.two, hexDigit_eq, h]

theorem isX_ends (s tl : Buf) {d : UInt8} (hd : Ends d) : isX (s ++ d :: tl) = .ok (match s with | 120 :: s' => Spec.two s' | _ => false) := by
  match s with
  | [] => simp [isX, hd.2]
  | a :: s =>
    by_cases h : a = 120
    · subst h; simp [isX, two_ends s tl hd]
    · simp [isX, h]

theorem other_ends {c : UInt8} {s tl : Buf} {d : UInt8} (hd : Ends d) (h37 : c = 37 → Spec.two s = false) (h92 : c = 92 → ∀ s', s = 120 :: s' → Spec.two s' = false) :
    (c = 37 → two (s ++ d :: tl) = .ok false) ∧ (c = 92 → isX (s ++ d :: tl) = .ok false) := by
  refine ⟨fun h => by rw [two_ends _ _ hd, h37 h], fun h => ?_⟩
  rw [isX_ends _ _ hd]
  have := h92 h
  split
  · rename_i s'; rw [this s' rfl]
  · rfl

/-- The loop up to the end of a text that is followed by `d`. -/
theorem pre_prefix (d : UInt8) (tl : Buf) (hd : Ends d) (sz : Nat) {cs t : Buf} (h : Pre cs t) : (∀ c ∈ cs, c ≠ 0) → ∀ (fuel : Nat) (dest : Buf) (ptr : Nat),
    (cs ++ d :: tl).length ≤ fuel → dest.length = sz → ptr + t.length + 1 < sz →
    ∃ f, (d :: tl).length ≤ f ∧ preLoop fuel (cs ++ d :: tl) dest ptr sz = preLoop f (d :: tl) (patch dest ptr t) (ptr + t.length) sz := by
  have go : ∀ (e t s : Buf) (fuel ptr : Nat) (dest : Buf), dest.length = sz → ptr + (e ++ t).length + 1 < sz →
      (∀ (dest : Buf) (ptr : Nat), dest.length = sz → ptr + t.length + 1 < sz →
        ∃ f, (d :: tl).length ≤ f ∧ preLoop fuel s dest ptr sz = preLoop f (d :: tl) (patch dest ptr t) (ptr + t.length) sz) →
      ∃ f, (d :: tl).length ≤ f ∧ preLoop fuel s (patch dest ptr e) (ptr + e.length) sz = preLoop f (d :: tl) (patch dest ptr (e ++ t)) (ptr + (e ++ t).length) sz := by
    intro e t s fuel ptr dest hd hp H
    rw [List.length_append] at hp
    obtain ⟨f, h1, h2⟩ := H (patch dest ptr e) (ptr + e.length) (by rw [patch_length (by omega), hd]) (by omega)
    exact ⟨f, h1, by rw [h2, patch_patch (by omega), List.length_append, Nat.add_assoc]⟩
  induction h with
  | nil => intro _ fuel dest ptr hf _ _; exact ⟨fuel, hf, by simp⟩
  | @high a b s t ha hb hv h ih =>
    intro hnz fuel dest ptr hf hd hp
    cases fuel with
    | zero => simp at hf
    | succ fuel =>
      simp only [List.cons_append]
      rw [pre_high fuel _ dest ptr sz ha hb hv (by omega), wr_eq (by omega), Res.ok_bind]
      exact go [UInt8.ofNat (16 * hexv a + hexv b)] t _ fuel ptr dest hd hp (fun dest ptr => ih (fun c hc => hnz c (by simp [hc])) fuel dest ptr (by simp at hf ⊢; omega))
  | @low a b s t ha hb hv h ih =>
    intro hnz fuel dest ptr hf hd hp
    simp only [List.length_cons] at hp
    cases fuel with
    | zero => simp at hf
    | succ fuel =>
      simp only [List.cons_append]
      rw [pre_low fuel _ dest ptr sz ha hb hv (by omega), if_pos (by omega), wrs_spec _ _ _ (by simp only [List.length_cons, List.length_nil]; omega), Res.ok_bind]
      exact go [37, a, b] t _ fuel ptr dest hd (by simp only [List.length_append, List.length_cons, List.length_nil]; omega) (fun dest ptr => ih (fun c hc => hnz c (by simp [hc])) fuel dest ptr (by simp at hf ⊢; omega))
  | @hex a b s t ha hb hv h ih =>
    intro hnz fuel dest ptr hf hd hp
    cases fuel with
    | zero => simp at hf
    | succ fuel =>
      simp only [List.cons_append]
      rw [pre_hex fuel _ dest ptr sz ha hb (by omega), if_pos hv, wr_eq (by omega), Res.ok_bind]
      exact go [UInt8.ofNat (16 * hexv a + hexv b)] t _ fuel ptr dest hd hp (fun dest ptr => ih (fun c hc => hnz c (by simp [hc])) fuel dest ptr (by simp at hf ⊢; omega))
  | @other c s t h37 h92 h ih =>
    intro hnz fuel dest ptr hf hd' hp
    cases fuel with
    | zero => simp at hf
    | succ fuel =>
      simp only [List.cons_append]
      obtain ⟨g1, g2⟩ := other_ends (tl := tl) hd h37 h92
      rw [pre_other fuel _ dest ptr sz (hnz c (by simp)) g1 g2 (by omega), wr_eq (by omega), Res.ok_bind]
      exact go [c] t _ fuel ptr dest hd' hp (fun dest ptr => ih (fun c hc => hnz c (by simp [hc])) fuel dest ptr (by simp at hf ⊢; omega))

theorem pre_end (f : Nat) (tl dest : Buf) (ptr sz : Nat) (h : (0 :: tl : Buf).length ≤ f) : preLoop f (0 :: tl) dest ptr sz = .ok (dest, ptr) := by
  cases f with
  | zero => simp at h
  | succ f => simp [preLoop]

theorem wrs_length : ∀ (vs : List UInt8) (b : Buf) (o : Nat) (b' : Buf), wrs b o vs = .ok b' → b'.length = b.length := by
  intro vs
  induction vs with
  | nil => intro b o b' h; cases h; rfl
  | cons v vs ih =>
    intro b o b' h
    simp only [wrs] at h
    by_cases hb : o < b.length
    · rw [wr_eq hb, Res.ok_bind] at h
      rw [ih _ _ _ h, patch_length (by simp; omega)]
    · rw [wr_ub (by omega)] at h; cases h

/-- Where the loop ends, for every length of the buffer. -/
theorem pre_len (tl : Buf) (sz : Nat) {cs t : Buf} (h : Pre cs t) : (∀ c ∈ cs, c ≠ 0) → ∀ (fuel : Nat) (dest : Buf) (ptr : Nat),
    (cs ++ 0 :: tl).length ≤ fuel → dest.length = sz →
    (ptr + t.length < sz → ∃ d, preLoop fuel (cs ++ 0 :: tl) dest ptr sz = .ok (d, ptr + t.length) ∧ d.length = sz) ∧
    (sz ≤ ptr + t.length → preLoop fuel (cs ++ 0 :: tl) dest ptr sz = .ub ∨ ∃ d p, preLoop fuel (cs ++ 0 :: tl) dest ptr sz = .ok (d, p) ∧ d.length = sz ∧ sz ≤ p) := by
  have hz : Ends 0 := ⟨by decide, by decide⟩
  have one : ∀ (c : UInt8) (s t : Buf) (fuel ptr : Nat) (dest : Buf), dest.length = sz →
      (∀ dest : Buf, dest.length = sz →
        (ptr + 1 + t.length < sz → ∃ d, preLoop fuel s dest (ptr + 1) sz = .ok (d, ptr + 1 + t.length) ∧ d.length = sz) ∧
        (sz ≤ ptr + 1 + t.length → preLoop fuel s dest (ptr + 1) sz = .ub ∨ ∃ d p, preLoop fuel s dest (ptr + 1) sz = .ok (d, p) ∧ d.length = sz ∧ sz ≤ p)) →
      (ptr + (t.length + 1) < sz → ∃ d, (wr dest ptr c >>= fun d => preLoop fuel s d (ptr + 1) sz) = .ok (d, ptr + (t.length + 1)) ∧ d.length = sz) ∧
      (sz ≤ ptr + (t.length + 1) → (wr dest ptr c >>= fun d => preLoop fuel s d (ptr + 1) sz) = .ub ∨
        ∃ d p, (wr dest ptr c >>= fun d => preLoop fuel s d (ptr + 1) sz) = .ok (d, p) ∧ d.length = sz ∧ sz ≤ p) := by
    intro c s t fuel ptr dest hd H
    by_cases hp : ptr < sz
    · rw [wr_eq (by omega), Res.ok_bind, show ptr + (t.length + 1) = ptr + 1 + t.length by omega]
      exact H _ (by rw [patch_length (by simp; omega), hd])
    · refine ⟨fun h => by omega, fun _ => Or.inl ?_⟩
      rw [wr_ub (by omega)]; rfl
  have far : ∀ (fuel : Nat) (s dest : Buf) (ptr n : Nat), s ≠ [] → dest.length = sz → ¬ ptr < sz + 5 →
      (ptr + n < sz → ∃ d, preLoop (fuel + 1) s dest ptr sz = .ok (d, ptr + n) ∧ d.length = sz) ∧
      (sz ≤ ptr + n → preLoop (fuel + 1) s dest ptr sz = .ub ∨ ∃ d p, preLoop (fuel + 1) s dest ptr sz = .ok (d, p) ∧ d.length = sz ∧ sz ≤ p) := by
    intro fuel s dest ptr n hs hd hl
    exact ⟨fun h => by omega, fun _ => Or.inr ⟨dest, ptr, pre_stop _ _ _ _ _ hs hl, hd, by omega⟩⟩
  induction h with
  | nil =>
    intro _ fuel dest ptr hf hd
    refine ⟨fun h => ⟨dest, pre_end _ _ _ _ _ hf, hd⟩, fun h => Or.inr ⟨dest, ptr, pre_end _ _ _ _ _ hf, hd, h⟩⟩
  | @high a b s t ha hb hv h ih =>
    intro hnz fuel dest ptr hf hd
    cases fuel with
    | zero => simp at hf
    | succ fuel =>
      by_cases hl : ptr < sz + 5
      · simp only [List.cons_append, List.length_cons]
        rw [pre_high fuel _ dest ptr sz ha hb hv hl]
        exact one _ _ t fuel ptr dest hd (fun dest hd => ih (fun c hc => hnz c (by simp [hc])) fuel dest (ptr + 1) (by simp at hf ⊢; omega) hd)
      · exact far _ _ _ _ _ (by simp) hd hl
  | @low a b s t ha hb hv h ih =>
    intro hnz fuel dest ptr hf hd
    cases fuel with
    | zero => simp at hf
    | succ fuel =>
      by_cases hl : ptr < sz + 5
      · simp only [List.cons_append, List.length_cons]
        rw [pre_low fuel _ dest ptr sz ha hb hv hl, show ptr + (t.length + 1 + 1 + 1) = ptr + 3 + t.length by omega]
        have H := fun dest hd => ih (fun c hc => hnz c (by simp [hc])) fuel dest (ptr + 3) (by simp at hf ⊢; omega) hd
        by_cases hp : ptr + 4 < sz
        · rw [if_pos hp, wrs_spec _ _ _ (by simp only [List.length_cons, List.length_nil]; omega), Res.ok_bind]
          exact H _ (by rw [patch_length (by simp only [List.length_cons, List.length_nil]; omega), hd])
        · rw [if_neg hp, Res.ok_bind]
          exact H _ hd
      · exact far _ _ _ _ _ (by simp) hd hl
  | @hex a b s t ha hb hv h ih =>
    intro hnz fuel dest ptr hf hd
    cases fuel with
    | zero => simp at hf
    | succ fuel =>
      by_cases hl : ptr < sz + 5
      · simp only [List.cons_append, List.length_cons]
        rw [pre_hex fuel _ dest ptr sz ha hb hl, if_pos hv]
        exact one _ _ t fuel ptr dest hd (fun dest hd => ih (fun c hc => hnz c (by simp [hc])) fuel dest (ptr + 1) (by simp at hf ⊢; omega) hd)
      · exact far _ _ _ _ _ (by simp) hd hl
  | @other c s t h37 h92 h ih =>
    intro hnz fuel dest ptr hf hd
    cases fuel with
    | zero => simp at hf
    | succ fuel =>
      by_cases hl : ptr < sz + 5
      · simp only [List.cons_append, List.length_cons]
        obtain ⟨g1, g2⟩ := other_ends (tl := tl) hz h37 h92
        rw [pre_other fuel _ dest ptr sz (hnz c (by simp)) g1 g2 hl]
        exact one _ _ t fuel ptr dest hd (fun dest hd => ih (fun c hc => hnz c (by simp [hc])) fuel dest (ptr + 1) (by simp at hf ⊢; omega) hd)
      · exact far _ _ _ _ _ (by simp) hd hl

/-- **C24 (partial)**, exactly: for texts without a "\xXY" of a byte below 0x80, `coda_url_preunescape` stays inside of the buffer if and only if the buffer has room for the
decoded text and its NUL.  (`C109_applies` says which texts these are.) -/
theorem C24_exact_partial (s cs t dest : Buf) (sz : Nat) (hs : CString s cs) (hu : Pre cs t) (hd : dest.length = sz) :
    (∃ d, coda_url_preunescape s dest sz = .ok d ∧ d.length = sz) ↔ t.length < sz := by
  obtain ⟨hnz, rest, rfl⟩ := hs
  obtain ⟨h1, h2⟩ := pre_len rest sz hu hnz (cs ++ 0 :: rest).length dest 0 (Nat.le_refl _) hd
  rw [Nat.zero_add] at h1 h2
  unfold coda_url_preunescape
  constructor
  · rintro ⟨d, e, -⟩
    rcases Nat.lt_or_ge t.length sz with h | h
    · exact h
    · exfalso
      rcases h2 h with h3 | ⟨d', p, h3, h4, h5⟩
      · rw [h3] at e; cases e
      · rw [h3] at e
        simp only [Res.ok_bind] at e
        rw [wr_ub (by omega)] at e; cases e
  · intro h
    obtain ⟨d, h3, h4⟩ := h1 h
    rw [h3]
    simp only [Res.ok_bind]
    rw [wr_eq (by omega)]
    exact ⟨_, rfl, by rw [patch_length (by simp; omega), h4]⟩

/-- **C24, refuted** for all texts that do not fit: the write outside of the buffer. -/
theorem C24_refuted_all (s cs t dest : Buf) (sz : Nat) (hs : CString s cs) (hu : Pre cs t) (hd : dest.length = sz) (hl : sz ≤ t.length) :
    coda_url_preunescape s dest sz = .ub := by
  obtain ⟨hnz, rest, rfl⟩ := hs
  obtain ⟨-, h2⟩ := pre_len rest sz hu hnz (cs ++ 0 :: rest).length dest 0 (Nat.le_refl _) hd
  rw [Nat.zero_add] at h2
  unfold coda_url_preunescape
  rcases h2 hl with h3 | ⟨d', p, h3, h4, h5⟩
  · rw [h3]; rfl
  · rw [h3]
    simp only [Res.ok_bind]
    exact wr_ub (by omega)

/-- **C109, refuted** for all buffers that have room for the text and its NUL and no more, and all texts with "%XY" of a byte below 0x80 at their end: the last three bytes are
those that were in the buffer before. -/
theorem C109_refuted_exact (s cs t dest : Buf) (a b : UInt8) (ha : hexDigit a = true) (hb : hexDigit b = true) (hv : 16 * hexv a + hexv b < 128)
    (hs : CString s (cs ++ [37, a, b])) (hu : Pre cs t) (hd : dest.length = (t ++ [37, a, b]).length + 1) :
    coda_url_preunescape s dest ((t ++ [37, a, b]).length + 1) = .ok (t ++ (dest.drop t.length).take 3 ++ [0]) := by
  obtain ⟨hnz, rest, rfl⟩ := hs
  have hlen : (t ++ [37, a, b]).length + 1 = t.length + 4 := by simp
  rw [hlen] at hd ⊢
  rw [List.append_assoc]
  simp only [List.cons_append, List.nil_append]
  unfold coda_url_preunescape
  obtain ⟨f, h1, h2⟩ := pre_prefix 37 (a :: b :: 0 :: rest) ⟨by decide, by decide⟩ (t.length + 4) hu (fun c hc => hnz c (by simp [hc])) (cs ++ 37 :: a :: b :: 0 :: rest).length dest 0
    (Nat.le_refl _) hd (by omega)
  rw [h2]
  cases f with
  | zero => simp at h1
  | succ f =>
    rw [pre_low f _ _ _ _ ha hb hv (by omega), if_neg (by omega), Res.ok_bind, pre_end _ _ _ _ _ (by simp at h1 ⊢; omega)]
    simp only [Res.ok_bind]
    rw [wr_eq (by rw [patch_length (by omega)]; omega)]
    congr 1
    apply List.ext_getElem
    · rw [patch_length (by rw [patch_length (by omega)]; simp; omega), patch_length (by omega)]; simp; omega
    · intro i g1 g2
      rw [patch_length (by rw [patch_length (by omega)]; simp; omega), patch_length (by omega)] at g1
      simp only [patch, List.take_zero, List.nil_append, Nat.zero_add]
      by_cases c1 : i < t.length
      · rw [List.getElem_append_left (by simp; omega), List.getElem_append_left (by simp; omega)]
        simp [List.getElem_append, c1]
      · by_cases c2 : i < t.length + 3
        · rw [List.getElem_append_left (by simp; omega), List.getElem_append_left (by simp; omega)]
          simp only [List.getElem_take, List.getElem_append, c1, dite_false, List.getElem_drop]
          rw [dif_pos (by simp; omega)]
        · have : i = t.length + 3 := by omega
          subst this
          simp [List.getElem_append, hd]

/-- **C109, refuted** for all texts with a "\xXY" of a byte below 0x80 somewhere: it disappears. -/
theorem C109_refuted_all (s cs t cs' t' dest : Buf) (sz : Nat) (a b : UInt8) (ha : hexDigit a = true) (hb : hexDigit b = true) (hv : 16 * hexv a + hexv b < 128)
    (hs : CString s (cs ++ [92, 120, a, b] ++ cs')) (hu : Pre cs t) (hu' : Pre cs' t') (hd : dest.length = sz) (hsz : t.length + t'.length + 1 < sz) :
    ∃ junk, coda_url_preunescape s dest sz = .ok (t ++ t' ++ 0 :: junk) := by
  obtain ⟨hnz, rest, rfl⟩ := hs
  simp only [List.append_assoc, List.cons_append, List.nil_append]
  unfold coda_url_preunescape
  obtain ⟨f, h1, h2⟩ := pre_prefix 92 (120 :: a :: b :: (cs' ++ 0 :: rest)) ⟨by decide, by decide⟩ sz hu (fun c hc => hnz c (by simp [hc]))
    (cs ++ 92 :: 120 :: a :: b :: (cs' ++ 0 :: rest)).length dest 0 (Nat.le_refl _) hd (by omega)
  rw [h2]
  cases f with
  | zero => simp at h1
  | succ f =>
    rw [pre_hex f _ _ _ _ ha hb (by omega), if_neg (by omega)]
    have main : ∀ e : Buf, e.length = sz → e.take t.length = t →
        ∃ junk, (do let (dest, ptr) ← preLoop f (cs' ++ 0 :: rest) e (0 + t.length) sz; wr dest ptr 0) = Res.ok (t ++ (t' ++ 0 :: junk)) := by
      intro e he ht
      rw [preLoop_spec rest sz hu' (fun c hc => hnz c (by simp [hc])) f e (0 + t.length) (by simp at h1 ⊢; omega) he (by omega)]
      simp only [Res.ok_bind]
      rw [wr_patch rfl (by omega)]
      refine ⟨e.drop (t.length + (t' ++ [0]).length), ?_⟩
      simp only [patch, Nat.zero_add, ht]
      simp
    have hl0 : (patch dest 0 t).length = sz := by rw [patch_length (by omega), hd]
    have ht0 : (patch dest 0 t).take t.length = t := by simp [patch]
    by_cases hp : 0 + t.length + 3 < sz
    · rw [if_pos hp, wrs_spec _ _ _ (by rw [hl0]; simp only [List.length_cons, List.length_nil]; omega), Res.ok_bind]
      refine main _ (by rw [patch_length (by rw [hl0]; simp only [List.length_cons, List.length_nil]; omega), hl0]) ?_
      rw [Nat.zero_add]
      rw [patch, ht0, List.append_assoc, List.take_append_of_le_length (Nat.le_refl _), List.take_length]
    · rw [if_neg hp, Res.ok_bind]
      exact main _ hl0 ht0

-- "a%41" into 5 bytes: the last three stay as they were
example : coda_url_preunescape [97, 37, 52, 49, 0] (List.replicate 5 7) 5 = .ok [97, 7, 7, 7, 0] := by decide +kernel
-- "%d0%d1" fits into 3 bytes
example : coda_url_preunescape [37, 100, 48, 37, 100, 49, 0] (List.replicate 3 7) 3 = .ok [208, 209, 0] := by decide +kernel

end Verif.Url
