import Verif.Url.EscLemmas
import Verif.Url.UnescSpec

set_option linter.unusedSimpArgs false
set_option linter.unusedVariables false

namespace Verif.Url
open Spec (enc pct hexU hexv unreserved hexDigit utf8 num4 Unesc Pre)

theorem hexDigit_eq (c : UInt8) : hexDigit c = isxdigit c := by revert c; apply byte_all; decide +kernel
theorem xval_eq {c : UInt8} : isxdigit c = true → xval c = hexv c := by revert c; apply byte_all; decide +kernel
theorem xval_lt {c : UInt8} : isxdigit c = true → xval c < 16 := by revert c; apply byte_all; decide +kernel
theorem xdigit_not {c : UInt8} : isxdigit c = true → c ≠ 120 ∧ c ≠ 88 ∧ c ≠ 117 := by revert c; apply byte_all; decide +kernel

/-- `s` followed by NUL: the tests of the code are those of the specification. -/
theorem two_spec (s rest : Buf) : two (s ++ 0 :: rest) = .ok (Spec.two s) := by
  have z : isxdigit 0 = false := by decide
  match s with
  | [] => simp [two, Spec.two, z]
  | [a] => cases h : isxdigit a <;> simp [two, Spec.two, z, h]
  | a :: b :: s => cases h : isxdigit a <;> simp [two, Spec.two, hexDigit_eq, h]

theorem isU_spec (s rest : Buf) : isU (s ++ 0 :: rest) = .ok (match s with | 117 :: s' => Spec.one s' | _ => false) := by
  have z : isxdigit 0 = false := by decide
  match s with
  | [] => simp [isU]
  | [a] =>
    by_cases h : a = 117
    · subst h; simp [isU, Spec.one, z]
    · simp [isU, h]
  | a :: b :: s =>
    by_cases h : a = 117
    · subst h; simp [isU, Spec.one, hexDigit_eq]
    · simp [isU, h]

theorem isX_spec (s rest : Buf) : isX (s ++ 0 :: rest) = .ok (match s with | 120 :: s' => Spec.two s' | _ => false) := by
  match s with
  | [] => simp [isX]
  | a :: s =>
    by_cases h : a = 120
    · subst h; simp [isX, two_spec]
    · simp [isX, h]

theorem strtolLoop_stop (s rest : Buf) (acc : Nat) (h : Spec.one s = false) : strtolLoop (s ++ 0 :: rest) acc = .ok (acc, s ++ 0 :: rest) := by
  cases s with
  | nil => simp [strtolLoop, show isxdigit 0 = false by decide]
  | cons a s => simp only [Spec.one, hexDigit_eq] at h; simp [strtolLoop, h]

theorem strtol16_four {a b c d : UInt8} {s rest : Buf} (ha : isxdigit a = true) (hb : isxdigit b = true) (hc : isxdigit c = true) (hd : isxdigit d = true) (h : Spec.one s = false) :
    strtol16 (a :: b :: c :: d :: (s ++ 0 :: rest)) = .ok (num4 a b c d, s ++ 0 :: rest) := by
  obtain ⟨b1, b2, -⟩ := xdigit_not hb
  have := xval_lt ha; have := xval_lt hb; have := xval_lt hc; have := xval_lt hd
  simp only [strtol16, rd_cons_zero, rd_cons_succ, Res.ok_bind, b1, b2, or_self, and_false, if_false, Bool.false_eq_true, strtolLoop, ha, hb, hc, hd, if_true,
    strtolLoop_stop _ _ _ h]
  have e : (((0 * 16 + xval a) * 16 + xval b) * 16 + xval c) * 16 + xval d = num4 a b c d := by
    simp only [num4, xval_eq ha, xval_eq hb, xval_eq hc, xval_eq hd]; omega
  rw [e]
  have : num4 a b c d < 2 ^ 63 := by rw [← e]; omega
  rw [Nat.min_eq_left (by omega)]

theorem uBytes_spec : ∀ n : Fin 2048, n.val ≠ 127 → uBytes n.val = utf8 n.val := by decide +kernel

theorem utf8_length (n : Nat) : (utf8 n).length = 1 ∨ (utf8 n).length = 2 := by
  unfold utf8; split <;> simp

theorem unescLoop_spec (rest : Buf) (sz : Nat) (hsz : 2 ≤ sz) {cs t : Buf} (h : Unesc cs t) : (∀ c ∈ cs, c ≠ 0) → ∀ (fuel : Nat) (dest : Buf) (ptr : Nat),
    (cs ++ 0 :: rest).length ≤ fuel → dest.length = sz → ptr < sz →
    ∃ p, unescLoop fuel (cs ++ 0 :: rest) dest ptr (sz - 2) = .ok (patch dest ptr (t.take p), ptr + p) ∧ p ≤ t.length ∧ ptr + p < sz ∧ (p = t.length ∨ sz - 2 ≤ ptr + p) := by
  -- a token that writes `e`, then the rest
  have go : ∀ (e t s : Buf) (fuel ptr : Nat) (dest : Buf), dest.length = sz → ptr < sz - 2 → e.length = 1 ∨ e.length = 2 →
      (∀ (dest : Buf) (ptr : Nat), dest.length = sz → ptr < sz →
        ∃ p, unescLoop fuel s dest ptr (sz - 2) = .ok (patch dest ptr (t.take p), ptr + p) ∧ p ≤ t.length ∧ ptr + p < sz ∧ (p = t.length ∨ sz - 2 ≤ ptr + p)) →
      ∃ p, unescLoop fuel s (patch dest ptr e) (ptr + e.length) (sz - 2) = .ok (patch dest ptr ((e ++ t).take p), ptr + p) ∧ p ≤ (e ++ t).length ∧ ptr + p < sz ∧
        (p = (e ++ t).length ∨ sz - 2 ≤ ptr + p) := by
    intro e t s fuel ptr dest hd hp he H
    obtain ⟨p, h1, h2, h3, h4⟩ := H (patch dest ptr e) (ptr + e.length) (by rw [patch_length (by omega), hd]) (by omega)
    refine ⟨e.length + p, ?_, by rw [List.length_append]; omega, by omega, ?_⟩
    · rw [h1, patch_patch (by omega), List.take_length_add_append, Nat.add_assoc]
    · rw [List.length_append]
      rcases h4 with h4 | h4
      · exact Or.inl (by omega)
      · exact Or.inr (by omega)
  -- the loop has reached its limit
  have stop : ∀ (cs t : Buf) (fuel ptr : Nat) (dest : Buf), (cs ++ 0 :: rest).length ≤ fuel → ptr < sz → ¬ ptr < sz - 2 →
      ∃ p, unescLoop fuel (cs ++ 0 :: rest) dest ptr (sz - 2) = .ok (patch dest ptr (t.take p), ptr + p) ∧ p ≤ t.length ∧ ptr + p < sz ∧ (p = t.length ∨ sz - 2 ≤ ptr + p) := by
    intro cs t fuel ptr dest hf hp hlim
    refine ⟨0, ?_, by omega, by omega, Or.inr (by omega)⟩
    rw [List.take_zero, patch_nil]
    cases fuel with
    | zero => simp at hf
    | succ fuel =>
      cases cs with
      | nil => simp [unescLoop]
      | cons c cs => simp [unescLoop, hlim]
  induction h with
  | nil =>
    intro _ fuel dest ptr hf hd hp
    refine ⟨0, ?_, by simp, by omega, Or.inl rfl⟩
    rw [List.take_zero, patch_nil]
    cases fuel with
    | zero => simp at hf
    | succ fuel => simp [unescLoop]
  | @plus s t h ih =>
    intro hnz fuel dest ptr hf hd hp
    by_cases hlim : ptr < sz - 2
    · cases fuel with
      | zero => simp at hf
      | succ fuel =>
        have hw : ∀ v, wr dest ptr v = .ok (patch dest ptr [v]) := fun v => wr_eq (by omega)
        simp only [List.cons_append, unescLoop, hlim, not_true, or_false, if_true, hw, Res.ok_bind]
        rw [if_neg (by decide)]
        exact go [32] t _ fuel ptr dest hd hlim (Or.inl rfl) (fun dest ptr => ih (fun c hc => hnz c (by simp [hc])) fuel dest ptr (by simp at hf ⊢; omega))
    · exact stop _ _ fuel ptr dest hf hp hlim
  | @pct a b s t ha hb h ih =>
    intro hnz fuel dest ptr hf hd hp
    rw [hexDigit_eq] at ha hb
    by_cases hlim : ptr < sz - 2
    · cases fuel with
      | zero => simp at hf
      | succ fuel =>
        have hw : ∀ v, wr dest ptr v = .ok (patch dest ptr [v]) := fun v => wr_eq (by omega)
        have e : UInt8.ofNat (xval a * 16 + xval b) = UInt8.ofNat (16 * hexv a + hexv b) := by rw [xval_eq ha, xval_eq hb, Nat.mul_comm]
        simp only [List.cons_append, unescLoop, hlim, not_true, or_false, if_true, two, rd_cons_zero, rd_cons_succ, ha, hb, Res.ok_bind, xnum, hw, e, List.drop_succ_cons, List.drop_zero]
        rw [if_neg (by decide), if_neg (by decide)]
        exact go [UInt8.ofNat (16 * hexv a + hexv b)] t _ fuel ptr dest hd hlim (Or.inl rfl) (fun dest ptr => ih (fun c hc => hnz c (by simp [hc])) fuel dest ptr (by simp at hf ⊢; omega))
    · exact stop _ _ fuel ptr dest hf hp hlim
  | @uni a b c d s t ha hb hc hd' hs hlt hne h ih =>
    intro hnz fuel dest ptr hf hd hp
    rw [hexDigit_eq] at ha hb hc hd'
    by_cases hlim : ptr < sz - 2
    · cases fuel with
      | zero => simp at hf
      | succ fuel =>
        have n117 : isxdigit 117 = false := by decide
        simp only [List.cons_append, unescLoop, hlim, not_true, or_false, if_true, two, rd_cons_zero, n117, Res.ok_bind, Bool.false_eq_true, if_false, isU, rd_cons_succ, ha, List.tail_cons,
          strtol16_four ha hb hc hd' hs]
        have hu : uBytes (num4 a b c d) = utf8 (num4 a b c d) := uBytes_spec ⟨_, hlt⟩ hne
        rw [if_neg (by decide), if_neg (by decide), Nat.mod_eq_of_lt (by omega), hu]
        have := utf8_length (num4 a b c d)
        rw [wrs_spec _ _ _ (by omega), Res.ok_bind]
        exact go (utf8 (num4 a b c d)) t _ fuel ptr dest hd hlim this (fun dest ptr => ih (fun c hc => hnz c (by simp [hc])) fuel dest ptr (by simp at hf ⊢; omega))
    · exact stop _ _ fuel ptr dest hf hp hlim
  | @hex a b s t ha hb h ih =>
    intro hnz fuel dest ptr hf hd hp
    rw [hexDigit_eq] at ha hb
    by_cases hlim : ptr < sz - 2
    · cases fuel with
      | zero => simp at hf
      | succ fuel =>
        have hw : ∀ v, wr dest ptr v = .ok (patch dest ptr [v]) := fun v => wr_eq (by omega)
        have e : UInt8.ofNat (xval a * 16 + xval b) = UInt8.ofNat (16 * hexv a + hexv b) := by rw [xval_eq ha, xval_eq hb, Nat.mul_comm]
        have e1 : ((92 : UInt8) = 0 ∨ ¬ ptr < sz - 2) = False := by simp only [hlim, not_true, or_false]; decide
        have e2 : ((92 : UInt8) = 43) = False := by decide
        have e3 : ((92 : UInt8) = 37) = False := by decide
        simp only [List.cons_append, unescLoop, e1, e2, e3, if_false, Res.ok_bind, Bool.false_eq_true, if_true, isX, List.tail_cons, two, rd_cons_zero, rd_cons_succ, ha, hb, xnum, hw, e,
          List.drop_succ_cons, List.drop_zero]
        exact go [UInt8.ofNat (16 * hexv a + hexv b)] t _ fuel ptr dest hd hlim (Or.inl rfl) (fun dest ptr => ih (fun c hc => hnz c (by simp [hc])) fuel dest ptr (by simp at hf ⊢; omega))
    · exact stop _ _ fuel ptr dest hf hp hlim
  | @other c s t h43 h37 h92 h ih =>
    intro hnz fuel dest ptr hf hd hp
    by_cases hlim : ptr < sz - 2
    · cases fuel with
      | zero => simp at hf
      | succ fuel =>
        have hw : ∀ v, wr dest ptr v = .ok (patch dest ptr [v]) := fun v => wr_eq (by omega)
        have hc0 : c ≠ 0 := hnz c (by simp)
        have e1 : (if c = 37 then two (s ++ 0 :: rest) else .ok false : Res Bool) = .ok false := by
          split
          · rename_i hc; rw [two_spec, (h37 hc).1]
          · rfl
        have e2 : (if c = 37 then isU (s ++ 0 :: rest) else .ok false : Res Bool) = .ok false := by
          split
          · rename_i hc
            rw [isU_spec]
            have := (h37 hc).2
            split
            · rename_i s'; rw [this s' rfl]
            · rfl
          · rfl
        have e3 : (if c = 92 then isX (s ++ 0 :: rest) else .ok false : Res Bool) = .ok false := by
          split
          · rename_i hc
            rw [isX_spec]
            have := h92 hc
            split
            · rename_i s'; rw [this s' rfl]
            · rfl
          · rfl
        simp only [List.cons_append, unescLoop, hc0, hlim, not_true, or_self, h43, if_false, e1, e2, e3, Res.ok_bind, Bool.false_eq_true, hw]
        exact go [c] t _ fuel ptr dest hd hlim (Or.inl rfl) (fun dest ptr => ih (fun c hc => hnz c (by simp [hc])) fuel dest ptr (by simp at hf ⊢; omega))
    · exact stop _ _ fuel ptr dest hf hp hlim

theorem preLoop_spec (rest : Buf) (sz : Nat) {cs t : Buf} (h : Pre cs t) : (∀ c ∈ cs, c ≠ 0) → ∀ (fuel : Nat) (dest : Buf) (ptr : Nat),
    (cs ++ 0 :: rest).length ≤ fuel → dest.length = sz → ptr + t.length + 1 < sz →
    preLoop fuel (cs ++ 0 :: rest) dest ptr sz = .ok (patch dest ptr t, ptr + t.length) := by
  have go : ∀ (e t s : Buf) (fuel ptr : Nat) (dest : Buf), dest.length = sz → ptr + (e ++ t).length + 1 < sz →
      (∀ (dest : Buf) (ptr : Nat), dest.length = sz → ptr + t.length + 1 < sz → preLoop fuel s dest ptr sz = .ok (patch dest ptr t, ptr + t.length)) →
      preLoop fuel s (patch dest ptr e) (ptr + e.length) sz = .ok (patch dest ptr (e ++ t), ptr + (e ++ t).length) := by
    intro e t s fuel ptr dest hd hp H
    rw [List.length_append] at hp
    rw [H _ _ (by rw [patch_length (by omega), hd]) (by omega), patch_patch (by omega), List.length_append, Nat.add_assoc]
  have byte : ∀ {a b : UInt8}, isxdigit a = true → isxdigit b = true →
      UInt8.ofNat (xval a * 16 + xval b) = UInt8.ofNat (16 * hexv a + hexv b) ∧ ((UInt8.ofNat (16 * hexv a + hexv b) ≥ 128) ↔ 128 ≤ 16 * hexv a + hexv b) := by
    intro a b ha hb
    have := xval_lt ha; have := xval_lt hb
    rw [xval_eq ha] at *; rw [xval_eq hb] at *
    refine ⟨by rw [Nat.mul_comm], ?_⟩
    rw [ge_iff_le, UInt8.le_iff_toNat_le, UInt8.toNat_ofNat']
    show 128 ≤ _ % 256 ↔ _
    rw [Nat.mod_eq_of_lt (by omega)]
  induction h with
  | nil =>
    intro _ fuel dest ptr hf hd hp
    cases fuel with
    | zero => simp at hf
    | succ fuel => simp [preLoop]
  | @high a b s t ha hb hv h ih =>
    intro hnz fuel dest ptr hf hd hp
    rw [hexDigit_eq] at ha hb
    cases fuel with
    | zero => simp at hf
    | succ fuel =>
      have hw : ∀ v, wr dest ptr v = .ok (patch dest ptr [v]) := fun v => wr_eq (by omega)
      have hlim : ptr < sz + 5 := by omega
      obtain ⟨e, g⟩ := byte ha hb
      simp only [List.cons_append, preLoop, hlim, not_true, or_false, if_true, two, rd_cons_zero, rd_cons_succ, ha, hb, Res.ok_bind, xnum, e, List.drop_succ_cons, List.drop_zero]
      rw [if_neg (by decide), if_pos (g.mpr hv), hw, Res.ok_bind]
      exact go [UInt8.ofNat (16 * hexv a + hexv b)] t _ fuel ptr dest hd hp (fun dest ptr => ih (fun c hc => hnz c (by simp [hc])) fuel dest ptr (by simp at hf ⊢; omega))
  | @low a b s t ha hb hv h ih =>
    intro hnz fuel dest ptr hf hd hp
    rw [hexDigit_eq] at ha hb
    cases fuel with
    | zero => simp at hf
    | succ fuel =>
      have hlim : ptr < sz + 5 := by omega
      obtain ⟨e, g⟩ := byte ha hb
      simp only [List.length_cons] at hp
      simp only [List.cons_append, preLoop, hlim, not_true, or_false, if_true, two, rd_cons_zero, rd_cons_succ, ha, hb, Res.ok_bind, xnum, e, List.drop_succ_cons, List.drop_zero,
        List.take_succ_cons, List.take_zero]
      rw [if_neg (by decide), if_neg (by rw [g]; omega), if_pos (by omega), wrs_spec _ _ _ (by simp only [List.length_cons, List.length_nil]; omega), Res.ok_bind]
      exact go [37, a, b] t _ fuel ptr dest hd (by simp only [List.length_append, List.length_cons, List.length_nil]; omega) (fun dest ptr => ih (fun c hc => hnz c (by simp [hc])) fuel dest ptr (by simp at hf ⊢; omega))
  | @hex a b s t ha hb hv h ih =>
    intro hnz fuel dest ptr hf hd hp
    rw [hexDigit_eq] at ha hb
    cases fuel with
    | zero => simp at hf
    | succ fuel =>
      have hw : ∀ v, wr dest ptr v = .ok (patch dest ptr [v]) := fun v => wr_eq (by omega)
      have hlim : ptr < sz + 5 := by omega
      obtain ⟨e, g⟩ := byte ha hb
      have e1 : ((92 : UInt8) = 0 ∨ ¬ ptr < sz + 5) = False := by simp only [hlim, not_true, or_false]; decide
      have e3 : ((92 : UInt8) = 37) = False := by decide
      simp only [List.cons_append, preLoop, e1, e3, if_false, Res.ok_bind, Bool.false_eq_true, if_true, isX, List.tail_cons, two, rd_cons_zero, rd_cons_succ, ha, hb, xnum, e,
        List.drop_succ_cons, List.drop_zero]
      rw [if_pos (g.mpr hv), hw, Res.ok_bind]
      exact go [UInt8.ofNat (16 * hexv a + hexv b)] t _ fuel ptr dest hd hp (fun dest ptr => ih (fun c hc => hnz c (by simp [hc])) fuel dest ptr (by simp at hf ⊢; omega))
  | @other c s t h37 h92 h ih =>
    intro hnz fuel dest ptr hf hd hp
    cases fuel with
    | zero => simp at hf
    | succ fuel =>
      have hw : ∀ v, wr dest ptr v = .ok (patch dest ptr [v]) := fun v => wr_eq (by omega)
      have hlim : ptr < sz + 5 := by omega
      have hc0 : c ≠ 0 := hnz c (by simp)
      have e1 : (if c = 37 then two (s ++ 0 :: rest) else .ok false : Res Bool) = .ok false := by
        split
        · rename_i hc; rw [two_spec, h37 hc]
        · rfl
      have e3 : (if c = 92 then isX (s ++ 0 :: rest) else .ok false : Res Bool) = .ok false := by
        split
        · rename_i hc
          rw [isX_spec]
          have := h92 hc
          split
          · rename_i s'; rw [this s' rfl]
          · rfl
        · rfl
      simp only [List.cons_append, preLoop, hc0, hlim, not_true, or_self, if_false, e1, e3, Res.ok_bind, Bool.false_eq_true, hw]
      exact go [c] t _ fuel ptr dest hd hp (fun dest ptr => ih (fun c hc => hnz c (by simp [hc])) fuel dest ptr (by simp at hf ⊢; omega))

theorem escLoop_stop (s rest dest : Buf) (ptr lim : Nat) (h : ¬ ptr < lim) : escLoop (s ++ 0 :: rest) dest ptr lim = .ok dest := by
  cases s with
  | nil => simp [escLoop]
  | cons c s => simp [escLoop, h]

/-- What is in the buffer is the beginning of the whole encoding, cut at the limit. -/
theorem escLoop_cut (rest : Buf) (sz : Nat) (hsz : sz < 2 ^ 64) (h4 : 4 ≤ sz) : ∀ (cs e : Buf),
    (∀ c ∈ cs, c ≠ 0 ∧ c < 128) → e.length + 3 ≤ sz →
    ∃ p, escLoop (cs ++ 0 :: rest) (patch (List.replicate sz 0) 0 e) e.length (sz - 3) = .ok (patch (List.replicate sz 0) 0 (e ++ (cs.flatMap enc).take p)) ∧
      p ≤ (cs.flatMap enc).length ∧ e.length + p + 3 ≤ sz ∧ (p = (cs.flatMap enc).length ∨ sz ≤ e.length + p + 4) := by
  intro cs
  induction cs with
  | nil => intro e _ h; exact ⟨0, by simp [escLoop], by simp, by omega, Or.inl rfl⟩
  | cons c cs ih =>
    intro e hc hl
    obtain ⟨hc0, hc128⟩ := hc c (by simp)
    have ih := fun e => ih e (fun x hx => hc x (by simp [hx]))
    have h128 : ¬ c ≥ 128 := by
      rw [UInt8.lt_iff_toNat_lt] at hc128
      rw [ge_iff_le, UInt8.le_iff_toNat_le]; omega
    by_cases hlen : e.length < sz - 3
    · -- one token is written completely
      have go : ∀ f : Buf, e.length + f.length + 3 ≤ sz →
          ∃ p, escLoop (cs ++ 0 :: rest) (patch (List.replicate sz 0) 0 (e ++ f)) (e.length + f.length) (sz - 3) = .ok (patch (List.replicate sz 0) 0 (e ++ (f ++ cs.flatMap enc).take p)) ∧
            p ≤ (f ++ cs.flatMap enc).length ∧ e.length + p + 3 ≤ sz ∧ (p = (f ++ cs.flatMap enc).length ∨ sz ≤ e.length + p + 4) := by
        intro f hf
        obtain ⟨p, h1, h2, h3, h4⟩ := ih (e ++ f) (by rw [List.length_append]; omega)
        rw [List.length_append] at h1 h3 h4
        refine ⟨f.length + p, ?_, by rw [List.length_append]; omega, by omega, ?_⟩
        · rw [h1, List.take_length_add_append, List.append_assoc]
        · rw [List.length_append]; omega
      simp only [List.cons_append, escLoop, mustEnc_eq, hex_hi, hex_lo, Res.ok_bind, hc0, false_or, hlen, not_true,
        if_false, h128, List.flatMap_cons]
      by_cases h1 : unreserved c.toNat
      · have h2 := (unreserved_ne c h1).2.2.2
        have he : enc c = [c] := by simp [enc, h1]
        rw [he]
        simp only [h1, h2, Bool.not_true, Bool.false_and, Bool.false_eq_true, if_false]
        rw [wr_patch (by simp) (by simp; omega), Res.ok_bind]
        exact go [c] (by simp only [List.length_cons, List.length_nil]; omega)
      · by_cases h2 : c = 32
        · subst h2
          have he : enc 32 = [43] := by decide
          rw [he]
          have hu : unreserved (UInt8.toNat 32) = false := by decide
          simp only [hu, ne_eq, not_true, decide_false, Bool.and_false, Bool.false_eq_true, if_false, if_true]
          rw [wr_patch (by simp) (by simp; omega), Res.ok_bind]
          exact go [43] (by simp only [List.length_cons, List.length_nil]; omega)
        · have h2' := h2
          rw [c32] at h2'
          have he : enc c = pct c := by simp [enc, h1, h2']
          rw [he]
          simp only [Bool.not_eq_true] at h1
          simp only [h1, h2, ne_eq, not_false_eq_true, decide_true, Bool.not_false, Bool.and_self, if_true]
          rw [subZ_eq (by omega)]
          unfold snprintf
          rw [if_neg (by omega)]
          rw [wrs_spec _ _ _ (by rw [patch_length (by simp; omega)]; simp; omega)]
          simp only [Res.ok_bind, List.length_cons, List.length_nil]
          rw [patch_snoc_patch (by simp) (by simp; omega), ← List.append_assoc, patch_zero_zero (by simp; omega)]
          by_cases hk : e.length + 4 ≤ sz - 3
          · rw [List.take_of_length_le (by simp; omega)]
            exact go (pct c) (by simp only [pct, List.length_cons, List.length_nil]; omega)
          · rw [escLoop_stop _ _ _ _ _ (by omega)]
            refine ⟨sz - 3 - e.length - 1, ?_, ?_, by omega, Or.inr (by omega)⟩
            · rw [List.take_append_of_le_length (by simp only [pct, List.length_cons, List.length_nil]; omega)]
              rfl
            · simp only [pct, List.length_append, List.length_cons, List.length_nil]; omega
    · refine ⟨0, ?_, by omega, by omega, Or.inr (by omega)⟩
      rw [List.take_zero, List.append_nil]
      exact escLoop_stop _ _ _ _ _ hlen

end Verif.Url
