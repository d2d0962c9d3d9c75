import Verif.Url.Lemmas

set_option linter.unusedSimpArgs false
set_option linter.unusedVariables false

namespace Verif.Url
open Spec

/-! ### NUL terminated variants -/

theorem wrs_spec : ∀ (vs : List UInt8) (b : Buf) (o : Nat), o + vs.length ≤ b.length →
    wrs b o vs = .ok (patch b o vs) := by
  intro vs
  induction vs with
  | nil => intro b o _; simp [wrs]
  | cons v vs ih =>
    intro b o h
    simp only [List.length_cons] at h
    simp only [wrs]
    rw [wr_eq (by omega), Res.ok_bind, ih _ _ (by rw [patch_length (by simp; omega)]; omega),
      patch_snoc_patch (by simp) (by omega)]
    simp

theorem patch_all {b e : Buf} (h : e.length = b.length) : patch b 0 e = e := by
  simp [patch, h]

theorem patch_zero_zero {n : Nat} {e : List UInt8} (h : e.length < n) :
    patch (List.replicate n 0) 0 (e ++ [0]) = patch (List.replicate n 0) 0 e := by
  unfold patch
  simp only [List.take_zero, List.nil_append, Nat.zero_add, List.length_append, List.length_singleton,
    List.drop_replicate, List.append_assoc]
  congr 1
  rw [show n - e.length = (n - (e.length + 1)) + 1 by omega, List.replicate_succ]
  rfl

theorem subZ_eq {a b : Nat} (h : b ≤ a) : subZ a b = a - b := by
  unfold subZ; rw [if_pos h]

theorem escLoop_fits (rest : Buf) (sz : Nat) (hsz : sz < 2 ^ 64) : ∀ (cs e : Buf),
    (∀ c ∈ cs, c ≠ 0 ∧ c < 128) → e.length + (cs.flatMap enc).length + 4 ≤ sz →
    escLoop (cs ++ 0 :: rest) (patch (List.replicate sz 0) 0 e) e.length (sz - 3)
      = .ok (patch (List.replicate sz 0) 0 (e ++ cs.flatMap enc)) := by
  intro cs
  induction cs with
  | nil => intro e _ _; simp [escLoop]
  | cons c cs ih =>
    intro e hc hl
    obtain ⟨hc0, hc128⟩ := hc c (by simp)
    have ih := fun e => ih e (fun x hx => hc x (by simp [hx]))
    have h128 : ¬ c ≥ 128 := by
      rw [UInt8.lt_iff_toNat_lt] at hc128
      rw [ge_iff_le, UInt8.le_iff_toNat_le]; omega
    simp only [List.flatMap_cons, List.length_append] at hl ⊢
    have hlen : e.length < sz - 3 := by have := enc_length c; omega
    simp only [List.cons_append, escLoop, mustEnc_eq, hex_hi, hex_lo, Res.ok_bind, hc0, false_or, hlen, not_true,
      if_false, h128]
    by_cases h1 : unreserved c.toNat
    · have h2 := (unreserved_ne c h1).2.2.2
      have he : enc c = [c] := by simp [enc, h1]
      rw [he] at hl ⊢
      simp only [h1, h2, Bool.not_true, Bool.false_and, Bool.false_eq_true, if_false]
      simp only [List.length_singleton] at hl
      rw [wr_patch (by simp) (by simp; omega), Res.ok_bind]
      have := ih (e ++ [c]) (by simp only [List.length_append, List.length_cons, List.length_nil]; omega)
      simp only [List.length_append, List.length_singleton, List.append_assoc] at this
      exact this
    · by_cases h2 : c = 32
      · subst h2
        have he : enc 32 = [43] := by decide
        rw [he] at hl ⊢
        have hu : unreserved (UInt8.toNat 32) = false := by decide
        simp only [hu, ne_eq, not_true, decide_false, Bool.and_false, Bool.false_eq_true, if_false, if_true]
        simp only [List.length_singleton] at hl
        rw [wr_patch (by simp) (by simp; omega), Res.ok_bind]
        have := ih (e ++ [43]) (by simp only [List.length_append, List.length_cons, List.length_nil]; omega)
        simp only [List.length_append, List.length_singleton, List.append_assoc] at this
        exact this
      · have h2' := h2
        rw [c32] at h2'
        have he : enc c = pct c := by simp [enc, h1, h2']
        rw [he] at hl ⊢
        simp only [pct, List.length_cons, List.length_nil] at hl ⊢
        simp only [Bool.not_eq_true] at h1
        simp only [h1, h2, ne_eq, not_false_eq_true, decide_true, Bool.not_false, Bool.and_self, if_true]
        rw [subZ_eq (by omega)]
        unfold snprintf
        rw [if_neg (by omega), List.take_of_length_le (by simp; omega)]
        rw [wrs_spec _ _ _ (by rw [patch_length (by simp; omega)]; simp; omega)]
        simp only [Res.ok_bind, List.length_cons, List.length_nil]
        rw [patch_snoc_patch (by simp) (by simp; omega), ← List.append_assoc, patch_zero_zero (by simp; omega)]
        have := ih (e ++ [37, hexU (c.toNat / 16), hexU (c.toNat % 16)]) (by simp only [List.length_append, List.length_cons, List.length_nil]; omega)
        simp only [List.length_append, List.length_cons, List.length_nil, List.append_assoc] at this
        exact this

theorem getElem?_patch_of_gt {b : Buf} {o k : Nat} {e : List UInt8} (h : o + e.length ≤ k) (hb : o + e.length ≤ b.length) :
    (patch b o e)[k]? = b[k]? := by
  unfold patch
  have : (b.take o ++ e).length = o + e.length := by simp; omega
  rw [List.getElem?_append_right (by omega), this, List.getElem?_drop]
  congr 1; omega

/-- Memory safety of `coda_url_escape` for `sz ≥ 3` on ASCII text, truncating or not. -/
theorem escLoop_safe (rest : Buf) (sz : Nat) (hsz : sz < 2 ^ 64) (hsz3 : 3 ≤ sz) : ∀ (cs dest : Buf) (ptr : Nat),
    (∀ c ∈ cs, c ≠ 0 ∧ c < 128) → dest.length = sz → dest[sz - 1]? = some 0 →
    ∃ d, escLoop (cs ++ 0 :: rest) dest ptr (sz - 3) = .ok d ∧ d.length = sz ∧ d[sz - 1]? = some 0 := by
  intro cs
  induction cs with
  | nil => intro dest ptr _ h1 h2; exact ⟨dest, by simp [escLoop], h1, h2⟩
  | cons c cs ih =>
    intro dest ptr hc hd hz
    obtain ⟨hc0, hc128⟩ := hc c (by simp)
    have ih := fun dest ptr => ih dest ptr (fun x hx => hc x (by simp [hx]))
    have h128 : ¬ c ≥ 128 := by
      rw [UInt8.lt_iff_toNat_lt] at hc128
      rw [ge_iff_le, UInt8.le_iff_toNat_le]; omega
    simp only [List.cons_append, escLoop, mustEnc_eq, hex_hi, hex_lo, Res.ok_bind, hc0, false_or, if_false, h128]
    by_cases hp : ptr < sz - 3
    · simp only [hp, not_true, if_false]
      have step : ∀ (vs : List UInt8), ptr + vs.length ≤ sz - 3 →
          (patch dest ptr vs).length = sz ∧ (patch dest ptr vs)[sz - 1]? = some 0 := by
        intro vs hv
        exact ⟨by rw [patch_length (by omega)]; exact hd,
          by rw [getElem?_patch_of_gt (by omega) (by omega)]; exact hz⟩
      split
      · rw [subZ_eq (by omega)]
        unfold snprintf
        rw [if_neg (by omega)]
        have hl : ptr + (List.take (sz - 3 - ptr - 1) [37, hexU (c.toNat / 16), hexU (c.toNat % 16)] ++ [0]).length ≤ sz - 3 := by
          simp; omega
        rw [wrs_spec _ _ _ (by omega)]
        simp only [Res.ok_bind]
        exact ih _ _ (step _ hl).1 (step _ hl).2
      · split
        · rw [wr_eq (by omega), Res.ok_bind]
          exact ih _ _ (step _ (by simp; omega)).1 (step _ (by simp; omega)).2
        · rw [wr_eq (by omega), Res.ok_bind]
          exact ih _ _ (step _ (by simp; omega)).1 (step _ (by simp; omega)).2
    · exact ⟨dest, by simp [hp], hd, hz⟩

/-! unescape -/

theorem pct_step (c : UInt8) : isxdigit (hexU (c.toNat / 16)) = true ∧ isxdigit (hexU (c.toNat % 16)) = true ∧
    UInt8.ofNat (xval (hexU (c.toNat / 16)) * 16 + xval (hexU (c.toNat % 16))) = c := by
  revert c; apply byte_all; decide +kernel

theorem unescLoop_enc (rest : Buf) (sz : Nat) : ∀ (cs : Buf) (fuel : Nat) (dest : Buf) (ptr : Nat),
    (∀ c ∈ cs, c ≠ 0) → cs.length < fuel → ptr + cs.length ≤ sz → sz + 2 ≤ dest.length →
    unescLoop fuel (cs.flatMap enc ++ 0 :: rest) dest ptr sz = .ok (patch dest ptr cs, ptr + cs.length) := by
  intro cs
  induction cs with
  | nil =>
    intro fuel dest ptr _ hf _ _
    cases fuel with
    | zero => omega
    | succ fuel => simp [unescLoop]
  | cons c cs ih =>
    intro fuel dest ptr hc hf hs hd
    have hc0 := hc c (by simp)
    simp only [List.length_cons] at hf hs
    have ih := fun fuel dest ptr => ih fuel dest ptr (fun x hx => hc x (by simp [hx]))
    cases fuel with
    | zero => omega
    | succ fuel =>
      have hlim : ptr < sz := by omega
      have fin : ∀ c, unescLoop fuel (cs.flatMap enc ++ 0 :: rest) (patch dest ptr [c]) (ptr + 1) sz
          = .ok (patch dest ptr (c :: cs), ptr + (cs.length + 1)) := by
        intro c
        rw [ih _ _ _ (by omega) (by omega) (by rw [patch_length (by simp; omega)]; omega),
          patch_snoc_patch (by simp) (by omega)]
        simp; omega
      have hw : ∀ v, wr dest ptr v = .ok (patch dest ptr [v]) := fun v => wr_eq (by omega)
      rw [List.flatMap_cons]
      by_cases h1 : unreserved c.toNat
      · obtain ⟨a1, a2, a3, a4⟩ := unreserved_ne c h1
        have he : enc c = [c] := by simp [enc, h1]
        rw [he]
        simp only [List.cons_append, List.nil_append, List.append_assoc, unescLoop, hc0, hlim, a1, a2, a3, not_true, or_self, if_false, Res.ok_bind,
          Bool.false_eq_true, hw, fin, List.length_cons]
      · by_cases h2 : c = 32
        · subst h2
          have he : enc 32 = [43] := by decide
          rw [he]
          simp only [List.cons_append, List.nil_append, List.append_assoc, unescLoop, hlim, not_true, or_false, if_true, Res.ok_bind,
            hw, fin, List.length_cons]
          rfl
        · have h2' := h2
          rw [c32] at h2'
          have he : enc c = pct c := by simp [enc, h1, h2']
          rw [he]
          obtain ⟨x1, x2, x3⟩ := pct_step c
          simp only [pct, List.cons_append, List.nil_append, List.append_assoc, unescLoop, hlim, not_true, or_false, Res.ok_bind,
            two, rd_cons_zero, rd_cons_succ, x1, x2, x3, xnum, hw, if_true, List.drop_succ_cons, List.drop_zero,
            fin, List.length_cons]
          rfl

theorem mem_tail {c : UInt8} {s : Buf} (h : (0 : UInt8) ∈ c :: s) (hc : c ≠ 0) : (0 : UInt8) ∈ s := by
  rcases List.mem_cons.mp h with h | h
  · exact absurd h.symm hc
  · exact h

theorem xdigit_ne {c : UInt8} : isxdigit c = true → c ≠ 0 := by
  revert c; apply byte_all; decide +kernel

theorem rd0 {s : Buf} (h : (0 : UInt8) ∈ s) : ∃ c t, s = c :: t ∧ rd s 0 = .ok c := by
  cases s with
  | nil => simp at h
  | cons c t => exact ⟨c, t, rfl, rfl⟩

/-- Length of the string at the start of the object. -/
def slen (s : Buf) : Nat := (s.takeWhile (· ≠ 0)).length

theorem slen_cons {c : UInt8} {s : Buf} (hc : c ≠ 0) : slen (c :: s) = slen s + 1 := by
  simp [slen, hc]

theorem two_ok {s : Buf} (h : (0 : UInt8) ∈ s) : ∃ b, two s = .ok b ∧
    (b = true → ∃ x y t, s = x :: y :: t ∧ isxdigit x = true ∧ isxdigit y = true ∧ (0 : UInt8) ∈ t) := by
  obtain ⟨c, t, rfl, hr⟩ := rd0 h
  simp only [two, hr, Res.ok_bind, rd_cons_succ]
  by_cases hx : isxdigit c = true
  · have h' := mem_tail h (xdigit_ne hx)
    obtain ⟨d, t', rfl, hr'⟩ := rd0 h'
    simp only [hx, if_true, hr', Res.ok_bind]
    refine ⟨_, rfl, ?_⟩
    intro hd
    exact ⟨c, d, t', rfl, hx, hd, mem_tail h' (xdigit_ne hd)⟩
  · exact ⟨false, by simp [hx], by simp⟩

theorem isU_ok {s : Buf} (h : (0 : UInt8) ∈ s) : ∃ b, isU s = .ok b ∧
    (b = true → ∃ y t, s = 117 :: y :: t ∧ isxdigit y = true ∧ (0 : UInt8) ∈ t) := by
  obtain ⟨c, t, rfl, hr⟩ := rd0 h
  simp only [isU, hr, Res.ok_bind, rd_cons_succ]
  by_cases hx : c = 117
  · subst hx
    have h' := mem_tail h (by decide)
    obtain ⟨d, t', rfl, hr'⟩ := rd0 h'
    simp only [if_true, hr', Res.ok_bind]
    refine ⟨_, rfl, ?_⟩
    intro hd
    exact ⟨d, t', rfl, hd, mem_tail h' (xdigit_ne hd)⟩
  · exact ⟨false, by simp [hx], by simp⟩

theorem isX_ok {s : Buf} (h : (0 : UInt8) ∈ s) : ∃ b, isX s = .ok b ∧
    (b = true → ∃ x y t, s = 120 :: x :: y :: t ∧ isxdigit x = true ∧ isxdigit y = true ∧ (0 : UInt8) ∈ t) := by
  obtain ⟨c, t, rfl, hr⟩ := rd0 h
  simp only [isX, hr, Res.ok_bind, List.tail_cons]
  by_cases hx : c = 120
  · subst hx
    have h' := mem_tail h (by decide)
    obtain ⟨b, hb, hb'⟩ := two_ok h'
    refine ⟨b, by simp [hb], ?_⟩
    intro he
    obtain ⟨x, y, t', rfl, r⟩ := hb' he
    exact ⟨x, y, t', rfl, r⟩
  · exact ⟨false, by simp [hx], by simp⟩

theorem strtolLoop_ok : ∀ (s : Buf) (acc : Nat), (0 : UInt8) ∈ s → ∃ v ns, strtolLoop s acc = .ok (v, ns) ∧
    (0 : UInt8) ∈ ns ∧ ns.length ≤ s.length := by
  intro s
  induction s with
  | nil => intro acc h; simp at h
  | cons c s ih =>
    intro acc h
    simp only [strtolLoop]
    by_cases hx : isxdigit c = true
    · obtain ⟨v, ns, h1, h2, h3⟩ := ih (acc * 16 + xval c) (mem_tail h (xdigit_ne hx))
      exact ⟨v, ns, by simp [hx, h1], h2, by simp; omega⟩
    · exact ⟨acc, c :: s, by simp [hx], h, by simp⟩

theorem strtol16_ok {y : UInt8} {t : Buf} (h : (0 : UInt8) ∈ t) (hy : isxdigit y = true) :
    ∃ v ns, strtol16 (y :: t) = .ok (v, ns) ∧ (0 : UInt8) ∈ ns ∧ ns.length ≤ (y :: t).length := by
  obtain ⟨c, t', rfl, hr⟩ := rd0 h
  simp only [strtol16, rd_cons_zero, rd_cons_succ, Res.ok_bind]
  have h0 : (0 : UInt8) ∈ y :: c :: t' := by simp [h]
  by_cases hp : y = 48 ∧ (c = 120 ∨ c = 88)
  · have hc : c ≠ 0 := by rcases hp.2 with h | h <;> rw [h] <;> decide
    have h' := mem_tail h hc
    obtain ⟨d, t'', rfl, hr'⟩ := rd0 h'
    simp only [hp, and_self, if_true, rd_cons_zero, Res.ok_bind]
    by_cases hd : isxdigit d = true
    · obtain ⟨v, ns, h1, h2, h3⟩ := strtolLoop_ok (d :: t'') 0 h'
      refine ⟨_, ns, by simp [hd, h1]; rfl, h2, by simp at *; omega⟩
    · obtain ⟨v, ns, h1, h2, h3⟩ := strtolLoop_ok _ 0 h0
      rw [hp.1] at h1 h3
      refine ⟨_, ns, by simp [hd, h1]; rfl, h2, by simpa using h3⟩
  · obtain ⟨v, ns, h1, h2, h3⟩ := strtolLoop_ok _ 0 h0
    exact ⟨_, ns, by simp [hp, h1]; rfl, h2, by simpa using h3⟩

theorem uBytes_length (c : Nat) : (uBytes c).length ≤ 2 := by
  unfold uBytes; split
  · simp
  · split <;> simp

theorem unescLoop_safe (sz : Nat) (hsz : 2 ≤ sz) : ∀ (fuel : Nat) (s dest : Buf) (ptr : Nat),
    (0 : UInt8) ∈ s → s.length ≤ fuel → dest.length = sz → ptr < sz →
    ∃ d p, unescLoop fuel s dest ptr (sz - 2) = .ok (d, p) ∧ d.length = sz ∧ p < sz := by
  intro fuel
  induction fuel with
  | zero => intro s dest ptr h hl; have := List.eq_nil_of_length_eq_zero (by omega : s.length = 0); subst this; simp at h
  | succ fuel ih =>
    intro s dest ptr h hl hd hp
    obtain ⟨c, s, rfl, _⟩ := rd0 h
    simp only [List.length_cons] at hl
    simp only [unescLoop]
    by_cases hstop : c = 0 ∨ ¬ ptr < sz - 2
    · exact ⟨dest, ptr, by rw [if_pos hstop], hd, hp⟩
    · rw [if_neg hstop]
      simp only [not_or, Decidable.not_not] at hstop
      obtain ⟨hc0, hlim⟩ := hstop
      have h' := mem_tail h hc0
      have hw : ∀ v, wr dest ptr v = .ok (patch dest ptr [v]) := fun v => wr_eq (by omega)
      have hpl : ∀ v : UInt8, (patch dest ptr [v]).length = sz := fun v => by rw [patch_length (by simp; omega), hd]
      by_cases h43 : c = 43
      · rw [if_pos h43, hw, Res.ok_bind]
        exact ih _ _ _ h' (by omega) (hpl _) (by omega)
      · rw [if_neg h43]
        have hA : ∃ b, (if c = 37 then two s else .ok false : Res Bool) = .ok b ∧
            (b = true → ∃ x y t, s = x :: y :: t ∧ isxdigit x = true ∧ isxdigit y = true ∧ (0 : UInt8) ∈ t) := by
          split
          · exact two_ok h'
          · exact ⟨false, rfl, by simp⟩
        obtain ⟨b1, e1, f1⟩ := hA
        rw [e1, Res.ok_bind]
        cases b1 with
        | true =>
          obtain ⟨x, y, t, rfl, _, _, ht⟩ := f1 rfl
          simp only [if_true, xnum, rd_cons_zero, rd_cons_succ, Res.ok_bind, hw, List.drop_succ_cons, List.drop_zero]
          exact ih _ _ _ ht (by simp at hl; omega) (hpl _) (by omega)
        | false =>
          simp only [Bool.false_eq_true, if_false]
          have hB : ∃ b, (if c = 37 then isU s else .ok false : Res Bool) = .ok b ∧
              (b = true → ∃ y t, s = 117 :: y :: t ∧ isxdigit y = true ∧ (0 : UInt8) ∈ t) := by
            split
            · exact isU_ok h'
            · exact ⟨false, rfl, by simp⟩
          obtain ⟨b2, e2, f2⟩ := hB
          rw [e2, Res.ok_bind]
          cases b2 with
          | true =>
            obtain ⟨y, t, rfl, hy, ht⟩ := f2 rfl
            obtain ⟨v, ns, hv, hns, hnl⟩ := strtol16_ok ht hy
            simp only [if_true, List.tail_cons, hv, Res.ok_bind]
            have := uBytes_length (v % 2 ^ 32)
            rw [wrs_spec _ _ _ (by omega), Res.ok_bind]
            exact ih _ _ _ hns (by simp at hl hnl; omega) (by rw [patch_length (by omega), hd]) (by omega)
          | false =>
            simp only [Bool.false_eq_true, if_false]
            have hC : ∃ b, (if c = 92 then isX s else .ok false : Res Bool) = .ok b ∧
                (b = true → ∃ x y t, s = 120 :: x :: y :: t ∧ isxdigit x = true ∧ isxdigit y = true ∧ (0 : UInt8) ∈ t) := by
              split
              · exact isX_ok h'
              · exact ⟨false, rfl, by simp⟩
            obtain ⟨b3, e3, f3⟩ := hC
            rw [e3, Res.ok_bind]
            cases b3 with
            | true =>
              obtain ⟨x, y, t, rfl, _, _, ht⟩ := f3 rfl
              simp only [if_true, xnum, List.tail_cons, rd_cons_zero, rd_cons_succ, Res.ok_bind, hw, List.drop_succ_cons, List.drop_zero]
              exact ih _ _ _ ht (by simp at hl; omega) (hpl _) (by omega)
            | false =>
              simp only [Bool.false_eq_true, if_false, hw, Res.ok_bind]
              exact ih _ _ _ h' (by omega) (hpl _) (by omega)

theorem preLoop_safe (sz : Nat) : ∀ (fuel : Nat) (s dest : Buf) (ptr : Nat),
    (0 : UInt8) ∈ s → s.length ≤ fuel → dest.length = sz → ptr + slen s < sz →
    ∃ d p, preLoop fuel s dest ptr sz = .ok (d, p) ∧ d.length = sz ∧ p < sz := by
  intro fuel
  induction fuel with
  | zero => intro s dest ptr h hl; have := List.eq_nil_of_length_eq_zero (by omega : s.length = 0); subst this; simp at h
  | succ fuel ih =>
    intro s dest ptr h hl hd hp
    obtain ⟨c, s, rfl, _⟩ := rd0 h
    simp only [List.length_cons] at hl
    simp only [preLoop]
    by_cases hstop : c = 0 ∨ ¬ ptr < sz + 5
    · exact ⟨dest, ptr, by rw [if_pos hstop], hd, by omega⟩
    · rw [if_neg hstop]
      simp only [not_or, Decidable.not_not] at hstop
      obtain ⟨hc0, hlim⟩ := hstop
      have h' := mem_tail h hc0
      rw [slen_cons hc0] at hp
      have hw : ∀ v, wr dest ptr v = .ok (patch dest ptr [v]) := fun v => wr_eq (by omega)
      have hpl : ∀ v : UInt8, (patch dest ptr [v]).length = sz := fun v => by rw [patch_length (by simp; omega), hd]
      have hA : ∃ b, (if c = 37 then two s else .ok false : Res Bool) = .ok b ∧
          (b = true → ∃ x y t, s = x :: y :: t ∧ isxdigit x = true ∧ isxdigit y = true ∧ (0 : UInt8) ∈ t) := by
        split
        · exact two_ok h'
        · exact ⟨false, rfl, by simp⟩
      obtain ⟨b1, e1, f1⟩ := hA
      rw [e1, Res.ok_bind]
      cases b1 with
      | true =>
        obtain ⟨x, y, t, rfl, hx, hy, ht⟩ := f1 rfl
        rw [slen_cons (xdigit_ne hx), slen_cons (xdigit_ne hy)] at hp
        simp only [List.length_cons] at hl
        simp only [if_true, xnum, rd_cons_zero, rd_cons_succ, Res.ok_bind, hw, List.drop_succ_cons, List.drop_zero,
          List.take_succ_cons, List.take_zero]
        split
        · exact ih _ _ _ ht (by omega) (hpl _) (by omega)
        · split
          · rw [wrs_spec _ _ _ (by simp; omega), Res.ok_bind]
            exact ih _ _ _ ht (by omega) (by rw [patch_length (by simp; omega), hd]) (by omega)
          · exact ih _ _ _ ht (by omega) hd (by omega)
      | false =>
        simp only [Bool.false_eq_true, if_false]
        have hC : ∃ b, (if c = 92 then isX s else .ok false : Res Bool) = .ok b ∧
            (b = true → ∃ x y t, s = 120 :: x :: y :: t ∧ isxdigit x = true ∧ isxdigit y = true ∧ (0 : UInt8) ∈ t) := by
          split
          · exact isX_ok h'
          · exact ⟨false, rfl, by simp⟩
        obtain ⟨b3, e3, f3⟩ := hC
        rw [e3, Res.ok_bind]
        cases b3 with
        | true =>
          obtain ⟨x, y, t, rfl, hx, hy, ht⟩ := f3 rfl
          rw [slen_cons (by decide), slen_cons (xdigit_ne hx), slen_cons (xdigit_ne hy)] at hp
          simp only [List.length_cons] at hl
          simp only [if_true, xnum, List.tail_cons, rd_cons_zero, rd_cons_succ, Res.ok_bind, hw, List.drop_succ_cons, List.drop_zero,
            List.take_succ_cons, List.take_zero]
          split
          · exact ih _ _ _ ht (by omega) (hpl _) (by omega)
          · split
            · rw [wrs_spec _ _ _ (by simp; omega), Res.ok_bind]
              exact ih _ _ _ ht (by omega) (by rw [patch_length (by simp; omega), hd]) (by omega)
            · exact ih _ _ _ ht (by omega) hd (by omega)
        | false =>
          simp only [Bool.false_eq_true, if_false, hw, Res.ok_bind]
          exact ih _ _ _ h' (by omega) (hpl _) (by omega)

end Verif.Url
