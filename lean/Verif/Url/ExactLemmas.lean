import Verif.Url.UnescLemmas
import Verif.Url.ExactSpec

set_option linter.unusedSimpArgs false
set_option linter.unusedVariables false

namespace Verif.Url
open Spec (hexv hexDigit utf8 num4 Unesc number code below800 Does)

theorem uBytes_small : ∀ n : Fin 2048, uBytes n.val = below800 n.val := by decide +kernel

theorem uBytes_eq (n : Nat) : uBytes n = below800 n := by
  by_cases h : n < 2048
  · exact uBytes_small ⟨n, h⟩
  · unfold uBytes below800
    rw [if_neg (by omega), if_neg (by omega), if_neg (by omega)]

theorem below800_length (n : Nat) : (below800 n).length ≤ 2 := by
  rw [← uBytes_eq]; exact uBytes_length n

theorem strtolLoop_digits (s rest : Buf) (h : Spec.one s = false) : ∀ (ds : Buf) (acc : Nat), (∀ c ∈ ds, hexDigit c = true) →
    strtolLoop (ds ++ (s ++ 0 :: rest)) acc = .ok (ds.foldl (fun n c => n * 16 + hexv c) acc, s ++ 0 :: rest) := by
  intro ds
  induction ds with
  | nil => intro acc _; exact strtolLoop_stop s rest acc h
  | cons d ds ih =>
    intro acc hd
    have h1 := hd d (by simp)
    rw [hexDigit_eq] at h1
    rw [List.cons_append, strtolLoop, if_pos h1, ih _ (fun c hc => hd c (by simp [hc])), List.foldl_cons, xval_eq h1]

theorem rd0_cases (s rest : Buf) (c : UInt8) (h : rd (s ++ 0 :: rest) 0 = .ok c) (hc : c ≠ 0) : ∃ s', s = c :: s' := by
  cases s with
  | nil => simp at h; exact absurd h.symm hc
  | cons a s => simp at h; exact ⟨s, by rw [h]⟩

theorem one_rd (s rest : Buf) : ∃ c, rd (s ++ 0 :: rest) 0 = .ok c ∧ isxdigit c = Spec.one s := by
  cases s with
  | nil => exact ⟨0, by simp, by decide⟩
  | cons a s => exact ⟨a, by simp, by simp [Spec.one, hexDigit_eq]⟩

theorem strtol16_digits {ds s : Buf} (rest : Buf) (hne : ds ≠ []) (hd : ∀ c ∈ ds, hexDigit c = true) (h : Spec.one s = false)
    (hx : ds = [48] → ∀ x s', s = x :: s' → x = 120 ∨ x = 88 → Spec.one s' = false) :
    strtol16 (ds ++ (s ++ 0 :: rest)) = .ok (min (number ds) (2 ^ 63 - 1), s ++ 0 :: rest) := by
  have key : ∃ c0 c1, rd (ds ++ (s ++ 0 :: rest)) 0 = .ok c0 ∧ rd (ds ++ (s ++ 0 :: rest)) 1 = .ok c1 ∧
      (c0 = 48 ∧ (c1 = 120 ∨ c1 = 88) → ∃ c2, rd (ds ++ (s ++ 0 :: rest)) 2 = .ok c2 ∧ isxdigit c2 = false) := by
    match ds, hne, hd, hx with
    | [d], _, _, hx =>
      obtain ⟨c1, h1, h2⟩ := one_rd s rest
      refine ⟨d, c1, by simp, by simpa using h1, ?_⟩
      rintro ⟨rfl, hc⟩
      have : ∃ s', s = c1 :: s' := rd0_cases s rest c1 h1 (by rcases hc with rfl | rfl <;> decide)
      obtain ⟨s', rfl⟩ := this
      obtain ⟨c2, h3, h4⟩ := one_rd s' rest
      exact ⟨c2, by simpa using h3, by rw [h4]; exact hx rfl c1 s' rfl hc⟩
    | d :: e :: ds, _, hd, _ =>
      refine ⟨d, e, by simp, by simp, ?_⟩
      rintro ⟨_, hc⟩
      have := hd e (by simp)
      rw [hexDigit_eq] at this
      obtain ⟨a, b, -⟩ := xdigit_not this
      rcases hc with hc | hc
      · exact absurd hc a
      · exact absurd hc b
  obtain ⟨c0, c1, h0, h1, h2⟩ := key
  unfold strtol16
  rw [h0, Res.ok_bind, h1, Res.ok_bind]
  have hp : (if c0 = 48 ∧ (c1 = 120 ∨ c1 = 88) then do
      let c2 ← rd (ds ++ (s ++ 0 :: rest)) 2
      .ok (isxdigit c2)
    else .ok false : Res Bool) = .ok false := by
    split
    · rename_i hc
      obtain ⟨c2, h3, h4⟩ := h2 hc
      rw [h3, Res.ok_bind, h4]
    · rfl
  rw [hp, Res.ok_bind]
  simp only [Bool.false_eq_true, if_false]
  rw [strtolLoop_digits s rest h ds 0 hd]
  rfl

theorem strtol16_0x {ds s : Buf} (rest : Buf) {x : UInt8} (hx : x = 120 ∨ x = 88) (hne : ds ≠ []) (hd : ∀ c ∈ ds, hexDigit c = true) (h : Spec.one s = false) :
    strtol16 (48 :: x :: (ds ++ (s ++ 0 :: rest))) = .ok (min (number ds) (2 ^ 63 - 1), s ++ 0 :: rest) := by
  cases ds with
  | nil => exact absurd rfl hne
  | cons d ds =>
    have h1 := hd d (by simp)
    rw [hexDigit_eq] at h1
    simp only [strtol16, rd_cons_zero, rd_cons_succ, Res.ok_bind, hx, and_self, if_true, List.cons_append, h1, List.drop_succ_cons, List.drop_zero]
    have := strtolLoop_digits s rest h (d :: ds) 0 hd
    rw [List.cons_append] at this
    rw [this]
    rfl

theorem wrs_ub : ∀ (vs : List UInt8) (b : Buf) (o : Nat), o ≤ b.length → b.length < o + vs.length → wrs b o vs = .ub := by
  intro vs
  induction vs with
  | nil => intro b o h1 h2; simp at h2; omega
  | cons v vs ih =>
    intro b o h1 h2
    by_cases h : o < b.length
    · rw [wrs, wr_eq h, Res.ok_bind]
      have : (patch b o [v]).length = b.length := patch_length (by simp; omega)
      exact ih _ _ (by omega) (by rw [this]; simp at h2; omega)
    · simp [wrs, wr, h]

/-- What one round of the loop does with the beginning `tok` of the text: it writes `e`. -/
def Tok (tok e : Buf) (s rest : Buf) : Prop := ∀ (fuel : Nat) (dest : Buf) (ptr lim : Nat), ptr < lim →
  unescLoop (fuel + 1) (tok ++ (s ++ 0 :: rest)) dest ptr lim = (wrs dest ptr e).bind (fun d => unescLoop fuel (s ++ 0 :: rest) d (ptr + e.length) lim)

theorem wrs_one (b : Buf) (o : Nat) (v : UInt8) : wrs b o [v] = wr b o v := by
  unfold wrs
  cases wr b o v <;> rfl

theorem tok_of (rest : Buf) {cs t : Buf} (h : Does cs t) : (∀ c ∈ cs, c ≠ 0) → cs = [] ∧ t = [] ∨ ∃ tok e s t', cs = tok ++ s ∧ t = e ++ t' ∧ tok ≠ [] ∧ e.length ≤ 2 ∧ Does s t' ∧ Tok tok e s rest := by
  intro hnz
  cases h with
  | nil => exact Or.inl ⟨rfl, rfl⟩
  | @plus s t h =>
    refine Or.inr ⟨[43], [32], s, t, rfl, rfl, by simp, by simp, h, ?_⟩
    intro fuel dest ptr lim hlim
    have e1 : ((43 : UInt8) = 0 ∨ ¬ ptr < lim) = False := by simp only [hlim, not_true, or_false]; decide
    simp only [List.cons_append, List.nil_append, unescLoop, e1, if_false, if_true, wrs_one, List.length_singleton]
    rfl
  | @pct a b s t ha hb h =>
    refine Or.inr ⟨[37, a, b], [UInt8.ofNat (16 * hexv a + hexv b)], s, t, rfl, rfl, by simp, by simp, h, ?_⟩
    intro fuel dest ptr lim hlim
    rw [hexDigit_eq] at ha hb
    have e : UInt8.ofNat (xval a * 16 + xval b) = UInt8.ofNat (16 * hexv a + hexv b) := by rw [xval_eq ha, xval_eq hb, Nat.mul_comm]
    have e1 : ((37 : UInt8) = 0 ∨ ¬ ptr < lim) = False := by simp only [hlim, not_true, or_false]; decide
    have e2 : ((37 : UInt8) = 43) = False := by decide
    simp only [List.cons_append, List.nil_append, unescLoop, e1, e2, if_false, if_true, two, rd_cons_zero, rd_cons_succ, ha, hb, Res.ok_bind, xnum, e, List.drop_succ_cons, List.drop_zero,
      wrs_one, List.length_singleton]
    rfl
  | @uni ds s t hne hd hs hx h =>
    refine Or.inr ⟨37 :: 117 :: ds, below800 (code ds), s, t, by simp, rfl, by simp, below800_length _, h, ?_⟩
    intro fuel dest ptr lim hlim
    have n117 : isxdigit 117 = false := by decide
    have e1 : ((37 : UInt8) = 0 ∨ ¬ ptr < lim) = False := by simp only [hlim, not_true, or_false]; decide
    have e2 : ((37 : UInt8) = 43) = False := by decide
    have hr : rd (ds ++ (s ++ 0 :: rest)) 0 = .ok (ds.head hne) ∧ isxdigit (ds.head hne) = true := by
      cases ds with
      | nil => exact absurd rfl hne
      | cons d ds => exact ⟨by simp, by rw [← hexDigit_eq]; exact hd d (by simp)⟩
    simp only [List.cons_append, unescLoop, e1, e2, if_false, if_true, two, rd_cons_zero, n117, Res.ok_bind, Bool.false_eq_true, isU, rd_cons_succ, hr, List.tail_cons,
      strtol16_digits rest hne hd hs hx, uBytes_eq]
    rfl
  | @uni0x x ds s t hx hne hd hs h =>
    refine Or.inr ⟨37 :: 117 :: 48 :: x :: ds, below800 (code ds), s, t, by simp, rfl, by simp, below800_length _, h, ?_⟩
    intro fuel dest ptr lim hlim
    have n117 : isxdigit 117 = false := by decide
    have n48 : isxdigit 48 = true := by decide
    have e1 : ((37 : UInt8) = 0 ∨ ¬ ptr < lim) = False := by simp only [hlim, not_true, or_false]; decide
    have e2 : ((37 : UInt8) = 43) = False := by decide
    simp only [List.cons_append, unescLoop, e1, e2, if_false, if_true, two, rd_cons_zero, n117, n48, Res.ok_bind, Bool.false_eq_true, isU, rd_cons_succ, List.tail_cons,
      strtol16_0x rest hx hne hd hs, uBytes_eq]
    rfl
  | @hex a b s t ha hb h =>
    refine Or.inr ⟨[92, 120, a, b], [UInt8.ofNat (16 * hexv a + hexv b)], s, t, rfl, rfl, by simp, by simp, h, ?_⟩
    intro fuel dest ptr lim hlim
    rw [hexDigit_eq] at ha hb
    have e : UInt8.ofNat (xval a * 16 + xval b) = UInt8.ofNat (16 * hexv a + hexv b) := by rw [xval_eq ha, xval_eq hb, Nat.mul_comm]
    have e1 : ((92 : UInt8) = 0 ∨ ¬ ptr < lim) = False := by simp only [hlim, not_true, or_false]; decide
    have e2 : ((92 : UInt8) = 43) = False := by decide
    have e3 : ((92 : UInt8) = 37) = False := by decide
    simp only [List.cons_append, List.nil_append, unescLoop, e1, e2, e3, if_false, Res.ok_bind, Bool.false_eq_true, if_true, isX, List.tail_cons, two, rd_cons_zero, rd_cons_succ, ha, hb,
      xnum, e, List.drop_succ_cons, List.drop_zero, wrs_one, List.length_singleton]
    rfl
  | @other c s t h43 h37 h92 h =>
    refine Or.inr ⟨[c], [c], s, t, rfl, rfl, by simp, by simp, h, ?_⟩
    intro fuel dest ptr lim hlim
    have hc0 : c ≠ 0 := hnz c (by simp)
    have e1 : (if c = 37 then two (s ++ 0 :: rest) else .ok false : Res Bool) = .ok false := by
      split
      · rename_i hc; rw [two_spec, (h37 hc).1]
      · rfl
    have e2 : (if c = 37 then isU (s ++ 0 :: rest) else .ok false : Res Bool) = .ok false := by
      split
      · rename_i hc
        rw [isU_spec]
        have := (h37 hc).2
        split
        · rename_i s'; rw [this s' rfl]
        · rfl
      · rfl
    have e3 : (if c = 92 then isX (s ++ 0 :: rest) else .ok false : Res Bool) = .ok false := by
      split
      · rename_i hc
        rw [isX_spec]
        have := h92 hc
        split
        · rename_i s'; rw [this s' rfl]
        · rfl
      · rfl
    simp only [List.cons_append, List.nil_append, unescLoop, hc0, hlim, not_true, or_self, h43, if_false, e1, e2, e3, Res.ok_bind, Bool.false_eq_true, wrs_one, List.length_singleton]
    rfl

/-- The loop with a limit `lim` that leaves two bytes of the buffer. -/
theorem unescLoop_does (rest : Buf) (sz : Nat) (hsz : 2 ≤ sz) : ∀ (n : Nat) (cs t : Buf), cs.length ≤ n → Does cs t → (∀ c ∈ cs, c ≠ 0) → ∀ (fuel : Nat) (dest : Buf) (ptr : Nat),
    (cs ++ 0 :: rest).length ≤ fuel → dest.length = sz → ptr < sz →
    ∃ p, unescLoop fuel (cs ++ 0 :: rest) dest ptr (sz - 2) = .ok (patch dest ptr (t.take p), ptr + p) ∧ p ≤ t.length ∧ ptr + p < sz ∧ (p = t.length ∨ sz - 2 ≤ ptr + p) := by
  intro n
  induction n with
  | zero =>
    intro cs t hn h _ fuel dest ptr hf hd hp
    have : cs = [] := List.length_eq_zero_iff.mp (by omega)
    subst this
    cases h
    refine ⟨0, ?_, by simp, by omega, Or.inl rfl⟩
    rw [List.take_zero, patch_nil]
    cases fuel with
    | zero => simp at hf
    | succ fuel => simp [unescLoop]
  | succ n ih =>
    intro cs t hn h hnz fuel dest ptr hf hd hp
    cases fuel with
    | zero => simp at hf
    | succ fuel =>
    by_cases hlim : ptr < sz - 2
    · rcases tok_of rest h hnz with ⟨rfl, rfl⟩ | ⟨tok, e, s, t', rfl, rfl, hne, he, h', hT⟩
      · exact ⟨0, by rw [List.take_zero, patch_nil]; simp [unescLoop], by simp, by omega, Or.inl rfl⟩
      · have hl := List.length_pos_iff.mpr hne
        simp only [List.length_append, List.length_cons] at hn hf
        obtain ⟨p, h1, h2, h3, h4⟩ := ih s t' (by omega) h' (fun c hc => hnz c (by simp [hc])) fuel (patch dest ptr e) (ptr + e.length)
          (by simp only [List.length_append, List.length_cons]; omega) (by rw [patch_length (by omega), hd]) (by omega)
        refine ⟨e.length + p, ?_, by rw [List.length_append]; omega, by omega, ?_⟩
        · rw [List.append_assoc, hT fuel dest ptr _ hlim, wrs_spec _ _ _ (by omega)]
          show unescLoop _ _ _ _ _ = _
          rw [h1, patch_patch (by omega), List.take_length_add_append, Nat.add_assoc]
        · rw [List.length_append]
          rcases h4 with h4 | h4
          · exact Or.inl (by omega)
          · exact Or.inr (by omega)
    · refine ⟨0, ?_, by omega, by omega, Or.inr (by omega)⟩
      rw [List.take_zero, patch_nil]
      cases cs with
      | nil => simp [unescLoop]
      | cons c cs => simp [unescLoop, hlim]

/-- The loop with a limit beyond the buffer. -/
theorem unescLoop_wild (rest : Buf) (lim : Nat) : ∀ (n : Nat) (cs t : Buf), cs.length ≤ n → Does cs t → (∀ c ∈ cs, c ≠ 0) → ∀ (fuel : Nat) (dest : Buf) (ptr : Nat),
    (cs ++ 0 :: rest).length ≤ fuel → dest.length < lim → ptr ≤ dest.length →
    unescLoop fuel (cs ++ 0 :: rest) dest ptr lim = if ptr + t.length ≤ dest.length then .ok (patch dest ptr t, ptr + t.length) else .ub := by
  intro n
  induction n with
  | zero =>
    intro cs t hn h _ fuel dest ptr hf hd hp
    have : cs = [] := List.length_eq_zero_iff.mp (by omega)
    subst this
    cases h
    cases fuel with
    | zero => simp at hf
    | succ fuel => simp [unescLoop, patch_nil, hp]
  | succ n ih =>
    intro cs t hn h hnz fuel dest ptr hf hd hp
    cases fuel with
    | zero => simp at hf
    | succ fuel =>
    rcases tok_of rest h hnz with ⟨rfl, rfl⟩ | ⟨tok, e, s, t', rfl, rfl, hne, he, h', hT⟩
    · simp [unescLoop, patch_nil, hp]
    · have hl := List.length_pos_iff.mpr hne
      simp only [List.length_append, List.length_cons] at hn hf
      rw [List.append_assoc, hT fuel dest ptr _ (by omega)]
      by_cases hfit : ptr + e.length ≤ dest.length
      · rw [wrs_spec _ _ _ (by omega)]
        show unescLoop _ _ _ _ _ = _
        have hpl : (patch dest ptr e).length = dest.length := patch_length (by omega)
        rw [ih s t' (by omega) h' (fun c hc => hnz c (by simp [hc])) fuel _ _ (by simp only [List.length_append, List.length_cons]; omega) (by omega) (by omega), hpl]
        by_cases h2 : ptr + e.length + t'.length ≤ dest.length
        · rw [if_pos h2, if_pos (by rw [List.length_append]; omega), patch_patch (by omega), List.length_append, Nat.add_assoc]
        · rw [if_neg h2, if_neg (by rw [List.length_append]; omega)]
      · rw [wrs_ub _ _ _ hp (by omega), if_neg (by rw [List.length_append]; omega)]
        rfl

end Verif.Url
