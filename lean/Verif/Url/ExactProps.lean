/-
  C22, C23, C108 for every text and every buffer size: what coda_url_unescape writes, and exactly when it and coda_url_escape leave their buffers.
-/
import Verif.Url.ExactLemmas

set_option linter.unusedSimpArgs false
set_option linter.unusedVariables false

namespace Verif.Url
open Spec (CString enc hexU pct unreserved hexv hexDigit utf8 num4 Unesc number code below800 Does)

theorem takeDigits (s : Buf) : ∃ ds r, s = ds ++ r ∧ (∀ c ∈ ds, hexDigit c = true) ∧ Spec.one r = false := by
  induction s with
  | nil => exact ⟨[], [], rfl, by simp, rfl⟩
  | cons c s ih =>
    by_cases h : hexDigit c = true
    · obtain ⟨ds, r, rfl, h1, h2⟩ := ih
      refine ⟨c :: ds, r, rfl, ?_, h2⟩
      intro x hx
      rcases List.mem_cons.mp hx with rfl | hx
      · exact h
      · exact h1 x hx
    · exact ⟨[], c :: s, rfl, by simp, by simpa [Spec.one] using h⟩

/-- Every text is one that `Does` says something about. -/
theorem C108_does_total (cs : Buf) : ∃ t, Does cs t := by
  have key : ∀ n, ∀ cs : Buf, cs.length ≤ n → ∃ t, Does cs t := by
    intro n
    induction n with
    | zero =>
      intro cs hl
      cases cs with
      | nil => exact ⟨_, .nil⟩
      | cons c s => simp at hl
    | succ n ih =>
      intro cs hl
      match cs, hl with
      | [], _ => exact ⟨_, .nil⟩
      | c :: s, hl =>
        simp only [List.length_cons] at hl
        by_cases h43 : c = 43
        · obtain ⟨t, ht⟩ := ih s (by omega)
          subst h43
          exact ⟨_, .plus ht⟩
        · by_cases hp : c = 37 ∧ Spec.two s = true
          · obtain ⟨rfl, h2⟩ := hp
            match s, h2, hl with
            | a :: b :: s, h2, hl =>
              simp only [Spec.two, Bool.and_eq_true] at h2
              simp only [List.length_cons] at hl
              obtain ⟨t, ht⟩ := ih s (by omega)
              exact ⟨_, .pct h2.1 h2.2 ht⟩
          · by_cases hx : c = 92 ∧ ∃ s', s = 120 :: s' ∧ Spec.two s' = true
            · obtain ⟨rfl, s', rfl, h2⟩ := hx
              match s', h2, hl with
              | a :: b :: s, h2, hl =>
                simp only [Spec.two, Bool.and_eq_true] at h2
                simp only [List.length_cons] at hl
                obtain ⟨t, ht⟩ := ih s (by omega)
                exact ⟨_, .hex h2.1 h2.2 ht⟩
            · by_cases hu : c = 37 ∧ ∃ s', s = 117 :: s' ∧ Spec.one s' = true
              · obtain ⟨rfl, s', rfl, h2⟩ := hu
                simp only [List.length_cons] at hl
                obtain ⟨ds, r, rfl, h3, h4⟩ := takeDigits s'
                simp only [List.length_append] at hl
                have hne : ds ≠ [] := by rintro rfl; rw [List.nil_append] at h2; rw [h2] at h4; cases h4
                by_cases h0 : ds = [48] ∧ ∃ x r', r = x :: r' ∧ (x = 120 ∨ x = 88) ∧ Spec.one r' = true
                · obtain ⟨rfl, x, r', rfl, h5, h6⟩ := h0
                  obtain ⟨ds', r, rfl, h7, h8⟩ := takeDigits r'
                  simp only [List.length_append, List.length_cons] at hl
                  obtain ⟨t, ht⟩ := ih r (by omega)
                  exact ⟨_, .uni0x h5 (by rintro rfl; rw [List.nil_append] at h6; rw [h6] at h8; cases h8) h7 h8 ht⟩
                · obtain ⟨t, ht⟩ := ih r (by omega)
                  refine ⟨_, .uni hne h3 h4 ?_ ht⟩
                  intro h5 x s' h6 h7
                  cases h8 : Spec.one s' with
                  | false => rfl
                  | true => exact absurd ⟨h5, x, s', h6, h7, h8⟩ h0
              · obtain ⟨t, ht⟩ := ih s (by omega)
                refine ⟨_, .other h43 ?_ ?_ ht⟩
                · intro hc
                  refine ⟨?_, ?_⟩
                  · cases h2 : Spec.two s with
                    | false => rfl
                    | true => exact absurd ⟨hc, h2⟩ hp
                  · intro s' hs'
                    cases h2 : Spec.one s' with
                    | false => rfl
                    | true => exact absurd ⟨hc, s', hs', h2⟩ hu
                · intro hc s' hs'
                  cases h2 : Spec.two s' with
                  | false => rfl
                  | true => exact absurd ⟨hc, s', hs', h2⟩ hx
  exact key cs.length cs (Nat.le_refl _)

/-- What a text stands for by `Unesc` is what `Does` says. -/
theorem C108_does_of_unesc {cs t : Buf} (h : Unesc cs t) : Does cs t := by
  induction h with
  | nil => exact .nil
  | plus _ ih => exact .plus ih
  | pct ha hb _ ih => exact .pct ha hb ih
  | @uni a b c d s t ha hb hc hd hs hlt hne _ ih =>
    have e : number [a, b, c, d] = num4 a b c d := by simp [number, num4]
    have e2 : code [a, b, c, d] = num4 a b c d := by
      unfold code
      rw [e, Nat.min_eq_left (by omega), Nat.mod_eq_of_lt (by omega)]
    have := Does.uni (ds := [a, b, c, d]) (s := s) (t := t) (by simp) (by simp [ha, hb, hc, hd]) hs (by intro h; simp at h) ih
    rw [e2] at this
    unfold below800 at this
    rw [if_pos ⟨hlt, hne⟩] at this
    exact this
  | hex ha hb _ ih => exact .hex ha hb ih
  | other h1 h2 h3 _ ih => exact .other h1 h2 h3 ih

/-- **C108 (partial)** What `coda_url_unescape` writes for every string and every `sz ≥ 2`: the bytes that `Does` gives for it and NULs to the end of the buffer, or the first `sz - 2` or
`sz - 1` of these bytes. -/
theorem C108_exact_partial (s cs t dest : Buf) (sz : Nat) (hs : CString s cs) (hu : Does cs t) (hd : dest.length = sz) (hsz : 2 ≤ sz) :
    ∃ p, coda_url_unescape s dest sz = .ok (t.take p ++ List.replicate (sz - p) 0) ∧ p ≤ t.length ∧ p < sz ∧ (p < t.length → sz ≤ p + 2) := by
  obtain ⟨hnz, rest, rfl⟩ := hs
  unfold coda_url_unescape
  rw [wrs_spec _ _ _ (by simp; omega), Res.ok_bind, patch_all (e := List.replicate sz 0) (by simp [hd]), subZ_eq (by omega)]
  obtain ⟨p, h1, h2, h3, h4⟩ := unescLoop_does rest sz hsz cs.length cs t (Nat.le_refl _) hu hnz (cs ++ 0 :: rest).length (List.replicate sz 0) 0 (Nat.le_refl _) (by simp) (by omega)
  rw [h1]
  simp only [Res.ok_bind]
  have hl : (t.take p).length = p := by simp; omega
  refine ⟨p, ?_, h2, by omega, by intro h; omega⟩
  rw [wr_patch (by omega) (by simp; omega), patch_zero_zero (by omega)]
  simp only [patch, List.take_zero, List.nil_append, Nat.zero_add, List.drop_replicate, hl]

-- "%u0x416" and "%u00000416z" give U+0416 and U+0416, "z"; "%u0416a" nothing
example : Does [37, 117, 48, 120, 52, 49, 54] [208, 150] ∧ Does [37, 117, 48, 48, 48, 48, 48, 52, 49, 54, 122] [208, 150, 122] ∧ Does [37, 117, 48, 52, 49, 54, 97] [] :=
  ⟨.uni0x (x := 120) (ds := [52, 49, 54]) (s := []) (Or.inl rfl) (by simp) (by decide) rfl .nil,
   .uni (ds := [48, 48, 48, 48, 48, 52, 49, 54]) (s := [122]) (by simp) (by decide) rfl (by intro h; simp at h) (.other (by decide) (by intro h; cases h) (by intro h; cases h) .nil),
   .uni (ds := [48, 52, 49, 54, 97]) (s := []) (by simp) (by decide) rfl (by intro h; simp at h) .nil⟩

/-- Two texts one after the other, the second of which begins with '%'. -/
theorem does_append {pre t1 : Buf} (h1 : Does pre t1) {r t2 : Buf} (h2 : Does (37 :: r) t2) : Does (pre ++ 37 :: r) (t1 ++ t2) := by
  have o : ∀ s : Buf, Spec.one s = false → Spec.one (s ++ 37 :: r) = false := by
    intro s h
    cases s with
    | nil => rfl
    | cons c s => exact h
  have tw : ∀ s : Buf, Spec.two s = false → Spec.two (s ++ 37 :: r) = false := by
    intro s h
    match s, h with
    | [], _ => cases r <;> rfl
    | [c], _ => simp [Spec.two, show hexDigit 37 = false by decide]
    | c :: d :: s, h => exact h
  induction h1 with
  | nil => exact h2
  | plus _ ih => exact .plus ih
  | pct ha hb _ ih => exact .pct ha hb ih
  | @uni ds s t hne hd hs hx _ ih =>
    have := Does.uni (s := s ++ 37 :: r) hne hd (o s hs) (by
      intro h x s' e hx'
      cases s with
      | nil => simp at e; rcases hx' with hx' | hx' <;> (rw [hx'] at e; exact absurd e.1 (by decide))
      | cons y s => simp at e; obtain ⟨rfl, rfl⟩ := e; exact o s (hx h y s rfl hx')) ih
    simpa [List.append_assoc] using this
  | @uni0x x ds s t hx hne hd hs _ ih =>
    have := Does.uni0x (s := s ++ 37 :: r) hx hne hd (o s hs) ih
    simpa [List.append_assoc] using this
  | hex ha hb _ ih => exact .hex ha hb ih
  | @other c s t h43 h37 h92 _ ih =>
    refine .other h43 ?_ ?_ ih
    · intro hc
      refine ⟨tw s (h37 hc).1, ?_⟩
      intro s' e
      cases s with
      | nil => simp at e
      | cons y s => simp at e; obtain ⟨rfl, rfl⟩ := e; exact o s ((h37 hc).2 s rfl)
    · intro hc s' e
      cases s with
      | nil => simp at e
      | cons y s => simp at e; obtain ⟨rfl, rfl⟩ := e; exact tw s (h92 hc s rfl)

/-- The whole output, when there is room. -/
theorem does_room (s cs t dest : Buf) (sz : Nat) (hs : CString s cs) (hu : Does cs t) (hd : dest.length = sz) (hsz : t.length + 2 ≤ sz) :
    coda_url_unescape s dest sz = .ok (t ++ List.replicate (sz - t.length) 0) := by
  obtain ⟨p, h1, h2, h3, h4⟩ := C108_exact_partial s cs t dest sz hs hu hd (by omega)
  -- nothing is cut as the loop goes on until `sz - 2`
  obtain ⟨hnz, rest, rfl⟩ := hs
  by_cases hp : p < t.length
  · exact absurd (h4 hp) (by omega)
  · have : p = t.length := by omega
    rw [h1, this, List.take_length]

/-- **C108 refuted** for every "%uXXXX" of a character from U+0800 on or U+007F, whatever stands before and behind it: it disappears, and nothing tells the caller. -/
theorem C108_refuted_all (s pre post t1 t2 dest : Buf) (a b c d : UInt8) (sz : Nat) (ha : hexDigit a = true) (hb : hexDigit b = true) (hc : hexDigit c = true) (hd : hexDigit d = true)
    (hn : 0x800 ≤ num4 a b c d ∨ num4 a b c d = 127) (hs : CString s (pre ++ 37 :: 117 :: a :: b :: c :: d :: post)) (h1 : Does pre t1) (h2 : Does post t2) (hp : Spec.one post = false)
    (hl : dest.length = sz) (hsz : t1.length + t2.length + 2 ≤ sz) :
    coda_url_unescape s dest sz = .ok (t1 ++ t2 ++ List.replicate (sz - (t1 ++ t2).length) 0) := by
  have hv : ∀ x : UInt8, hexv x < 16 := hexv_lt
  have e : number [a, b, c, d] = num4 a b c d := by simp [number, num4]
  have hlt : num4 a b c d < 2 ^ 16 := by
    have := hv a; have := hv b; have := hv c; have := hv d
    unfold num4; omega
  have e2 : code [a, b, c, d] = num4 a b c d := by
    unfold code
    rw [e, Nat.min_eq_left (by omega), Nat.mod_eq_of_lt (by omega)]
  have h := Does.uni (ds := [a, b, c, d]) (s := post) (t := t2) (by simp) (by simp [ha, hb, hc, hd]) hp (by intro h; simp at h) h2
  rw [e2] at h
  unfold below800 at h
  rw [if_neg (by omega), List.nil_append] at h
  exact does_room s _ _ dest sz hs (does_append h1 h) hl (by rw [List.length_append]; omega)

-- "a%u20acb" gives "ab"
example : CString [97, 37, 117, 50, 48, 97, 99, 43, 0] ([97] ++ 37 :: 117 :: 50 :: 48 :: 97 :: 99 :: [43]) ∧ Does [97] [97] ∧ Does [43] [32] ∧ 0x800 ≤ num4 50 48 97 99 :=
  ⟨⟨by decide, [], rfl⟩, .other (by decide) (by intro h; cases h) (by intro h; cases h) .nil, .plus .nil, by decide⟩

theorem utf8_shape : ∀ n : Fin 2048, ((∃ u, utf8 n.val = [u] ∧ u < 128) ∨ ∃ u v, utf8 n.val = [u, v] ∧ 192 ≤ u ∧ u ≠ 0 ∧ v ≠ 0) := by
  intro n
  have := n.isLt
  unfold utf8
  split
  · refine Or.inl ⟨_, rfl, ?_⟩
    rw [UInt8.lt_iff_toNat_lt]
    simp
    omega
  · refine Or.inr ⟨_, _, rfl, ?_, ?_, ?_⟩
    · rw [UInt8.le_iff_toNat_le]; simp; omega
    · intro h
      have := congrArg UInt8.toNat h
      simp at this
      omega
    · intro h
      have := congrArg UInt8.toNat h
      simp at this
      omega

theorem below800_shape (n : Nat) : below800 n = [] ∨ (∃ x, below800 n = [x]) ∨ ∃ x y, below800 n = [x, y] ∧ 192 ≤ x := by
  unfold below800
  split
  · rename_i h
    rcases utf8_shape ⟨n, h.1⟩ with ⟨u, h1, -⟩ | ⟨u, v, h1, h2, -⟩
    · exact Or.inr (Or.inl ⟨u, h1⟩)
    · exact Or.inr (Or.inr ⟨u, v, h1, h2⟩)
  · exact Or.inl rfl

theorem plain_lt : ∀ c : UInt8, unreserved c.toNat = true ∨ c = 32 → ¬ c ≥ 128 := by
  apply byte_all
  decide +kernel

/-- **C108 refuted** for every "%uXXXX" of a character below U+0800 that a further hexadecimal digit follows: the output is never the character, then the digits as they are. -/
theorem C108_refuted_digits (s pre ds post t1 t2 dest : Buf) (a b c d : UInt8) (sz : Nat) (ha : hexDigit a = true) (hb : hexDigit b = true) (hc : hexDigit c = true) (hd : hexDigit d = true)
    (hne : ds ≠ []) (hds : ∀ c ∈ ds, hexDigit c = true) (hn : num4 a b c d < 0x800)
    (hs : CString s (pre ++ 37 :: 117 :: a :: b :: c :: d :: (ds ++ post))) (h1 : Does pre t1) (h2 : Does post t2) (hp : Spec.one post = false)
    (hl : dest.length = sz) (hsz : t1.length + (ds.length + 2) + t2.length + 2 ≤ sz) :
    (∃ r, coda_url_unescape s dest sz = .ok r) ∧
    coda_url_unescape s dest sz ≠ .ok (t1 ++ (utf8 (num4 a b c d) ++ ds) ++ t2 ++ List.replicate (sz - (t1 ++ (utf8 (num4 a b c d) ++ ds) ++ t2).length) 0) := by
  have h := Does.uni (ds := a :: b :: c :: d :: ds) (s := post) (t := t2) (by simp) (by
    intro x hx
    simp only [List.mem_cons] at hx
    rcases hx with rfl | rfl | rfl | rfl | hx
    · exact ha
    · exact hb
    · exact hc
    · exact hd
    · exact hds x hx) hp (by intro h; simp at h) h2
  have hlen := below800_length (code (a :: b :: c :: d :: ds))
  have hpos := List.length_pos_iff.mpr hne
  have hu := utf8_length (num4 a b c d)
  have hr := does_room s _ _ dest sz hs (does_append h1 h) hl (by simp only [List.length_append]; omega)
  refine ⟨⟨_, hr⟩, ?_⟩
  rw [hr]
  intro heq
  simp only [Res.ok.injEq] at heq
  rw [List.append_assoc, List.append_assoc t1, List.append_assoc t1] at heq
  have heq := List.append_cancel_left heq
  have hcnt := congrArg (List.countP (fun x : UInt8 => decide (x ≠ 0))) heq
  have hz : ∀ n, List.countP (fun x : UInt8 => decide (x ≠ 0)) (List.replicate n 0) = 0 := fun n => by simp [List.countP_replicate]
  have hdc : List.countP (fun x : UInt8 => decide (x ≠ 0)) ds = ds.length := by
    rw [List.countP_eq_length]
    intro x hx
    have := hds x hx
    rw [hexDigit_eq] at this
    simpa using xdigit_ne this
  simp only [List.countP_append, hz, hdc] at hcnt
  have hhead := congrArg List.head? heq
  have u2 := utf8_shape ⟨num4 a b c d, hn⟩
  have hB := below800_shape (code (a :: b :: c :: d :: ds))
  rcases hB with hB | ⟨x, hB⟩ | ⟨x, y, hB, hx⟩
  · rw [hB] at hcnt
    simp only [List.countP_nil] at hcnt
    omega
  · rw [hB] at hcnt hhead
    have hx1 : List.countP (fun x : UInt8 => decide (x ≠ 0)) [x] ≤ 1 := List.countP_le_length
    rcases u2 with ⟨u, hu1, hu2⟩ | ⟨u, v, hu1, hu2, hu3, hu4⟩
    · dsimp only at hu1
      rw [hu1] at hcnt hhead
      simp at hhead
      subst hhead
      omega
    · dsimp only at hu1
      have h2 : List.countP (fun x : UInt8 => decide (x ≠ 0)) [u, v] = 2 := by simp [List.countP_cons, hu3, hu4]
      rw [hu1, h2] at hcnt
      omega
  · rw [hB] at hcnt hhead
    have hx1 : List.countP (fun x : UInt8 => decide (x ≠ 0)) [x, y] ≤ 2 := List.countP_le_length
    rcases u2 with ⟨u, hu1, hu2⟩ | ⟨u, v, hu1, hu2, hu3, hu4⟩
    · dsimp only at hu1
      rw [hu1] at hhead
      simp at hhead
      subst hhead
      exact absurd hx (by rw [UInt8.le_iff_toNat_le]; rw [UInt8.lt_iff_toNat_lt] at hu2; simp at hu2 ⊢; omega)
    · dsimp only at hu1
      have h2 : List.countP (fun x : UInt8 => decide (x ≠ 0)) [u, v] = 2 := by simp [List.countP_cons, hu3, hu4]
      rw [hu1, h2] at hcnt
      omega

-- "%u0416ab"
example : CString [37, 117, 48, 52, 49, 54, 97, 98, 0] ([] ++ 37 :: 117 :: 48 :: 52 :: 49 :: 54 :: ([97, 98] ++ [])) ∧ num4 48 52 49 54 < 0x800 := ⟨⟨by decide, [], rfl⟩, by decide⟩

/-! ### Sizes and bytes -/

/-- **C23 (partial)** Exactly when `coda_url_unescape` stays inside its buffers, for every string and every size: always for `sz ≥ 2`; for `sz = 1` only if the text unescapes to nothing; for
`sz = 0` never. -/
theorem C23_exact_partial (s cs t dest : Buf) (sz : Nat) (hs : CString s cs) (hu : Does cs t) (hd : dest.length = sz) :
    coda_url_unescape s dest sz ≠ .ub ↔ 2 ≤ sz ∨ sz = 1 ∧ t = [] := by
  by_cases hsz : 2 ≤ sz
  · obtain ⟨p, h1, -⟩ := C108_exact_partial s cs t dest sz hs hu hd hsz
    rw [h1]
    simp [hsz]
  · obtain ⟨hnz, rest, rfl⟩ := hs
    unfold coda_url_unescape
    rw [wrs_spec _ _ _ (by simp; omega), Res.ok_bind, patch_all (e := List.replicate sz 0) (by simp [hd])]
    have hlim : (List.replicate sz (0 : UInt8)).length < subZ sz 2 := by
      unfold subZ
      rw [if_neg hsz, List.length_replicate]
      omega
    rw [unescLoop_wild rest _ cs.length cs t (Nat.le_refl _) hu hnz _ _ 0 (Nat.le_refl _) hlim (by omega), Nat.zero_add, List.length_replicate]
    by_cases hl : t.length ≤ sz
    · rw [if_pos hl]
      simp only [Res.ok_bind]
      have hpl : (patch (List.replicate sz (0 : UInt8)) 0 t).length = sz := by rw [patch_length (by simp; omega), List.length_replicate]
      by_cases h2 : t.length < sz
      · have h1 : sz = 1 := by omega
        have h0 : t = [] := List.length_eq_zero_iff.mp (by omega)
        subst h1; subst h0
        simp [wr, patch]
      · rw [wr, if_neg (by omega)]
        simp only [ne_eq, not_true, false_iff, not_or, hsz, not_false_eq_true, true_and]
        rintro ⟨rfl, rfl⟩
        simp at h2
    · rw [if_neg hl]
      show ¬ (Res.ub : Res Buf) = .ub ↔ _
      simp only [not_true, false_iff, not_or, hsz, not_false_eq_true, true_and]
      rintro ⟨rfl, rfl⟩
      simp at hl

example : coda_url_unescape [37, 117, 50, 48, 97, 99, 0] [7] 1 = .ok [0] := by decide +kernel

/-- One byte of the text as `coda_url_escape` treats it, when there is room. -/
theorem escLoop_step {c : UInt8} (s dest : Buf) (ptr sz : Nat) (hsz : sz < 2 ^ 64) (hd : dest.length = sz) (hc0 : c ≠ 0) (hc : c < 128) (hp : ptr < sz - 3) :
    ∃ d, d.length = sz ∧ escLoop (c :: s) dest ptr (sz - 3) = escLoop s d (ptr + (enc c).length) (sz - 3) := by
  have h128 : ¬ c ≥ 128 := by
    rw [UInt8.lt_iff_toNat_lt] at hc
    rw [ge_iff_le, UInt8.le_iff_toNat_le]; omega
  have hlen : ∀ vs : Buf, ptr + vs.length ≤ sz - 3 → (patch dest ptr vs).length = sz := fun vs h => by rw [patch_length (by omega), hd]
  simp only [escLoop, mustEnc_eq, hex_hi, hex_lo, Res.ok_bind, hc0, false_or, hp, not_true, if_false, h128]
  by_cases h1 : unreserved c.toNat
  · have h2 := (unreserved_ne c h1).2.2.2
    have he : enc c = [c] := by simp [enc, h1]
    rw [he]
    simp only [h1, h2, Bool.not_true, Bool.false_and, Bool.false_eq_true, if_false]
    rw [wr_eq (by omega), Res.ok_bind]
    exact ⟨_, hlen [c] (by simp; omega), rfl⟩
  · by_cases h2 : c = 32
    · subst h2
      have he : enc 32 = [43] := by decide
      have hu : unreserved (UInt8.toNat 32) = false := by decide
      rw [he]
      simp only [hu, ne_eq, not_true, decide_false, Bool.and_false, Bool.false_eq_true, if_false, if_true]
      rw [wr_eq (by omega), Res.ok_bind]
      exact ⟨_, hlen [43] (by simp; omega), rfl⟩
    · have h2' := h2
      rw [c32] at h2'
      have he : enc c = pct c := by simp [enc, h1, h2']
      rw [he]
      simp only [Bool.not_eq_true] at h1
      simp only [h1, h2, ne_eq, not_false_eq_true, decide_true, Bool.not_false, Bool.and_self, if_true]
      rw [subZ_eq (by omega)]
      unfold snprintf
      rw [if_neg (by omega)]
      have hl : ptr + (List.take (sz - 3 - ptr - 1) [37, hexU (c.toNat / 16), hexU (c.toNat % 16)] ++ [0]).length ≤ sz - 3 := by
        simp; omega
      rw [wrs_spec _ _ _ (by omega)]
      simp only [Res.ok_bind]
      exact ⟨_, hlen _ hl, by simp [pct]⟩

theorem escLoop_exact (rest : Buf) (sz : Nat) (hsz : sz < 2 ^ 64) : ∀ (cs dest : Buf) (ptr : Nat), (∀ c ∈ cs, c ≠ 0) → dest.length = sz →
    (escLoop (cs ++ 0 :: rest) dest ptr (sz - 3) ≠ .ub ↔ ∀ pre c post, cs = pre ++ c :: post → 128 ≤ c → sz - 3 ≤ ptr + (pre.flatMap enc).length) := by
  intro cs
  induction cs with
  | nil => intro dest ptr _ _; simp [escLoop]
  | cons c cs ih =>
    intro dest ptr hnz hd
    have hc0 := hnz c (by simp)
    by_cases hp : ptr < sz - 3
    · by_cases hc : c < 128
      · obtain ⟨d, hdl, he⟩ := escLoop_step (cs ++ 0 :: rest) dest ptr sz hsz hd hc0 hc hp
        rw [List.cons_append, he, ih d _ (fun x hx => hnz x (by simp [hx])) hdl]
        constructor
        · intro h pre x post hx hge
          cases pre with
          | nil =>
            simp only [List.nil_append, List.cons.injEq] at hx
            obtain ⟨rfl, -⟩ := hx
            rw [UInt8.le_iff_toNat_le] at hge
            rw [UInt8.lt_iff_toNat_lt] at hc
            omega
          | cons y pre =>
            simp only [List.cons_append, List.cons.injEq] at hx
            obtain ⟨rfl, rfl⟩ := hx
            have := h pre x post rfl hge
            simp only [List.flatMap_cons, List.length_append]
            omega
        · intro h pre x post hx hge
          have := h (c :: pre) x post (by rw [hx]; rfl) hge
          simp only [List.flatMap_cons, List.length_append] at this
          omega
      · have h128 : c ≥ 128 := by
          rw [UInt8.lt_iff_toNat_lt] at hc
          rw [ge_iff_le, UInt8.le_iff_toNat_le]; omega
        have e : escLoop (c :: cs ++ 0 :: rest) dest ptr (sz - 3) = .ub := by
          simp [escLoop, hc0, hp, h128]
        rw [e]
        simp only [ne_eq, not_true, false_iff]
        intro h
        have := h [] c cs rfl h128
        simp at this
        omega
    · have e : escLoop (c :: cs ++ 0 :: rest) dest ptr (sz - 3) = .ok dest := by
        simp [escLoop, hp]
      rw [e]
      simp only [ne_eq, reduceCtorEq, not_false_eq_true, true_iff]
      intro pre x post _ _
      omega

theorem escLoop_wild (rest : Buf) (sz : Nat) (h3 : sz < 3) : ∀ (cs dest : Buf) (ptr : Nat), (∀ c ∈ cs, c ≠ 0) → dest.length = sz → ptr ≤ sz →
    (escLoop (cs ++ 0 :: rest) dest ptr (subZ sz 3) ≠ .ub ↔ ptr + cs.length ≤ sz ∧ ∀ c ∈ cs, unreserved c.toNat = true ∨ c = 32) := by
  intro cs
  have hlim : sz < subZ sz 3 ∧ subZ sz 3 < 2 ^ 64 ∧ 2 ^ 63 < subZ sz 3 := by
    unfold subZ
    rw [if_neg (by omega)]
    omega
  induction cs with
  | nil => intro dest ptr _ _ hp; simp [escLoop, hp]
  | cons c cs ih =>
    intro dest ptr hnz hd hp
    have hc0 := hnz c (by simp)
    have hl : ptr < subZ sz 3 := by omega
    by_cases hpl : unreserved c.toNat = true ∨ c = 32
    · have h128 : ¬ c ≥ 128 := plain_lt c hpl
      have step : ∃ v, escLoop (c :: cs ++ 0 :: rest) dest ptr (subZ sz 3) = (wr dest ptr v).bind (fun d => escLoop (cs ++ 0 :: rest) d (ptr + 1) (subZ sz 3)) := by
        simp only [List.cons_append, escLoop, mustEnc_eq, hex_hi, hex_lo, Res.ok_bind, hc0, false_or, hl, not_true, if_false, h128]
        rcases hpl with h1 | h2
        · have h2 := (unreserved_ne c h1).2.2.2
          simp only [h1, h2, Bool.not_true, Bool.false_and, Bool.false_eq_true, if_false]
          exact ⟨_, rfl⟩
        · subst h2
          simp only [ne_eq, not_true, decide_false, Bool.and_false, Bool.false_eq_true, if_false, if_true]
          exact ⟨_, rfl⟩
      obtain ⟨v, hv⟩ := step
      rw [hv]
      by_cases hfit : ptr < sz
      · rw [wr_eq (by omega)]
        show escLoop _ _ _ _ ≠ _ ↔ _
        rw [ih _ _ (fun x hx => hnz x (by simp [hx])) (by rw [patch_length (by simp; omega), hd]) (by omega)]
        simp only [List.length_cons, List.mem_cons, forall_eq_or_imp, hpl, true_and]
        constructor
        · rintro ⟨a, b⟩; exact ⟨by omega, b⟩
        · rintro ⟨a, b⟩; exact ⟨by omega, b⟩
      · rw [wr, if_neg (by omega)]
        show ¬ (Res.ub : Res Buf) = .ub ↔ _
        simp only [not_true, false_iff, List.length_cons]
        rintro ⟨a, -⟩
        omega
    · have e : escLoop (c :: cs ++ 0 :: rest) dest ptr (subZ sz 3) = .ub := by
        simp only [List.cons_append, escLoop, mustEnc_eq, hex_hi, hex_lo, Res.ok_bind, hc0, false_or, hl, not_true, if_false]
        split
        · rfl
        · simp only [not_or, Bool.not_eq_true] at hpl
          simp only [hpl.1, hpl.2, ne_eq, not_false_eq_true, decide_true, Bool.not_false, Bool.and_self, if_true]
          rw [subZ_eq (by omega : ptr ≤ subZ sz 3)]
          unfold snprintf
          rw [if_neg (by omega), List.take_of_length_le (by simp; omega), wrs_ub _ _ _ (by omega) (by simp; omega)]
          rfl
      rw [e]
      simp only [ne_eq, not_true, false_iff]
      rintro ⟨-, b⟩
      exact hpl (b c (by simp))

/-- **C22 (partial)** Exactly when `coda_url_escape` stays inside its buffers and its table, for every string and every size.  From 3 bytes on: when no byte from 0x80 on is reached, that is, the
encoding of what stands before it fills all but three bytes of the buffer.  Below: when the text has no more than `sz` bytes and none to be encoded. -/
theorem C22_exact_partial (s cs dest : Buf) (sz : Nat) (hs : CString s cs) (hd : dest.length = sz) (hsz : sz < 2 ^ 64) :
    coda_url_escape s dest sz ≠ .ub ↔
      if 3 ≤ sz then ∀ pre c post, cs = pre ++ c :: post → 128 ≤ c → sz ≤ (pre.flatMap enc).length + 3
      else cs.length ≤ sz ∧ ∀ c ∈ cs, unreserved c.toNat = true ∨ c = 32 := by
  obtain ⟨hnz, rest, rfl⟩ := hs
  unfold coda_url_escape
  rw [wrs_spec _ _ _ (by simp; omega), Res.ok_bind, patch_all (e := List.replicate sz 0) (by simp [hd])]
  by_cases h3 : 3 ≤ sz
  · rw [if_pos h3, subZ_eq h3, escLoop_exact rest sz hsz cs _ 0 hnz (by simp)]
    constructor
    · intro h pre c post hc hge
      have := h pre c post hc hge
      omega
    · intro h pre c post hc hge
      have := h pre c post hc hge
      omega
  · rw [if_neg h3, escLoop_wild rest sz (by omega) cs _ 0 hnz (by simp) (by omega), Nat.zero_add]

/-- **C22 refuted** for every text with a byte from 0x80 on, as soon as the buffer has room for what stands before it: no size of the buffer makes the call safe. -/
theorem C22_refuted_high_all (s pre post dest : Buf) (c : UInt8) (sz : Nat) (hs : CString s (pre ++ c :: post)) (hc : 128 ≤ c) (hd : dest.length = sz) (hsz : sz < 2 ^ 64)
    (hroom : (pre.flatMap enc).length + 3 < sz) : coda_url_escape s dest sz = .ub := by
  refine Classical.byContradiction fun h => ?_
  have := (C22_exact_partial s _ dest sz hs hd hsz).mp h
  rw [if_pos (by omega)] at this
  have := this pre c post rfl hc
  omega

-- "a" and U+0416 in UTF-8, 16 bytes of room
example : CString [97, 208, 150, 0] ([97] ++ 208 :: [150]) ∧ ([97].flatMap enc).length + 3 < 16 := ⟨⟨by decide, [], rfl⟩, by decide⟩
-- 4 bytes of room: the text is cut before the byte; 2 bytes of room: "ab" fits and is not terminated
example : coda_url_escape [97, 208, 150, 0] [7, 7, 7, 7] 4 = .ok [97, 0, 0, 0] ∧ coda_url_escape [97, 98, 0] [7, 7] 2 = .ok [97, 98] := by decide +kernel

end Verif.Url
