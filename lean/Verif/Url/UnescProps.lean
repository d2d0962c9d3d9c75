/-
  C22-C24, C108, C109: what the NUL terminated escape functions write.
-/
import Verif.Url.UnescLemmas

set_option linter.unusedSimpArgs false
set_option linter.unusedVariables false

namespace Verif.Url
open Spec (CString enc Unesc Pre hexDigit hexv)

/-- **C22 (partial)** On any ASCII string with any `sz ≥ 4`, `coda_url_escape` writes the beginning of the encoded text, then NULs to the end of the buffer: all of the text if
`sz` allows four bytes more than it has, else at least `sz - 4` bytes of it. -/
theorem C22_escape_text_partial (s cs dest : Buf) (sz : Nat) (hs : CString s cs) (hascii : ∀ c ∈ cs, c < 128) (hd : dest.length = sz) (hsz : 4 ≤ sz) (hsz' : sz < 2 ^ 64) :
    ∃ p, coda_url_escape s dest sz = .ok ((cs.flatMap enc).take p ++ List.replicate (sz - p) 0) ∧ p ≤ (cs.flatMap enc).length ∧ p + 3 ≤ sz ∧
      (p < (cs.flatMap enc).length → sz ≤ p + 4) := by
  obtain ⟨hnz, rest, rfl⟩ := hs
  unfold coda_url_escape
  rw [wrs_spec _ _ _ (by simp; omega), Res.ok_bind, patch_all (e := List.replicate sz 0) (by simp [hd]), subZ_eq (by omega)]
  obtain ⟨p, h1, h2, h3, h4⟩ := escLoop_cut rest sz hsz' hsz cs [] (fun c hc => ⟨hnz c hc, hascii c hc⟩) (by simp only [List.length_nil]; omega)
  rw [patch_nil, List.length_nil, List.nil_append] at h1
  rw [List.length_nil] at h3 h4
  refine ⟨p, ?_, h2, by omega, ?_⟩
  · rw [h1]
    simp only [patch, List.take_zero, List.nil_append, Nat.zero_add, List.drop_replicate, List.length_take]
    rw [Nat.min_eq_left h2]
  · intro h; omega

-- "a b%c" into 9 bytes: "a+b%2" is what has room
example : coda_url_escape [97, 32, 98, 37, 99, 0] (List.replicate 9 7) 9 = .ok [97, 43, 98, 37, 50, 0, 0, 0, 0] := by decide +kernel

/-- **C108 (partial)** `coda_url_unescape` writes the bytes that the text stands for, then NULs to the end of the buffer; if there is no room for all of them, the first
`sz - 2` or `sz - 1`.  Missing: texts with a "%u" that `Unesc` says nothing about, for which it is false (below). -/
theorem C108_unescape_text_partial (s cs t dest : Buf) (sz : Nat) (hs : CString s cs) (hu : Unesc cs t) (hd : dest.length = sz) (hsz : 2 ≤ sz) :
    ∃ p, coda_url_unescape s dest sz = .ok (t.take p ++ List.replicate (sz - p) 0) ∧ p ≤ t.length ∧ p < sz ∧ (p < t.length → sz ≤ p + 2) := by
  obtain ⟨hnz, rest, rfl⟩ := hs
  unfold coda_url_unescape
  rw [wrs_spec _ _ _ (by simp; omega), Res.ok_bind, patch_all (e := List.replicate sz 0) (by simp [hd]), subZ_eq (by omega)]
  obtain ⟨p, h1, h2, h3, h4⟩ := unescLoop_spec rest sz hsz hu hnz (cs ++ 0 :: rest).length (List.replicate sz 0) 0 (Nat.le_refl _) (by simp) (by omega)
  rw [h1]
  simp only [Res.ok_bind]
  have hl : (t.take p).length = p := by simp; omega
  refine ⟨p, ?_, h2, by omega, by intro h; omega⟩
  rw [wr_patch (by omega) (by simp; omega), patch_zero_zero (by omega)]
  simp only [patch, List.take_zero, List.nil_append, Nat.zero_add, List.drop_replicate, hl]

/-- Every text without "%u" before a hexadecimal digit stands for something: the theorem above applies to it. -/
theorem C108_applies (cs : Buf) (h : ∀ a b s, cs = a ++ 37 :: 117 :: b :: s → hexDigit b = false) : ∃ t, Unesc cs t := by
  have key : ∀ n, ∀ cs : Buf, cs.length ≤ n → (∀ a b s, cs = a ++ 37 :: 117 :: b :: s → hexDigit b = false) → ∃ t, Unesc cs t := by
    intro n
    induction n with
    | zero =>
      intro cs hl _
      cases cs with
      | nil => exact ⟨_, .nil⟩
      | cons c s => simp at hl
    | succ n ih =>
      intro cs hl h
      match cs, hl, h with
      | [], _, _ => exact ⟨_, .nil⟩
      | c :: s, hl, h =>
        simp only [List.length_cons] at hl
        have tl : ∀ p s' : Buf, c :: s = p ++ s' → ∀ a b u, s' = a ++ 37 :: 117 :: b :: u → hexDigit b = false := by
          intro p s' hp a b u h1
          exact h (p ++ a) b u (by rw [hp, h1, List.append_assoc])
        by_cases h43 : c = 43
        · obtain ⟨t, ht⟩ := ih s (by omega) (tl [c] s rfl)
          subst h43
          exact ⟨_, .plus ht⟩
        · by_cases hp : c = 37 ∧ Spec.two s = true
          · obtain ⟨rfl, h2⟩ := hp
            match s, h2, hl, tl with
            | a :: b :: s, h2, hl, tl =>
              simp only [Spec.two, Bool.and_eq_true] at h2
              simp only [List.length_cons] at hl
              obtain ⟨t, ht⟩ := ih s (by omega) (tl [37, a, b] s rfl)
              exact ⟨_, .pct h2.1 h2.2 ht⟩
          · by_cases hx : c = 92 ∧ ∃ s', s = 120 :: s' ∧ Spec.two s' = true
            · obtain ⟨rfl, s', rfl, h2⟩ := hx
              match s', h2, hl, tl with
              | a :: b :: s, h2, hl, tl =>
                simp only [Spec.two, Bool.and_eq_true] at h2
                simp only [List.length_cons] at hl
                obtain ⟨t, ht⟩ := ih s (by omega) (tl [92, 120, a, b] s rfl)
                exact ⟨_, .hex h2.1 h2.2 ht⟩
            · obtain ⟨t, ht⟩ := ih s (by omega) (tl [c] s rfl)
              refine ⟨_, .other h43 ?_ ?_ ht⟩
              · intro hc
                refine ⟨?_, ?_⟩
                · cases h2 : Spec.two s with
                  | false => rfl
                  | true => exact absurd ⟨hc, h2⟩ hp
                · intro s' hs'
                  cases s' with
                  | nil => rfl
                  | cons b u => exact h [] b u (by rw [hc, hs']; rfl)
              · intro hc s' hs'
                cases h2 : Spec.two s' with
                | false => rfl
                | true => exact absurd ⟨hc, s', hs', h2⟩ hx
  exact key cs.length cs (Nat.le_refl _) h

/-- C108 does not hold of all "%uXXXX": the digits that follow are taken as well ("%u0416ab" gives nothing), and U+007F and characters from U+0800 on disappear ("%u20ac"). -/
theorem C108_refuted : coda_url_unescape [37, 117, 48, 52, 49, 54, 97, 98, 0] (List.replicate 12 7) 12 = .ok (List.replicate 12 0) ∧
    coda_url_unescape [37, 117, 50, 48, 97, 99, 0] (List.replicate 12 7) 12 = .ok (List.replicate 12 0) ∧
    coda_url_unescape [37, 117, 48, 48, 55, 102, 0] (List.replicate 12 7) 12 = .ok (List.replicate 12 0) := by decide +kernel

-- "+%41%u0416\x42%4" stands for " A", U+0416, "B%4"
example : Unesc [43, 37, 52, 49, 37, 117, 48, 52, 49, 54, 92, 120, 52, 50, 37, 52] [32, 65, 208, 150, 66, 37, 52] :=
  .plus (.pct (a := 52) (b := 49) rfl rfl (.uni (a := 48) (b := 52) (c := 49) (d := 54) rfl rfl rfl rfl rfl (by decide) (by decide)
    (.hex (a := 52) (b := 50) rfl rfl (.other (by decide) (fun _ => ⟨rfl, by intro s' h; cases h⟩) (by intro h; cases h) (.other (by decide) (by intro h; cases h) (by intro h; cases h) .nil)))))

/-- **C109 (partial)** `coda_url_preunescape` replaces the escapes of bytes from 0x80 on and leaves other texts alone; nothing but the text and its NUL is written.  Missing: texts
with an "\xXY" for a smaller byte, for which it is false (below), and texts longer than the buffer (C24). -/
theorem C109_preunescape_text_partial (s cs t dest : Buf) (sz : Nat) (hs : CString s cs) (hu : Pre cs t) (hd : dest.length = sz) (hsz : t.length + 1 < sz) :
    coda_url_preunescape s dest sz = .ok (t ++ 0 :: dest.drop (t.length + 1)) := by
  obtain ⟨hnz, rest, rfl⟩ := hs
  unfold coda_url_preunescape
  rw [preLoop_spec rest sz hu hnz _ dest 0 (Nat.le_refl _) hd (by omega)]
  simp only [Res.ok_bind]
  rw [wr_patch rfl (by omega)]
  simp [patch]

/-- Every text without "\x" before two hexadecimal digits is one to which the theorem above applies. -/
theorem C109_applies (cs : Buf) (h : ∀ a s, cs = a ++ 92 :: 120 :: s → Spec.two s = false) : ∃ t, Pre cs t := by
  have key : ∀ n, ∀ cs : Buf, cs.length ≤ n → (∀ a s, cs = a ++ 92 :: 120 :: s → Spec.two s = false) → ∃ t, Pre cs t := by
    intro n
    induction n with
    | zero =>
      intro cs hl _
      cases cs with
      | nil => exact ⟨_, .nil⟩
      | cons c s => simp at hl
    | succ n ih =>
      intro cs hl h
      match cs, hl, h with
      | [], _, _ => exact ⟨_, .nil⟩
      | c :: s, hl, h =>
        simp only [List.length_cons] at hl
        have tl : ∀ p s' : Buf, c :: s = p ++ s' → ∀ a u, s' = a ++ 92 :: 120 :: u → Spec.two u = false := by
          intro p s' hp a u h1
          exact h (p ++ a) u (by rw [hp, h1, List.append_assoc])
        by_cases hp : c = 37 ∧ Spec.two s = true
        · obtain ⟨rfl, h2⟩ := hp
          match s, h2, hl, tl with
          | a :: b :: s, h2, hl, tl =>
            simp only [Spec.two, Bool.and_eq_true] at h2
            simp only [List.length_cons] at hl
            obtain ⟨t, ht⟩ := ih s (by omega) (tl [37, a, b] s rfl)
            by_cases hv : 128 ≤ 16 * hexv a + hexv b
            · exact ⟨_, .high h2.1 h2.2 hv ht⟩
            · exact ⟨_, .low h2.1 h2.2 (by omega) ht⟩
        · obtain ⟨t, ht⟩ := ih s (by omega) (tl [c] s rfl)
          refine ⟨_, .other ?_ ?_ ht⟩
          · intro hc
            cases h2 : Spec.two s with
            | false => rfl
            | true => exact absurd ⟨hc, h2⟩ hp
          · intro hc s' hs'
            exact h [] s' (by rw [hc, hs']; rfl)
  exact key cs.length cs (Nat.le_refl _) h

/-- C109 does not hold of "\x41": it disappears from the text ("a\x41b" gives "ab"). -/
theorem C109_refuted : coda_url_preunescape [97, 92, 120, 52, 49, 98, 0] (List.replicate 8 7) 8 = .ok [97, 98, 0, 52, 49, 7, 7, 7] := by decide +kernel

-- "%41%d0\xd1-%" gives "%41", D0, D1, "-%"
example : Pre [37, 52, 49, 37, 100, 48, 92, 120, 100, 49, 45, 37] [37, 52, 49, 208, 209, 45, 37] :=
  .low (a := 52) (b := 49) rfl rfl (by decide) (.high (a := 100) (b := 48) rfl rfl (by decide) (.hex (a := 100) (b := 49) rfl rfl (by decide)
    (.other (by intro h; cases h) (by intro h; cases h) (.other (fun _ => rfl) (by intro h; cases h) .nil))))

end Verif.Url
