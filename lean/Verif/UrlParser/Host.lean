/-
  The host and the domain: lemmas about `assign_anchor`.
-/
import Verif.UrlParser.Path

set_option linter.unusedSimpArgs false
set_option linter.unusedVariables false

namespace Verif.UrlParser
open Verif.Str Verif.Str.Spec Verif.UrlParser.Spec

/-! ### characters -/

theorem byte_all (P : UInt8 → Prop) (h : ∀ c : Fin 256, P (UInt8.ofNat c.val)) (c : UInt8) : P c := by
  have := h ⟨c.toNat, c.toNat_lt⟩
  simpa using this

theorem domainSymbol_eq (c : UInt8) : domainSymbol (tolower c) = hostChar c :=
  byte_all (fun c => domainSymbol (tolower c) = hostChar c) (by decide +kernel) c

theorem tolower_host (c : UInt8) (h : hostChar c = false) : tolower c = c :=
  byte_all (fun c => hostChar c = false → tolower c = c) (by decide +kernel) c h

theorem hostChar_lower (c : UInt8) : hostChar (lower c) = hostChar c :=
  byte_all (fun c => hostChar (lower c) = hostChar c) (by decide +kernel) c

/-- The characters of a text that are at the beginning and satisfy `p`. -/
theorem head_not (p : UInt8 → Bool) (l : List UInt8) :
    l.dropWhile p = [] ∨ ∃ c r, l.dropWhile p = c :: r ∧ p c = false := by
  induction l with
  | nil => simp
  | cons a l ih =>
    rw [List.dropWhile_cons]
    split
    · exact ih
    · rename_i h; exact Or.inr ⟨a, l, rfl, by simpa using h⟩

theorem takeWhile_all (p : UInt8 → Bool) (l : List UInt8) : ∀ c ∈ l.takeWhile p, p c = true := by
  induction l with
  | nil => simp
  | cons a l ih =>
    rw [List.takeWhile_cons]
    split
    · rename_i h
      intro c hc
      rcases List.mem_cons.mp hc with rfl | hc
      · exact h
      · exact ih c hc
    · simp

theorem longestPrefix_eq (p : UInt8 → Bool) (l : List UInt8) (k : Nat) (h : LongestPrefix (fun c => p c = true) l k) :
    k = (l.takeWhile p).length := by
  induction l generalizing k with
  | nil => have := h.1; simpa using this
  | cons a l ih =>
    obtain ⟨h1, h2, h3⟩ := h
    cases k with
    | zero =>
      have := h3 a rfl
      simp [List.takeWhile_cons, this]
    | succ k =>
      have ha := h2 a (by simp)
      rw [List.takeWhile_cons, if_pos ha, List.length_cons]
      congr 1
      refine ih k ⟨by simpa using h1, fun x hx => h2 x ?_, fun x hx => h3 x (by simpa using hx)⟩
      simp [hx]

/-! ### lower case -/

theorem lowerLoop_spec (D : Buf) (hD : D = [] ∨ ∃ c r, D = c :: r ∧ hostChar c = false) : ∀ (H X Y : Buf) (p n : Nat),
    (∀ c ∈ H, hostChar c = true) → p = X.length → n = H.length + D.length →
    lowerLoop (X ++ H ++ D ++ Y) p n = .ok (X ++ H.map lower ++ D ++ Y, p + H.length) := by
  intro H
  induction H with
  | nil =>
    intro X Y p n _ hp hn
    rcases hD with rfl | ⟨c, r, rfl, hc⟩
    · subst hn; simp [lowerLoop]
    · obtain ⟨n, rfl⟩ : ∃ m, n = m + 1 := ⟨n - 1, by simp at hn; omega⟩
      have hr : rd (X ++ [] ++ (c :: r) ++ Y) p = .ok c := by
        rw [hp, List.append_nil, List.append_assoc, rd_append_zero]; rfl
      rw [lowerLoop, hr, Res.ok_bind]
      have e : X ++ [] ++ (c :: r) ++ Y = X ++ c :: (r ++ Y) := by simp
      rw [e, wr_mid X (r ++ Y) c _ p hp, Res.ok_bind, domainSymbol_eq, hc, tolower_host c hc]
      simp
  | cons a H ih =>
    intro X Y p n hH hp hn
    obtain ⟨n, rfl⟩ : ∃ m, n = m + 1 := ⟨n - 1, by simp at hn; omega⟩
    have hr : rd (X ++ (a :: H) ++ D ++ Y) p = .ok a := by
      rw [hp, List.append_assoc, List.append_assoc, rd_append_zero]; rfl
    rw [lowerLoop, hr, Res.ok_bind]
    have e : X ++ (a :: H) ++ D ++ Y = X ++ a :: (H ++ D ++ Y) := by simp
    rw [e, wr_mid X (H ++ D ++ Y) a _ p hp, Res.ok_bind, domainSymbol_eq, hH a (by simp), if_pos rfl]
    have := ih (X ++ [tolower a]) Y (p + 1) n (fun c hc => hH c (by simp [hc])) (by simp [hp]) (by simp at hn; omega)
    have e2 : X ++ tolower a :: (H ++ D ++ Y) = X ++ [tolower a] ++ H ++ D ++ Y := by simp
    rw [e2, this, tolower_eq]
    simp; omega

/-! ### the slash -/

theorem memmove_right (X Y Z : Buf) (z : UInt8) (d s n : Nat) (hd : d = X.length + 1) (hs : s = X.length) (hn : n = Y.length) :
    ∃ w, memmove (X ++ Y ++ z :: Z) d s n = .ok (X ++ w :: Y ++ Z) := by
  subst hd hs hn
  have hmm : memmove (X ++ Y ++ z :: Z) (X.length + 1) X.length Y.length
      = .ok (patch (X ++ Y ++ z :: Z) (X.length + 1) Y) := by
    unfold memmove
    rw [if_pos (by simp; omega), List.append_assoc, List.drop_left, List.take_left]
  rw [hmm]
  obtain ⟨w, W, hw, hl⟩ : ∃ w W, Y ++ [z] = w :: W ∧ W.length = Y.length := by
    cases Y with
    | nil => exact ⟨z, [], rfl, rfl⟩
    | cons w Y => exact ⟨w, Y ++ [z], rfl, by simp⟩
  refine ⟨w, ?_⟩
  congr 1
  rw [show X ++ Y ++ z :: Z = X ++ (Y ++ [z]) ++ Z by simp, hw, show X ++ w :: W ++ Z = (X ++ [w]) ++ W ++ Z by simp,
    show X.length + 1 = (X ++ [w]).length by simp, patch_mid (X ++ [w]) W Z Y hl]
  simp

/-- What follows the host, with its slash. -/
def withSlash (r : List UInt8) : List UInt8 := if r.head? = some 47 then r else 47 :: r

theorem addSlash_spec (X D Z : Buf) (z : UInt8) (H : Buf) (vlen p e : Nat) (hp : p = X.length + H.length) (hv : vlen = p + D.length)
    (he : e = p + (D.takeWhile (· != 47)).length) :
    ∃ Z', addSlash (X ++ H ++ D ++ z :: Z) vlen p e
      = .ok (X ++ H ++ withSlash D ++ Z', X.length + H.length + (withSlash D).length, X.length + H.length) ∧
      (withSlash D).length + Z'.length = D.length + 1 + Z.length := by
  unfold addSlash
  cases D with
  | nil =>
    simp only [List.takeWhile_nil, List.length_nil, Nat.add_zero] at he hv
    rw [if_pos he, if_pos (by omega)]
    have e1 : X ++ H ++ [] ++ z :: Z = (X ++ H) ++ z :: Z := by simp
    rw [e1, wr_mid (X ++ H) Z z 47 vlen (by simp; omega)]
    refine ⟨Z, ?_, by simp [withSlash]⟩
    simp [withSlash, Res.ok_bind]
    omega
  | cons d D =>
    by_cases hd : d = 47
    · subst hd
      simp at he
      rw [if_pos he, if_neg (by simp at hv; omega)]
      refine ⟨z :: Z, ?_, by simp [withSlash]; omega⟩
      simp [withSlash]
      simp at hv
      omega
    · have hw : withSlash (d :: D) = 47 :: d :: D := by simp [withSlash, hd]
      rw [if_neg (by rw [he, List.takeWhile_cons]; simp [hd])]
      obtain ⟨w, hm⟩ := memmove_right (X ++ H) (d :: D) Z z (p + 1) p (d :: D).length (by simp; omega) (by simp; omega) rfl
      rw [diff_eq vlen p (d :: D).length hv, Res.ok_bind, hm, Res.ok_bind]
      have e1 : X ++ H ++ w :: (d :: D) ++ Z = (X ++ H) ++ w :: ((d :: D) ++ Z) := by simp
      rw [e1, wr_mid (X ++ H) _ w 47 p (by simp; omega), Res.ok_bind, hw]
      refine ⟨Z, ?_, by simp⟩
      congr 1
      simp at hv ⊢
      omega

/-! ### dots -/

theorem dotsBefore_spec (X H T Z : Buf) (vlen beg e : Nat) (hb : beg = X.length) (he : e = X.length + H.length)
    (hv : vlen = X.length + H.length + T.length) :
    ∃ Z', dotsBefore (X ++ H ++ T ++ Z) vlen beg e
      = .ok (X ++ H.dropWhile (· == 46) ++ T ++ Z', X.length + (H.dropWhile (· == 46)).length + T.length,
          X.length + (H.dropWhile (· == 46)).length) ∧
      (H.dropWhile (· == 46)).length + Z'.length = H.length + Z.length := by
  subst hb
  obtain ⟨k, hk, hlp⟩ := C31_strnspn [46, 0] [46] H (T ++ Z) ⟨by decide, [], rfl⟩
  have hk2 : k = (H.takeWhile (· == 46)).length := by
    refine longestPrefix_eq _ _ _ ?_
    simpa using hlp
  have hH : H = H.takeWhile (· == 46) ++ H.dropWhile (· == 46) := List.takeWhile_append_dropWhile.symm
  have hlen : H.length = (H.takeWhile (· == 46)).length + (H.dropWhile (· == 46)).length := by
    have := congrArg List.length hH
    rwa [List.length_append] at this
  unfold dotsBefore
  rw [diff_eq e X.length H.length he, Res.ok_bind, List.append_assoc, List.append_assoc, List.drop_left, hk, Res.ok_bind]
  by_cases h0 : k = 0
  · rw [if_neg (by simpa using h0)]
    have ht : H.takeWhile (· == 46) = [] := List.eq_nil_of_length_eq_zero (by omega)
    rw [ht, List.nil_append] at hH
    rw [← hH]
    exact ⟨Z, by rw [hv, he]; simp, by simp⟩
  · rw [if_pos h0, diff_eq vlen (X.length + k) ((H.dropWhile (· == 46)).length + T.length) (by omega), Res.ok_bind]
    obtain ⟨W, hW, hm⟩ := memmove_left X (H.takeWhile (· == 46)) (H.dropWhile (· == 46) ++ T) Z X.length (X.length + k)
      ((H.dropWhile (· == 46)).length + T.length) rfl (by omega) (by simp)
    have e1 : X ++ H.takeWhile (· == 46) ++ (H.dropWhile (· == 46) ++ T) ++ Z = X ++ (H ++ (T ++ Z)) := by
      rw [List.append_assoc X, ← List.append_assoc (H.takeWhile _), ← hH]; simp
    rw [e1] at hm
    rw [hm, Res.ok_bind]
    refine ⟨W ++ Z, ?_, by simp; omega⟩
    congr 1
    simp
    omega

/-- Dots at the end only. -/
def stripEnd (l : List UInt8) : List UInt8 := (l.reverse.dropWhile (· == 46)).reverse

theorem stripEnd_split (l : List UInt8) : l = stripEnd l ++ (l.reverse.takeWhile (· == 46)).reverse := by
  have := congrArg List.reverse (List.takeWhile_append_dropWhile (p := (· == 46)) (l := l.reverse)).symm
  rwa [List.reverse_reverse, List.reverse_append] at this

theorem dotsAfter_spec (X H T Z : Buf) (vlen beg e : Nat) (hb : beg = X.length) (he : e = X.length + H.length)
    (hv : vlen = X.length + H.length + T.length) (hH0 : H = [] ∨ ∃ c r, H = c :: r ∧ (c == 46) = false) :
    ∃ Z', dotsAfter (X ++ H ++ T ++ Z) vlen beg e
      = .ok (X ++ stripEnd H ++ T ++ Z', X.length + (stripEnd H).length + T.length, X.length + (stripEnd H).length) ∧
      (stripEnd H).length + Z'.length = H.length + Z.length := by
  subst hb
  obtain ⟨k, hlp, hk⟩ := C32_revnspn_partial [46, 0] [46] H (T ++ Z) ⟨by decide, [], rfl⟩
  rw [if_neg (by simp)] at hk
  have hk2 : k = (H.reverse.takeWhile (· == 46)).length := by
    refine longestPrefix_eq _ _ _ ?_
    unfold LongestSuffix at hlp
    simpa using hlp
  have hH := stripEnd_split H
  have hlen : H.length = (stripEnd H).length + k := by
    conv => lhs; rw [hH]
    simp [hk2]
  unfold dotsAfter
  rw [diff_eq e X.length H.length he, Res.ok_bind, List.append_assoc, List.append_assoc, List.drop_left, hk, Res.ok_bind]
  rcases hH0 with rfl | ⟨c, r, hcr, hc⟩
  · rw [if_neg (by simp)]
    exact ⟨Z, by rw [hv, he]; simp [stripEnd], by simp [stripEnd]⟩
  · have hs : (stripEnd H) ≠ [] := by
      intro h
      rw [h] at hH
      have : c ∈ (H.reverse.takeWhile (· == 46)).reverse := by
        rw [List.nil_append] at hH; rw [← hH, hcr]; simp
      have := takeWhile_all _ _ c (by simpa using this)
      simp [this] at hc
    have hpos : 0 < (stripEnd H).length := List.length_pos_iff.mpr hs
    have hmin : min H.length (k + 1) = k + 1 := by omega
    rw [hmin, if_pos (by omega), diff_eq vlen e T.length (by omega), Res.ok_bind]
    obtain ⟨W, hW, hm⟩ := memmove_left (X ++ stripEnd H) (H.reverse.takeWhile (· == 46)).reverse T Z (e - (k + 1) + 1) e T.length
      (by simp; omega) (by rw [he, hlen, hk2]; simp; omega) rfl
    have e1 : X ++ stripEnd H ++ (H.reverse.takeWhile (· == 46)).reverse ++ T ++ Z = X ++ (H ++ (T ++ Z)) := by
      conv => rhs; rw [hH]
      simp
    rw [e1] at hm
    rw [hm, Res.ok_bind]
    have hW' : W.length = k := by rw [hW, hk2]; simp
    refine ⟨W ++ Z, ?_, by simp; omega⟩
    congr 1
    simp
    omega

/-! ### the domain -/

theorem snoc_cases (l : List UInt8) : l = [] ∨ ∃ l' s, l = l' ++ [s] :=
  match h : l.getLast? with
  | none => Or.inl (by simpa using h)
  | some s => Or.inr ⟨l.dropLast, s, by
      obtain ⟨ys, h⟩ := List.getLast?_eq_some_iff.mp h
      rw [h]; simp⟩

theorem split_append' (sep : UInt8) (a l : List UInt8) : split sep (a ++ sep :: l) = split sep a ++ split sep l := by
  induction h : a.length using Nat.strongRecOn generalizing a with
  | _ n ih =>
    rcases cut_cases sep a with ha | ⟨s, r, rfl, hs⟩
    · rw [split_append sep a l ha, split_none sep a ha]; rfl
    · rw [show s ++ sep :: r ++ sep :: l = s ++ sep :: (r ++ sep :: l) by simp, split_append sep s _ hs, split_append sep s _ hs,
        ih r.length (by simp at h; omega) r rfl]
      rfl

theorem cut_last (sep : UInt8) (l : List UInt8) : sep ∉ l ∨ ∃ a z, l = a ++ sep :: z ∧ sep ∉ z := by
  rcases cut_cases sep l.reverse with h | ⟨s, r, h, hs⟩
  · exact Or.inl (by simpa using h)
  · right
    refine ⟨r.reverse, s.reverse, ?_, by simpa using hs⟩
    have := congrArg List.reverse h
    simp at this
    exact this

theorem revFind_eq (X l rest : Buf) (c : UInt8) (n : Int) (h : n ≤ l.length) (hn : n = l.length ∨ n ≤ 0) :
    (n ≤ 0 → revFind (X ++ l ++ rest) X.length c n = .ok none) ∧
    (0 < n → c ∉ l → revFind (X ++ l ++ rest) X.length c n = .ok none) ∧
    (0 < n → ∀ a z, l = a ++ c :: z → c ∉ z → revFind (X ++ l ++ rest) X.length c n = .ok (some (X.length + a.length))) := by
  refine ⟨fun h0 => ?_, fun h0 hc => ?_, fun h0 a z hl hz => ?_⟩
  · unfold revFind; rw [if_pos h0]
  · unfold revFind; rw [if_neg (by omega), List.append_assoc, List.drop_left, revnchr_none l rest c _ hc (by omega)]; rfl
  · unfold revFind
    rw [if_neg (by omega), List.append_assoc, List.drop_left, hl,
      revnchr_some a z rest c _ hz (by rw [hl] at hn; simp at hn; omega)]; rfl

theorem domBegin_spec (X h T : Buf) (beg e : Nat) (hX : X ≠ []) (hb : beg = X.length) (he : e = X.length + h.length)
    (hlast : h.getLast? ≠ some 46) :
    ∃ d, domBegin (X ++ h ++ T) beg e = .ok (e - d.length) ∧ DomainOf h d := by
  subst hb
  have hX0 : 0 < X.length := List.length_pos_iff.mpr hX
  have hbe : X.length - 1 + 1 = X.length := by omega
  have none_case : ∀ (hn : revFind (X ++ h ++ T) X.length 46 ((e : Int) - 1 - X.length) = .ok none),
      domBegin (X ++ h ++ T) X.length e = .ok (e - h.length) := by
    intro hn
    unfold domBegin
    rw [hn]
    simp only [Res.ok_bind, Option.getD_none]
    rw [(revFind_eq X h T 46 _ (by omega) (by omega)).1 (by omega)]
    simp only [Res.ok_bind, Option.getD_none]
    congr 1; omega
  rcases snoc_cases h with rfl | ⟨g, c, rfl⟩
  · refine ⟨[], ?_, [], rfl, Or.inl rfl, by simp, by intro _; rfl⟩
    simp only [List.length_nil] at he
    exact none_case ((revFind_eq X [] T 46 _ (by simp; omega) (by simp; omega)).1 (by omega))
  · simp only [List.length_append, List.length_cons, List.length_nil] at he
    have hc : c ≠ 46 := by
      rintro rfl; simp at hlast
    have hlen1 : ((e : Int) - 1 - X.length) = g.length := by omega
    have eb : X ++ (g ++ [c]) ++ T = X ++ g ++ ([c] ++ T) := by simp
    have hwhole : ∀ (hcnt : (g ++ [c]).count 46 ≤ 2) (hlt : (∀ i, ¬ Occurs [46, 46] (g ++ [c]) i) → (g ++ [c]) = lastTwo (g ++ [c]))
        (hd : domBegin (X ++ (g ++ [c]) ++ T) X.length e = .ok (e - (g ++ [c]).length)),
        ∃ d, domBegin (X ++ (g ++ [c]) ++ T) X.length e = .ok (e - d.length) ∧ DomainOf (g ++ [c]) d :=
      fun hcnt hlt hd => ⟨g ++ [c], hd, [], rfl, Or.inl rfl, hcnt, hlt⟩
    rcases cut_last 46 g with hg | ⟨g1, g2, rfl, hg2⟩
    · refine hwhole ?_ ?_ (none_case ?_)
      · have h1 : List.count 46 g = 0 := List.count_eq_zero.mpr hg
        rw [List.count_append, h1]; simp [List.count_cons]; split <;> omega
      · intro _
        have : (46 : UInt8) ∉ g ++ [c] := by simp [hg, Ne.symm hc]
        unfold lastTwo
        rw [split_none 46 _ this]; simp [List.intercalate]
      · rw [eb, hlen1]
        have := revFind_eq X g ([c] ++ T) 46 g.length (by omega) (by omega)
        by_cases h0 : (g.length : Int) ≤ 0
        · exact this.1 h0
        · exact this.2.1 (by omega) hg
    · have hc2 : List.count 46 g2 = 0 := List.count_eq_zero.mpr hg2
      have hcc : List.count 46 [c] = 0 := List.count_eq_zero.mpr (by simp [Ne.symm hc])
      have hcx : ∀ x : UInt8, List.count 46 [x] ≤ 1 := by
        intro x; simp [List.count_cons]; split <;> omega
      have hfind : revFind (X ++ (g1 ++ 46 :: g2 ++ [c]) ++ T) X.length 46 ((e : Int) - 1 - X.length) = .ok (some (X.length + g1.length)) := by
        rw [eb, hlen1]
        exact (revFind_eq X (g1 ++ 46 :: g2) ([c] ++ T) 46 _ (by omega) (by omega)).2.2 (by simp; omega) g1 g2 rfl hg2
      have hnd2 : (46 : UInt8) ∉ g2 ++ [c] := by simp [hg2, Ne.symm hc]
      have second : ∀ r, revFind (X ++ (g1 ++ 46 :: g2 ++ [c]) ++ T) X.length 46 ((g1.length : Int) - 1) = .ok r →
          domBegin (X ++ (g1 ++ 46 :: g2 ++ [c]) ++ T) X.length e = .ok (r.getD (X.length - 1) + 1) := by
        intro r hr
        unfold domBegin
        rw [hfind]
        simp only [Res.ok_bind, Option.getD_some]
        rw [show ((X.length + g1.length : Nat) : Int) - 1 - X.length = (g1.length : Int) - 1 by omega, hr]
        rfl
      rcases snoc_cases g1 with rfl | ⟨g3, x, rfl⟩
      · refine hwhole ?_ ?_ ?_
        · simp only [List.nil_append, List.count_append, List.count_cons, List.count_nil, hc2] at hcc ⊢
          simp only [beq_self_eq_true, if_true]
          omega
        · intro _
          unfold lastTwo
          have e1 : [] ++ 46 :: g2 ++ [c] = [] ++ 46 :: (g2 ++ [c]) := by simp
          rw [e1, split_append 46 [] _ (by simp), split_none 46 _ hnd2]
          simp [List.intercalate]
        · rw [second none ((revFind_eq X _ T 46 _ (by simp; omega) (by simp)).1 (by simp))]
          simp at he ⊢; omega
      · have e3 : X ++ (g3 ++ [x] ++ 46 :: g2 ++ [c]) ++ T = X ++ g3 ++ ([x] ++ 46 :: g2 ++ [c] ++ T) := by simp
        have hl3 : (((g3 ++ [x]).length : Nat) : Int) - 1 = g3.length := by simp
        have hrf := revFind_eq X g3 ([x] ++ 46 :: g2 ++ [c] ++ T) 46 g3.length (by omega) (by omega)
        have hx46 : (∀ i, ¬ Occurs [46, 46] (g3 ++ [x] ++ 46 :: g2 ++ [c]) i) → x ≠ 46 := by
          rintro hno rfl
          exact hno g3.length ⟨g3, g2 ++ [c], by simp, rfl⟩
        rcases cut_last 46 g3 with hg3 | ⟨g4, g5, rfl, hg5⟩
        · have hc3 : List.count 46 g3 = 0 := List.count_eq_zero.mpr hg3
          have hx1 := hcx x
          refine hwhole ?_ ?_ ?_
          · simp only [List.count_append, List.count_cons, List.count_nil, hc2, hc3] at hcc hx1 ⊢
            simp only [beq_self_eq_true, if_true]
            omega
          · intro hno
            have hx := hx46 hno
            unfold lastTwo
            have e1 : g3 ++ [x] ++ 46 :: g2 ++ [c] = (g3 ++ [x]) ++ 46 :: (g2 ++ [c]) := by simp
            rw [e1, split_append 46 (g3 ++ [x]) _ (by simp [hg3, Ne.symm hx]), split_none 46 _ hnd2]
            simp [List.intercalate]
          · rw [second none]
            · simp at he ⊢; omega
            · rw [e3, hl3]
              by_cases h0 : (g3.length : Int) ≤ 0
              · exact hrf.1 h0
              · exact hrf.2.1 (by omega) hg3
        · have hc5 : List.count 46 g5 = 0 := List.count_eq_zero.mpr hg5
          have hx1 := hcx x
          refine ⟨g5 ++ [x] ++ 46 :: (g2 ++ [c]), ?_, g4 ++ [46], by simp, Or.inr ⟨g4, rfl⟩, ?_, ?_⟩
          · rw [second (some (X.length + g4.length))]
            · simp at he ⊢; omega
            · rw [e3, hl3]
              exact hrf.2.2 (by simp; omega) g4 g5 rfl hg5
          · simp only [List.count_append, List.count_cons, List.count_nil, hc2, hc5] at hcc hx1 ⊢
            simp only [beq_self_eq_true, if_true]
            omega
          · intro hno
            have hx := hx46 hno
            unfold lastTwo
            have e1 : g4 ++ 46 :: g5 ++ [x] ++ 46 :: g2 ++ [c] = g4 ++ 46 :: ((g5 ++ [x]) ++ 46 :: (g2 ++ [c])) := by simp
            rw [e1, split_append' 46 g4, split_append 46 (g5 ++ [x]) _ (by simp [hg5, Ne.symm hx]), split_none 46 _ hnd2]
            have : (split 46 g4 ++ [g5 ++ [x], g2 ++ [c]]).length - 2 = (split 46 g4).length := by simp
            simp only [this, List.drop_left]
            simp [List.intercalate]

/-! ### assign_anchor -/

theorem takeWhile_append_all (p : UInt8 → Bool) (a b : List UInt8) (h : ∀ c ∈ a, p c = true) :
    (a ++ b).takeWhile p = a ++ b.takeWhile p ∧ (a ++ b).dropWhile p = b.dropWhile p := by
  induction a with
  | nil => simp
  | cons c a ih =>
    have h1 := h c (by simp)
    have h2 := ih (fun c hc => h c (by simp [hc]))
    simp [List.takeWhile_cons, List.dropWhile_cons, h1, h2.1, h2.2]

theorem mem_takeWhile (p : UInt8 → Bool) (l : List UInt8) (c : UInt8) (h : c ∈ l.takeWhile p) : c ∈ l :=
  (List.takeWhile_sublist p).subset h

theorem stripDots_eq (l : List UInt8) : stripDots l = stripEnd (l.dropWhile (· == 46)) := rfl

theorem mem_stripDots (l : List UInt8) (c : UInt8) (h : c ∈ stripDots l) : c ∈ l := by
  unfold stripDots at h
  have h1 : c ∈ l.dropWhile (· == 46) := by
    have := (List.dropWhile_sublist (· == 46)).subset (List.mem_reverse.mp h)
    simpa using this
  exact (List.dropWhile_sublist _).subset h1

theorem stripEnd_last (l : List UInt8) : (stripEnd l).getLast? ≠ some 46 := by
  unfold stripEnd
  rw [List.getLast?_reverse]
  rcases head_not (· == 46) l.reverse with h | ⟨c, r, h, hc⟩
  · rw [h]; simp
  · rw [h]; simpa using hc

theorem withSlash_cons (r : List UInt8) : ∃ q, withSlash r = 47 :: q := by
  unfold withSlash
  split
  · rename_i h
    cases r with
    | nil => simp at h
    | cons c r => simp at h; exact ⟨r, by rw [h]⟩
  · exact ⟨r, rfl⟩

theorem assign_anchor_spec (f : Bool) (X T Z : Buf) (vlen beg : Nat) (hX35 : 35 ∉ X) (hX63 : 63 ∉ X) (hX : X ≠ [])
    (hb : beg = X.length) (hv : vlen = X.length + T.length) (hZ : T.length + 3 ≤ Z.length)
    (h t : List UInt8) (hh : h = stripDots (((T.takeWhile (· != 35)).takeWhile hostChar).map lower))
    (ht : t = withSlash ((T.takeWhile (· != 35)).dropWhile hostChar)) :
    ∃ y d, assign_anchor (X ++ T ++ Z) vlen beg f = .ok y ∧
      Holds y (X ++ h ++ normPath f (t.takeWhile (· != 63)) ++ t.dropWhile (· != 63)) d ∧ DomainOf h d := by
  subst hb
  have hX35' : ∀ c ∈ X, (c != 35) = true := by
    intro c hc; simp; rintro rfl; exact hX35 hc
  -- the anchor
  obtain ⟨r, hr1, hr2⟩ := strnchr_getD (X ++ T) Z 35 vlen (by rw [hv]; simp)
  rw [(takeWhile_append_all _ X T hX35').1] at hr2
  have hT : T = T.takeWhile (· != 35) ++ T.dropWhile (· != 35) := List.takeWhile_append_dropWhile.symm
  have hTl := congrArg List.length hT
  rw [List.length_append] at hTl
  generalize hB : T.takeWhile (· != 35) = B at *
  have eb : X ++ T ++ Z = X ++ B ++ (T.dropWhile (· != 35) ++ Z) := by
    rw [List.append_assoc X B, ← List.append_assoc B, ← hT]; simp
  obtain ⟨z, Z1, hz⟩ : ∃ z Z1, T.dropWhile (· != 35) ++ Z = z :: Z1 := by
    cases hc : T.dropWhile (· != 35) ++ Z with
    | nil => have := congrArg List.length hc; simp at this; simp [this.2] at hZ
    | cons z Z1 => exact ⟨z, Z1, rfl⟩
  have hZ1 : B.length + 2 ≤ Z1.length := by
    have := congrArg List.length hz
    simp only [List.length_append, List.length_cons] at this
    omega
  rw [hz] at eb
  -- the host
  have hBs : B = B.takeWhile hostChar ++ B.dropWhile hostChar := List.takeWhile_append_dropWhile.symm
  have hHall := takeWhile_all hostChar B
  have hDhead := head_not hostChar B
  generalize hHd : B.takeWhile hostChar = H at *
  generalize hDd : B.dropWhile hostChar = D at *
  have hBl : B.length = H.length + D.length := by rw [hBs]; simp
  have hH47 : ∀ c ∈ H, (c != 47) = true := by
    intro c hc; have := hHall c hc; simp; rintro rfl; revert this; decide
  obtain ⟨s, hs1, hs2⟩ := strnchr_getD B (z :: Z1) 47 B.length rfl
  have htw : B.takeWhile (· != 47) = H ++ D.takeWhile (· != 47) := by
    rw [hBs]; exact (takeWhile_append_all _ H D hH47).1
  rw [htw, List.length_append] at hs2
  have hs3 : (s.map (X.length + ·)).getD (X.length + B.length) = X.length + H.length + (D.takeWhile (· != 47)).length := by
    cases s with
    | none => simp at hs2 ⊢; omega
    | some i => simp at hs2 ⊢; omega
  have hD2 : D = D.takeWhile (· != 47) ++ D.dropWhile (· != 47) := List.takeWhile_append_dropWhile.symm
  have hD'head : D.takeWhile (· != 47) = [] ∨ ∃ c r, D.takeWhile (· != 47) = c :: r ∧ hostChar c = false := by
    rcases hDhead with h | ⟨c, r, h, hc⟩
    · rw [h]; simp
    · rw [h, List.takeWhile_cons]
      split
      · exact Or.inr ⟨c, _, rfl, hc⟩
      · exact Or.inl rfl
  have hlow := lowerLoop_spec (D.takeWhile (· != 47)) hD'head H X (D.dropWhile (· != 47) ++ z :: Z1) X.length
    (H.length + (D.takeWhile (· != 47)).length) hHall rfl rfl
  have el : ∀ (G : Buf), X ++ G ++ D.takeWhile (· != 47) ++ (D.dropWhile (· != 47) ++ z :: Z1) = X ++ G ++ D ++ z :: Z1 := by
    intro G
    rw [← List.append_assoc, List.append_assoc (X ++ G), ← hD2]
  rw [el, el] at hlow
  obtain ⟨Z2, hslash, hZ2⟩ := addSlash_spec X D Z1 z (H.map lower) (X.length + B.length) (X.length + H.length)
    (X.length + H.length + (D.takeWhile (· != 47)).length) (by simp) (by omega) rfl
  rw [← ht] at hslash hZ2
  obtain ⟨Z3, hbef, hZ3⟩ := dotsBefore_spec X (H.map lower) t Z2 (X.length + (H.map lower).length + t.length) X.length
    (X.length + (H.map lower).length) rfl rfl rfl
  obtain ⟨Z4, haft, hZ4⟩ := dotsAfter_spec X ((H.map lower).dropWhile (· == 46)) t Z3
    (X.length + ((H.map lower).dropWhile (· == 46)).length + t.length) X.length
    (X.length + ((H.map lower).dropWhile (· == 46)).length) rfl rfl rfl (head_not (· == 46) _)
  rw [← stripDots_eq, ← hh] at haft hZ4
  obtain ⟨d, hdom, hdo⟩ := domBegin_spec X h (t ++ Z4) X.length (X.length + h.length) hX rfl rfl
    (by rw [hh, stripDots_eq]; exact stripEnd_last _)
  rw [← List.append_assoc] at hdom
  obtain ⟨a, had, -⟩ := id hdo
  have hdl : h.length = a.length + d.length := by rw [had]; simp
  -- the path
  obtain ⟨q, hq⟩ : ∃ q, t = 47 :: q := by rw [ht]; exact withSlash_cons D
  have hq63 := cut_first 63 q
  have htw2 : t.takeWhile (· != 63) = 47 :: q.takeWhile (· != 63) ∧ t.dropWhile (· != 63) = q.dropWhile (· != 63) := by
    rw [hq]; simp [List.takeWhile_cons, List.dropWhile_cons]
  have hh63 : (63 : UInt8) ∉ h := by
    intro hc
    rw [hh] at hc
    have := mem_stripDots _ _ hc
    obtain ⟨c, hc1, hc2⟩ := List.mem_map.mp this
    have h1 := hHall c hc1
    rw [← hostChar_lower, hc2] at h1
    revert h1; decide
  have hhl : h.length ≤ H.length := by
    have h1 := (List.dropWhile_sublist (· == 46) (l := H.map lower)).length_le
    have h2 := congrArg List.length (stripEnd_split ((H.map lower).dropWhile (· == 46)))
    rw [← stripDots_eq, ← hh, List.length_append] at h2
    simp only [List.length_map] at h1
    omega
  have htl : t.length ≤ D.length + 1 := by
    rw [ht]; unfold withSlash; split <;> simp
  have hqs : q = q.takeWhile (· != 63) ++ q.dropWhile (· != 63) := List.takeWhile_append_dropWhile.symm
  have hql : q.length = (q.takeWhile (· != 63)).length + (q.dropWhile (· != 63)).length := by
    have := congrArg List.length hqs
    rwa [List.length_append] at this
  have hqq : q.dropWhile (· != 63) = [] ∨ ∃ q', q.dropWhile (· != 63) = 63 :: q' := by
    by_cases hm : 63 ∈ q
    · exact Or.inr (hq63.2.2 hm)
    · exact Or.inl (hq63.2.1 hm).2
  simp only [List.length_map] at hZ2 hZ3
  have htl2 : t.length = q.length + 1 := by rw [hq]; simp
  obtain ⟨y, hy, hhold⟩ := assign_refers_spec f (X ++ h) (q.takeWhile (· != 63)) (q.dropWhile (· != 63)) Z4
    (X.length + h.length + t.length) (X.length + h.length) (.here (X.length + h.length - d.length)) d.length
    (by simp [hX63, hh63]) hq63.1 hqq (by simp only [List.length_append]; omega) (by simp)
    (by simp only [srcOk, List.length_append]; omega) (by omega)
  have hsrc : srcBytes (X ++ h) d.length (.here (X.length + h.length - d.length)) = d := by
    simp only [srcBytes]
    rw [had, ← List.append_assoc, show X.length + (a ++ d).length - d.length = (X ++ a).length by simp; omega,
      List.drop_left, List.take_length]
  rw [hsrc, ← htw2.1] at hhold
  rw [← htw2.2] at hhold
  refine ⟨y, d, ?_, hhold, hdo⟩
  unfold assign_anchor
  rw [hr1]
  simp only [Res.ok_bind, hr2, List.length_append]
  rw [diff_eq _ X.length B.length rfl]
  simp only [Res.ok_bind]
  rw [eb, List.append_assoc X, List.drop_left, hs1]
  simp only [Res.ok_bind, hs3]
  rw [show X.length + H.length + (D.takeWhile (· != 47)).length - X.length = H.length + (D.takeWhile (· != 47)).length by omega]
  rw [show X ++ (B ++ z :: Z1) = X ++ H ++ D ++ z :: Z1 by rw [hBs]; simp, hlow]
  simp only [Res.ok_bind]
  rw [hslash]
  simp only [Res.ok_bind]
  rw [hbef]
  simp only [Res.ok_bind]
  rw [haft]
  simp only [Res.ok_bind]
  rw [hdom]
  simp only [Res.ok_bind]
  rw [show X.length + h.length - (X.length + h.length - d.length) = d.length by omega]
  rw [show X ++ h ++ t ++ Z4 = X ++ h ++ 47 :: q.takeWhile (· != 63) ++ q.dropWhile (· != 63) ++ Z4 by
    rw [hq]; conv => lhs; rw [hqs]
    simp]
  exact hy

end Verif.UrlParser
