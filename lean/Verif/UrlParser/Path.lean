/-
  The normalisation of the path: lemmas about `refersLoop`, `refersEnd` and `assign_refers`.
-/
import Verif.UrlParser.Model
import Verif.UrlParser.Spec
import Verif.Str.Props

set_option linter.unusedSimpArgs false
set_option linter.unusedVariables false

namespace Verif.UrlParser
open Verif.Str Verif.Str.Spec Verif.UrlParser.Spec

/-! ### searches -/

theorem strnchr_some (a z rest : Buf) (c : UInt8) (n : Nat) (h : c ∉ a) (hn : n = a.length + 1 + z.length) :
    coda_strnchr (a ++ c :: z ++ rest) c n = .ok (some a.length) := by
  subst hn
  obtain ⟨r, h1, h2⟩ := C28_strnchr (a ++ c :: z) rest c
  rw [show a.length + 1 + z.length = (a ++ c :: z).length by simp; omega, h1]
  cases r with
  | none => exact absurd (by simp) (h2 a.length)
  | some i =>
    obtain ⟨h3, h4⟩ := h2
    congr 2
    rcases Nat.lt_trichotomy i a.length with h5 | h5 | h5
    · rw [List.getElem?_append_left h5] at h3
      exact absurd (List.mem_of_getElem? h3) h
    · exact h5
    · exact absurd (by simp) (h4 _ h5)

theorem strnchr_none (a rest : Buf) (c : UInt8) (n : Nat) (h : c ∉ a) (hn : n = a.length) :
    coda_strnchr (a ++ rest) c n = .ok none := by
  subst hn
  obtain ⟨r, h1, h2⟩ := C28_strnchr a rest c
  rw [h1]
  cases r with
  | none => rfl
  | some i => exact absurd (List.mem_of_getElem? h2.1) h

theorem revnchr_some (a z rest : Buf) (c : UInt8) (n : Nat) (h : c ∉ z) (hn : n = a.length + 1 + z.length) :
    coda_revnchr (a ++ c :: z ++ rest) c n = .ok (some a.length) := by
  subst hn
  obtain ⟨r, h1, h2⟩ := C28_revnchr (a ++ c :: z) rest c
  rw [show a.length + 1 + z.length = (a ++ c :: z).length by simp; omega, h1]
  cases r with
  | none => exact absurd (by simp) (h2 a.length)
  | some i =>
    obtain ⟨h3, h4⟩ := h2
    congr 2
    rcases Nat.lt_trichotomy i a.length with h5 | h5 | h5
    · exact absurd (by simp) (h4 _ h5)
    · exact h5
    · rw [List.getElem?_append_right (by omega), show i - a.length = (i - a.length - 1) + 1 by omega,
        List.getElem?_cons_succ] at h3
      exact absurd (List.mem_of_getElem? h3) h

theorem revnchr_none (a rest : Buf) (c : UInt8) (n : Nat) (h : c ∉ a) (hn : n = a.length) :
    coda_revnchr (a ++ rest) c n = .ok none := by
  subst hn
  obtain ⟨r, h1, h2⟩ := C28_revnchr a rest c
  rw [h1]
  cases r with
  | none => rfl
  | some i => exact absurd (List.mem_of_getElem? h2.1) h

/-- A text cut at the first occurrence of a byte. -/
theorem cut_first (c : UInt8) (l : Buf) : c ∉ l.takeWhile (· != c) ∧
    (c ∉ l → l.takeWhile (· != c) = l ∧ l.dropWhile (· != c) = []) ∧
    (c ∈ l → ∃ z, l.dropWhile (· != c) = c :: z) := by
  induction l with
  | nil => simp
  | cons a l ih =>
    by_cases h : a = c
    · subst h; simp
    · simp only [List.takeWhile_cons, List.dropWhile_cons]
      have : (a != c) = true := by simpa using h
      simp only [this, if_true, List.mem_cons]
      refine ⟨by simp [ih.1, Ne.symm h], fun h2 => ?_, fun h2 => ?_⟩
      · simp only [not_or] at h2
        have := ih.2.1 h2.2
        simp [this.1, this.2]
      · exact ih.2.2 (h2.resolve_left (Ne.symm h))

/-- The position of the first occurrence, or the length. -/
theorem strnchr_getD (l rest : Buf) (c : UInt8) (n : Nat) (hn : n = l.length) :
    ∃ r, coda_strnchr (l ++ rest) c n = .ok r ∧ r.getD n = (l.takeWhile (· != c)).length := by
  have hc := cut_first c l
  by_cases h : c ∈ l
  · obtain ⟨z, hz⟩ := hc.2.2 h
    have hl : l = l.takeWhile (· != c) ++ c :: z := by
      rw [← hz, List.takeWhile_append_dropWhile]
    refine ⟨some (l.takeWhile (· != c)).length, ?_, rfl⟩
    conv => lhs; rw [hl]
    rw [strnchr_some _ z rest c n hc.1 (by rw [hn, hl]; simp; rw [← hl]; omega)]
  · refine ⟨none, strnchr_none l rest c n h hn, ?_⟩
    simp [(hc.2.1 h).1, hn]

/-! ### memmove -/

theorem memmove_left (X M Y Z : Buf) (d s n : Nat) (hd : d = X.length) (hs : s = X.length + M.length) (hn : n = Y.length) :
    ∃ W, W.length = M.length ∧ memmove (X ++ M ++ Y ++ Z) d s n = .ok (X ++ Y ++ W ++ Z) := by
  subst hd hs hn
  refine ⟨(M ++ Y).drop Y.length, by simp, ?_⟩
  unfold memmove
  rw [if_pos (by simp; omega)]
  congr 1
  unfold patch
  have e1 : (X ++ M ++ Y ++ Z).drop (X.length + M.length) = Y ++ Z := by
    rw [show X.length + M.length = (X ++ M).length by simp, List.append_assoc, List.drop_left]
  have e2 : (Y ++ Z).take Y.length = Y := List.take_left
  rw [e1, e2]
  have e3 : (X ++ M ++ Y ++ Z).take X.length = X := by
    rw [List.append_assoc, List.append_assoc, List.take_left]
  have e4 : (X ++ M ++ Y ++ Z).drop (X.length + Y.length) = (M ++ Y).drop Y.length ++ Z := by
    rw [← List.drop_drop, List.append_assoc, List.append_assoc, List.drop_left, ← List.append_assoc,
      List.drop_append_of_le_length (by simp)]
  rw [e3, e4]
  simp

/-! ### patterns -/

theorem occurs_whole (nd data : Buf) (i : Nat) (h : data.length = nd.length) : Occurs nd data i ↔ i = 0 ∧ data = nd := by
  constructor
  · rintro ⟨a, z, e, hi⟩
    have := congrArg List.length e
    simp at this
    have ha : a = [] := List.eq_nil_of_length_eq_zero (by omega)
    have hz : z = [] := List.eq_nil_of_length_eq_zero (by omega)
    subst ha hz
    simp at hi e
    exact ⟨hi.symm, e⟩
  · rintro ⟨rfl, rfl⟩
    exact ⟨[], [], by simp, rfl⟩

theorem strnstr_whole (X R : Buf) (t : List UInt8) (h0 : (0 : UInt8) ∉ t) (hl : t.length ≤ R.length) (hp : (0 : UInt8) ≠ 47) :
    coda_strnstr (some (47 :: R)) (some (47 :: t ++ [0])) (47 :: t).length
      = .ok (if R.take t.length = t then some 0 else none) := by
  have hs : 47 :: R = (47 :: R.take t.length) ++ R.drop t.length := by simp
  obtain ⟨r, h1, h2⟩ := C29_strnstr_partial (47 :: t ++ [0]) (47 :: t) (47 :: R.take t.length) (R.drop t.length)
    ⟨by intro c hc; rintro rfl; simp at hc; exact h0 hc, [], by simp⟩ (by simp) 47 (by decide) rfl
  have hlen : (47 :: R.take t.length).length = (47 :: t).length := by simp; omega
  rw [hs, ← hlen, h1]
  congr 1
  cases r with
  | none =>
    by_cases h : R.take t.length = t
    · exact absurd ((occurs_whole _ _ 0 hlen).2 ⟨rfl, by rw [h]⟩) (h2 0)
    · rw [if_neg h]
  | some i =>
    have := (occurs_whole _ _ i hlen).1 h2.1
    have h3 : R.take t.length = t := by simpa using this.2
    rw [if_pos h3, this.1]

theorem isAt_eq (X R Z : Buf) (t : List UInt8) (p eofp : Nat) (h0 : (0 : UInt8) ∉ t) (hp : p = X.length)
    (he : eofp = X.length + 1 + R.length) :
    isAt (X ++ 47 :: R ++ Z) p eofp (47 :: t) = .ok (decide (t <+: R)) := by
  subst hp he
  unfold isAt
  by_cases hl : t.length ≤ R.length
  · rw [if_pos (by simp; omega), List.append_assoc, List.drop_left,
      show (47 :: R : Buf) ++ Z = 47 :: (R ++ Z) from rfl, strnstr_whole X (R ++ Z) t h0 (by simp; omega) (by decide)]
    rw [List.take_append_of_le_length hl]
    simp only [Res.ok_bind]
    congr 1
    by_cases h : R.take t.length = t
    · rw [if_pos h]
      simp [List.prefix_iff_eq_take, h]
    · rw [if_neg h]
      simp [List.prefix_iff_eq_take]
      exact fun h2 => h h2.symm
  · rw [if_neg (by simp; omega)]
    congr 1
    symm
    rw [decide_eq_false_iff_not]
    intro h
    exact hl h.length_le

theorem isLast_eq (X R Z : Buf) (t : List UInt8) (p eofp : Nat) (h0 : (0 : UInt8) ∉ t) (hp : p = X.length)
    (he : eofp = X.length + 1 + R.length) :
    isLast (X ++ 47 :: R ++ Z) p eofp (47 :: t) = .ok (decide (R = t)) := by
  subst hp he
  unfold isLast
  by_cases hl : t.length = R.length
  · rw [if_pos (by simp; omega), List.append_assoc, List.drop_left,
      show (47 :: R : Buf) ++ Z = 47 :: (R ++ Z) from rfl, strnstr_whole X (R ++ Z) t h0 (by simp; omega) (by decide)]
    rw [List.take_append_of_le_length (by omega), List.take_of_length_le (by omega)]
    simp only [Res.ok_bind]
    congr 1
    by_cases h : R = t
    · simp [h]
    · simp [h]
  · rw [if_neg (by simp; omega)]
    congr 1
    symm
    rw [decide_eq_false_iff_not]
    rintro rfl
    exact hl rfl

/-! ### split and join -/

theorem split_cons (sep : UInt8) (c : UInt8) (l : List UInt8) (h : c ≠ sep) :
    ∃ s r, split sep l = s :: r ∧ split sep (c :: l) = (c :: s) :: r := by
  rw [split, if_neg h]
  cases l with
  | nil => exact ⟨[], [], rfl, rfl⟩
  | cons d l =>
    cases hs : split sep (d :: l) with
    | nil =>
      rw [split] at hs
      split at hs
      · cases hs
      · split at hs <;> cases hs
    | cons s r => exact ⟨s, r, rfl, rfl⟩

theorem split_none (sep : UInt8) (l : List UInt8) (h : sep ∉ l) : split sep l = [l] := by
  induction l with
  | nil => rfl
  | cons c l ih =>
    simp only [List.mem_cons, not_or] at h
    obtain ⟨s, r, h1, h2⟩ := split_cons sep c l (Ne.symm h.1)
    rw [ih h.2] at h1
    cases h1
    rw [h2]

theorem split_ne_nil (sep : UInt8) (l : List UInt8) : split sep l ≠ [] := by
  cases l with
  | nil => simp [split]
  | cons c l =>
    rw [split]
    split
    · simp
    · split <;> simp

theorem split_append (sep : UInt8) (s l : List UInt8) (h : sep ∉ s) : split sep (s ++ sep :: l) = s :: split sep l := by
  induction s with
  | nil => rw [List.nil_append, split, if_pos rfl]
  | cons c s ih =>
    simp only [List.mem_cons, not_or] at h
    obtain ⟨s', r, h1, h2⟩ := split_cons sep c (s ++ sep :: l) (Ne.symm h.1)
    rw [ih h.2] at h1
    cases h1
    rw [List.cons_append, h2]

theorem cut_cases (sep : UInt8) (l : List UInt8) : sep ∉ l ∨ ∃ s r, l = s ++ sep :: r ∧ sep ∉ s := by
  have h := cut_first sep l
  by_cases hc : sep ∈ l
  · obtain ⟨z, hz⟩ := h.2.2 hc
    exact Or.inr ⟨_, z, by rw [← hz, List.takeWhile_append_dropWhile], h.1⟩
  · exact Or.inl hc

theorem join_append (a b : List (List UInt8)) : join (a ++ b) = join a ++ join b := by simp [join]
theorem join_single (s : List UInt8) : join [s] = 47 :: s := by simp [join]

/-! ### the loop -/

/-- Characters other than '/' are passed over. -/
theorem refersLoop_walk (beg : Nat) (s : Buf) : ∀ (fuel : Nat) (X Y : Buf) (p prev eofp : Nat), 47 ∉ s →
    p = X.length → X.length + s.length ≤ eofp →
    refersLoop beg (s.length + fuel) (X ++ s ++ Y) p prev eofp = refersLoop beg fuel (X ++ s ++ Y) (p + s.length) prev eofp := by
  induction s with
  | nil => intro fuel X Y p prev eofp _ _ _; simp
  | cons c s ih =>
    intro fuel X Y p prev eofp hs hp he
    simp only [List.mem_cons, not_or] at hs
    simp only [List.length_cons] at he ⊢
    rw [show s.length + 1 + fuel = (s.length + fuel) + 1 by omega]
    conv => lhs; rw [refersLoop]
    rw [if_pos (by omega)]
    have hr : rd (X ++ (c :: s) ++ Y) p = .ok c := by
      rw [hp, List.append_assoc, rd_append_zero]; rfl
    simp only [hr, Res.ok_bind]
    rw [if_neg (Ne.symm hs.1)]
    have := ih fuel (X ++ [c]) Y (p + 1) prev eofp hs.2 (by simp [hp]) (by simp; omega)
    simp only [List.append_assoc, List.singleton_append, List.cons_append, List.nil_append] at this ⊢
    rw [this]
    congr 1
    omega

/-- The slash before the last segment. -/
theorem backSlash_eq (pre D s Z : Buf) (n : Nat) (hs : 47 ∉ s) (hn : n = D.length + 1 + s.length) :
    backSlash (pre ++ (D ++ 47 :: s) ++ Z) pre.length n = .ok (some (pre.length + D.length)) := by
  subst hn
  have gen : ∀ (t r : Buf), s = t ++ r →
      backSlash (pre ++ (D ++ 47 :: s) ++ Z) pre.length (D.length + 1 + t.length) = .ok (some (pre.length + D.length)) := by
    intro t
    induction h : t.length generalizing t with
    | zero =>
      intro r hr
      rw [Nat.add_zero]
      rw [backSlash]
      have : rd (pre ++ (D ++ 47 :: s) ++ Z) (pre.length + D.length) = .ok 47 := by
        rw [List.append_assoc, rd_append_right, List.append_assoc, rd_append_zero]; rfl
      rw [this]; rfl
    | succ k ih =>
      intro r hr
      rw [show D.length + 1 + (k + 1) = (D.length + 1 + k) + 1 by omega, backSlash]
      have hk : k < t.length := by omega
      have hk' : k < s.length := by rw [hr]; simp; omega
      have : rd (pre ++ (D ++ 47 :: s) ++ Z) (pre.length + (D.length + 1 + k)) = .ok s[k] := by
        rw [List.append_assoc, rd_append_right, List.append_assoc, show D.length + 1 + k = D.length + (1 + k) by omega,
          rd_append_right, List.cons_append, show 1 + k = k + 1 by omega, rd_cons_succ]
        rw [rd_ok_iff, List.getElem?_append_left hk']
        simp
      rw [this]
      simp only [Res.ok_bind]
      rw [if_neg (fun h2 => hs (by rw [← h2]; exact List.getElem_mem hk'))]
      exact ih (t.take k) (by simp; omega) (t.drop k ++ r) (by rw [← List.append_assoc, List.take_append_drop, hr])
  exact gen s [] (by simp)

theorem backSlash_zero (b : Buf) (beg : Nat) : backSlash b beg 0 = .ok none := rfl

/-- `dirs` seen from its end. -/
theorem dirs_cases (l : List (List UInt8)) : l = [] ∨ ∃ l' s, l = l' ++ [s] :=
  match h : l.getLast? with
  | none => Or.inl (by simpa using h)
  | some s => Or.inr ⟨l.dropLast, s, by
      obtain ⟨ys, h⟩ := List.getLast?_eq_some_iff.mp h
      rw [h]; simp⟩

/-- The slash before the last directory, or nothing in the root. -/
theorem backSlash_dirs (pre Z : Buf) (dirs : List (List UInt8)) (hd : ∀ s ∈ dirs, 47 ∉ s) (n : Nat) (hn : n = (join dirs).length) :
    ∃ r, backSlash (pre ++ join dirs ++ Z) pre.length n = .ok r ∧
      r.getD (pre.length + (join dirs).length) = pre.length + (join dirs.dropLast).length ∧
      (dirs ≠ [] → r = some (pre.length + (join dirs.dropLast).length)) := by
  rcases dirs_cases dirs with rfl | ⟨l, s, rfl⟩
  · refine ⟨none, ?_, rfl, by simp⟩
    rw [hn]; rfl
  · refine ⟨some (pre.length + (join l).length), ?_, by simp, by simp⟩
    rw [join_append, join_single] at hn ⊢
    rw [backSlash_eq pre (join l) s Z n (hd s (by simp)) (by rw [hn]; simp; omega)]

theorem refersLoop_done (beg fuel : Nat) (b : Buf) (p prev eofp : Nat) (h : ¬ p < eofp) :
    refersLoop beg fuel b p prev eofp = .ok (b, eofp, prev) := by
  cases fuel <;> simp [refersLoop, h]

/-- "t/" begins the text "s/..." only if t = s. -/
theorem prefix_seg (t s R : List UInt8) (ht : 47 ∉ t) (hs : 47 ∉ s) : (t ++ [47]) <+: (s ++ 47 :: R) ↔ s = t := by
  constructor
  · intro h
    induction t generalizing s with
    | nil =>
      cases s with
      | nil => rfl
      | cons c s =>
        simp only [List.nil_append, List.cons_append] at h
        have := (List.cons_prefix_cons.mp h).1
        exact absurd (by simp [this]) hs
    | cons d t ih =>
      cases s with
      | nil =>
        simp only [List.nil_append, List.cons_append] at h
        have := (List.cons_prefix_cons.mp h).1
        exact absurd (by simp [this]) ht
      | cons c s =>
        simp only [List.cons_append] at h
        obtain ⟨h1, h2⟩ := List.cons_prefix_cons.mp h
        simp only [List.mem_cons, not_or] at ht hs
        rw [h1, ih s ht.2 hs.2 h2]
  · rintro rfl
    exact ⟨R, by simp⟩

theorem prefix_noseg (t R : List UInt8) (h : 47 ∉ R) : ¬ (t ++ [47]) <+: R := by
  rintro ⟨z, rfl⟩
  exact h (by simp)

/-- One round at a slash: which of the three patterns follows. -/
theorem refersLoop_slash (beg fuel : Nat) (X R Z : Buf) (p prev eofp : Nat) (hp : p = X.length)
    (he : eofp = X.length + 1 + R.length) :
    refersLoop beg (fuel + 1) (X ++ 47 :: R ++ Z) p prev eofp =
      if [46, 46] ++ [47] <+: R then do
        let n ← diff eofp (p + 3)
        let b ← memmove (X ++ 47 :: R ++ Z) prev (p + 3) n
        let pp ← backSlash b beg (prev - beg)
        refersLoop beg fuel b prev (pp.getD prev) (eofp - (p + 3 - prev))
      else if [46] ++ [47] <+: R then do
        let n ← diff eofp (p + 2)
        let b ← memmove (X ++ 47 :: R ++ Z) p (p + 2) n
        refersLoop beg fuel b p prev (eofp - 2)
      else if [] ++ [47] <+: R then do
        let n ← diff eofp (p + 1)
        let b ← memmove (X ++ 47 :: R ++ Z) p (p + 1) n
        refersLoop beg fuel b p prev (eofp - 1)
      else refersLoop beg fuel (X ++ 47 :: R ++ Z) (p + 1) p eofp := by
  conv => lhs; rw [refersLoop]
  rw [if_pos (by omega)]
  have hr : rd (X ++ 47 :: R ++ Z) p = .ok 47 := by
    rw [hp, List.append_assoc, rd_append_zero]; rfl
  have a1 : isAt (X ++ 47 :: R ++ Z) p eofp [47, 46, 46, 47] = .ok (decide ([46, 46] ++ [47] <+: R)) :=
    isAt_eq X R Z [46, 46, 47] p eofp (by decide) hp he
  have a2 : isAt (X ++ 47 :: R ++ Z) p eofp [47, 46, 47] = .ok (decide ([46] ++ [47] <+: R)) :=
    isAt_eq X R Z [46, 47] p eofp (by decide) hp he
  have a3 : isAt (X ++ 47 :: R ++ Z) p eofp [47, 47] = .ok (decide ([] ++ [47] <+: R)) :=
    isAt_eq X R Z [47] p eofp (by decide) hp he
  rw [hr, Res.ok_bind, if_pos rfl, a1, a2, a3]
  simp only [Res.ok_bind, decide_eq_true_eq]

theorem diff_eq (a b n : Nat) (h : a = b + n) : diff a b = .ok n := by
  unfold diff
  rw [if_pos (by omega)]
  congr 1
  omega

/-- What the loop does: it follows all segments but the last. -/
def LoopGoal (pre Z : Buf) (R : Buf) (fuel : Nat) (dirs : List (List UInt8)) (J : Buf) : Prop :=
    ∃ J', refersLoop pre.length fuel (pre ++ join dirs ++ 47 :: R ++ J ++ Z) (pre.length + (join dirs).length)
        (pre.length + (join dirs.dropLast).length) (pre.length + (join dirs).length + 1 + R.length)
      = .ok (pre ++ join ((split 47 R).dropLast.foldl follow dirs) ++ 47 :: (split 47 R).getLastD [] ++ J' ++ Z,
          pre.length + (join ((split 47 R).dropLast.foldl follow dirs)).length + 1 + ((split 47 R).getLastD []).length,
          pre.length + (join ((split 47 R).dropLast.foldl follow dirs)).length) ∧
      (join ((split 47 R).dropLast.foldl follow dirs)).length + 1 + ((split 47 R).getLastD []).length + J'.length
        = (join dirs).length + 1 + R.length + J.length ∧
      (∀ s ∈ (split 47 R).dropLast.foldl follow dirs, 47 ∉ s) ∧ 47 ∉ (split 47 R).getLastD []

theorem split_step (s R : List UInt8) (dirs : List (List UInt8)) (hs : 47 ∉ s) :
    (split 47 (s ++ 47 :: R)).dropLast.foldl follow dirs = (split 47 R).dropLast.foldl follow (follow dirs s) ∧
    (split 47 (s ++ 47 :: R)).getLastD [] = (split 47 R).getLastD [] := by
  rw [split_append 47 s R hs]
  cases h : split 47 R with
  | nil => exact absurd h (split_ne_nil _ _)
  | cons a l =>
    refine ⟨by simp, ?_⟩
    simp

theorem loopGoal_of (pre Z R s J J1 : Buf) (f f1 : Nat) (dirs d1 : List (List UInt8)) (hs : 47 ∉ s) (hd : follow dirs s = d1)
    (hstep : refersLoop pre.length f (pre ++ join dirs ++ 47 :: (s ++ 47 :: R) ++ J ++ Z) (pre.length + (join dirs).length)
        (pre.length + (join dirs.dropLast).length) (pre.length + (join dirs).length + 1 + (s ++ 47 :: R).length)
      = refersLoop pre.length f1 (pre ++ join d1 ++ 47 :: R ++ J1 ++ Z) (pre.length + (join d1).length)
        (pre.length + (join d1.dropLast).length) (pre.length + (join d1).length + 1 + R.length))
    (hlen : (join d1).length + J1.length = (join dirs).length + 1 + s.length + J.length)
    (h : LoopGoal pre Z R f1 d1 J1) : LoopGoal pre Z (s ++ 47 :: R) f dirs J := by
  obtain ⟨J', h1, h2, h3, h4⟩ := h
  unfold LoopGoal
  obtain ⟨e1, e2⟩ := split_step s R dirs hs
  rw [e1, e2, hd]
  refine ⟨J', ?_, ?_, h3, h4⟩
  · rw [hstep, h1]
  · rw [h2]; simp; omega

theorem refersLoop_spec (pre Z : Buf) : ∀ (m : Nat) (R : Buf) (fuel : Nat) (dirs : List (List UInt8)) (J : Buf),
    R.length < m → R.length < fuel → (∀ s ∈ dirs, 47 ∉ s) → LoopGoal pre Z R fuel dirs J := by
  intro m
  induction m with
  | zero => intro R fuel dirs J h; omega
  | succ m ih =>
    intro R fuel dirs J hm hf hd
    obtain ⟨f, rfl⟩ : ∃ f, fuel = f + 1 := ⟨fuel - 1, by omega⟩
    have hX : (pre ++ join dirs).length = pre.length + (join dirs).length := by simp
    rcases cut_cases 47 R with hR | ⟨s, R2, rfl, hs⟩
    · unfold LoopGoal
      rw [split_none 47 R hR]
      simp only [List.dropLast_singleton, List.foldl_nil, List.getLastD_cons, List.getLastD_nil]
      refine ⟨J, ?_, rfl, hd, hR⟩
      have := refersLoop_slash pre.length f (pre ++ join dirs) R (J ++ Z) (pre.length + (join dirs).length)
        (pre.length + (join dirs.dropLast).length) (pre.length + (join dirs).length + 1 + R.length) hX.symm (by rw [hX])
      rw [← List.append_assoc] at this
      rw [this, if_neg (prefix_noseg [46, 46] R hR), if_neg (prefix_noseg [46] R hR), if_neg (prefix_noseg [] R hR)]
      have hw := refersLoop_walk pre.length R (f - R.length) (pre ++ join dirs ++ [47]) (J ++ Z)
        (pre.length + (join dirs).length + 1) (pre.length + (join dirs).length) (pre.length + (join dirs).length + 1 + R.length)
        hR (by simp; omega) (by simp; omega)
      rw [show R.length + (f - R.length) = f by omega] at hw
      have e : pre ++ join dirs ++ [47] ++ R ++ (J ++ Z) = pre ++ join dirs ++ 47 :: R ++ J ++ Z := by simp
      rw [e] at hw
      rw [hw, refersLoop_done _ _ _ _ _ _ (by omega)]
    · have hslash := refersLoop_slash pre.length f (pre ++ join dirs) (s ++ 47 :: R2) (J ++ Z) (pre.length + (join dirs).length)
        (pre.length + (join dirs.dropLast).length) (pre.length + (join dirs).length + 1 + (s ++ 47 :: R2).length) hX.symm (by rw [hX])
      have eb : pre ++ join dirs ++ 47 :: (s ++ 47 :: R2) ++ (J ++ Z) = pre ++ join dirs ++ 47 :: (s ++ 47 :: R2) ++ J ++ Z := by simp
      rw [eb] at hslash
      have hl : (s ++ 47 :: R2).length = s.length + 1 + R2.length := by simp; omega
      by_cases h1 : s = [46, 46]
      · subst h1
        rw [if_pos ((prefix_seg [46, 46] [46, 46] R2 (by decide) hs).2 rfl)] at hslash
        obtain ⟨t, ht⟩ : ∃ t, join dirs = join dirs.dropLast ++ t := by
          rcases dirs_cases dirs with rfl | ⟨l, x, rfl⟩
          · exact ⟨[], by simp [join]⟩
          · exact ⟨join [x], by simp [join_append]⟩
        obtain ⟨W, hW, hmm⟩ := memmove_left (pre ++ join dirs.dropLast) (t ++ [47, 46, 46]) (47 :: R2) (J ++ Z)
          (pre.length + (join dirs.dropLast).length) (pre.length + (join dirs).length + 3) (1 + R2.length)
          (by simp) (by rw [ht]; simp; omega) (by simp; omega)
        have eb2 : pre ++ join dirs.dropLast ++ (t ++ [47, 46, 46]) ++ 47 :: R2 ++ (J ++ Z)
            = pre ++ join dirs ++ 47 :: ([46, 46] ++ 47 :: R2) ++ J ++ Z := by
          rw [ht]; simp
        rw [eb2] at hmm
        have hdl : ∀ s ∈ dirs.dropLast, 47 ∉ s := fun s h => hd s (List.dropLast_subset _ h)
        obtain ⟨r, hb1, hb2, -⟩ := backSlash_dirs pre (47 :: R2 ++ W ++ (J ++ Z)) dirs.dropLast hdl
          (pre.length + (join dirs.dropLast).length - pre.length) (by omega)
        have eb3 : pre ++ join dirs.dropLast ++ (47 :: R2 ++ W ++ (J ++ Z)) = pre ++ join dirs.dropLast ++ 47 :: R2 ++ W ++ (J ++ Z) := by
          simp
        rw [eb3] at hb1
        rw [diff_eq _ _ (1 + R2.length) (by simp; omega)] at hslash
        simp only [Res.ok_bind, hmm, hb1, hb2] at hslash
        refine loopGoal_of pre Z R2 [46, 46] J (W ++ J) (f + 1) f dirs dirs.dropLast hs ?_ ?_ ?_
          (ih R2 f dirs.dropLast (W ++ J) (by simp at hm; omega) (by simp at hf; omega) hdl)
        · simp [follow]
        · rw [hslash]
          have : (join dirs).length = (join dirs.dropLast).length + t.length := by rw [ht]; simp
          congr 1
          · simp
          · simp; omega
        · have := congrArg List.length ht
          simp at this hW ⊢; omega
      · rw [if_neg (fun h => h1 ((prefix_seg [46, 46] s R2 (by decide) hs).1 h))] at hslash
        by_cases h2 : s = [46]
        · subst h2
          rw [if_pos ((prefix_seg [46] [46] R2 (by decide) hs).2 rfl)] at hslash
          obtain ⟨W, hW, hmm⟩ := memmove_left (pre ++ join dirs) [47, 46] (47 :: R2) (J ++ Z)
            (pre.length + (join dirs).length) (pre.length + (join dirs).length + 2) (1 + R2.length)
            (by simp) (by simp) (by simp; omega)
          have eb2 : pre ++ join dirs ++ [47, 46] ++ 47 :: R2 ++ (J ++ Z)
              = pre ++ join dirs ++ 47 :: ([46] ++ 47 :: R2) ++ J ++ Z := by simp
          rw [eb2] at hmm
          rw [diff_eq _ _ (1 + R2.length) (by simp; omega)] at hslash
          simp only [Res.ok_bind, hmm] at hslash
          refine loopGoal_of pre Z R2 [46] J (W ++ J) (f + 1) f dirs dirs hs ?_ ?_ ?_
            (ih R2 f dirs (W ++ J) (by simp at hm; omega) (by simp at hf; omega) hd)
          · simp [follow]
          · rw [hslash]
            congr 1
            all_goals (simp; try omega)
          · simp at hW ⊢; omega
        · rw [if_neg (fun h => h2 ((prefix_seg [46] s R2 (by decide) hs).1 h))] at hslash
          by_cases h3 : s = []
          · subst h3
            rw [if_pos ((prefix_seg [] [] R2 (by decide) hs).2 rfl)] at hslash
            obtain ⟨W, hW, hmm⟩ := memmove_left (pre ++ join dirs) [47] (47 :: R2) (J ++ Z)
              (pre.length + (join dirs).length) (pre.length + (join dirs).length + 1) (1 + R2.length)
              (by simp) (by simp) (by simp; omega)
            have eb2 : pre ++ join dirs ++ [47] ++ 47 :: R2 ++ (J ++ Z)
                = pre ++ join dirs ++ 47 :: ([] ++ 47 :: R2) ++ J ++ Z := by simp
            rw [eb2] at hmm
            rw [diff_eq _ _ (1 + R2.length) (by simp; omega)] at hslash
            simp only [Res.ok_bind, hmm] at hslash
            refine loopGoal_of pre Z R2 [] J (W ++ J) (f + 1) f dirs dirs hs ?_ ?_ ?_
              (ih R2 f dirs (W ++ J) (by simp at hm; omega) (by simp at hf; omega) hd)
            · simp [follow]
            · rw [hslash]
              congr 1
              all_goals (simp; try omega)
            · simp at hW ⊢; omega
          · rw [if_neg (fun h => h3 ((prefix_seg [] s R2 (by decide) hs).1 h))] at hslash
            have hd2 : ∀ x ∈ dirs ++ [s], 47 ∉ x := by
              intro x hx
              rcases List.mem_append.mp hx with h | h
              · exact hd x h
              · simp at h; subst h; exact hs
            refine loopGoal_of pre Z R2 s J J (f + 1) (f - s.length) dirs (dirs ++ [s]) hs ?_ ?_ ?_
              (ih R2 (f - s.length) (dirs ++ [s]) J (by rw [hl] at hm; omega) (by rw [hl] at hf; omega) hd2)
            · simp [follow, h1, h2, h3]
            · rw [hslash]
              have hw := refersLoop_walk pre.length s (f - s.length) (pre ++ join dirs ++ [47]) (47 :: R2 ++ J ++ Z)
                (pre.length + (join dirs).length + 1) (pre.length + (join dirs).length)
                (pre.length + (join dirs).length + 1 + (s ++ 47 :: R2).length) hs (by simp; omega) (by simp; omega)
              rw [show s.length + (f - s.length) = f by rw [hl] at hf; omega] at hw
              have e : pre ++ join dirs ++ [47] ++ s ++ (47 :: R2 ++ J ++ Z) = pre ++ join dirs ++ 47 :: (s ++ 47 :: R2) ++ J ++ Z := by simp
              have e' : pre ++ join (dirs ++ [s]) ++ 47 :: R2 ++ J ++ Z = pre ++ join dirs ++ 47 :: (s ++ 47 :: R2) ++ J ++ Z := by
                rw [join_append, join_single]; simp
              rw [e] at hw
              rw [hw, e', join_append, join_single]
              simp only [List.dropLast_concat, List.length_append, List.length_cons]
              congr 1
              · omega
              · omega
            · rw [join_append, join_single]; simp; omega

/-! ### the end of the path -/

/-- The end of the path for the directories `dirs` and the last segment `last`. -/
def endText (f : Bool) (dirs : List (List UInt8)) (last : List UInt8) : List UInt8 :=
  if last = [] ∨ last = [46] ∨ last = [46, 46] then dirText f (follow dirs last) else join (dirs ++ [last])

theorem normPath_eq (f : Bool) (R : List UInt8) :
    normPath f (47 :: R) = endText f ((split 47 R).dropLast.foldl follow []) ((split 47 R).getLastD []) := rfl

theorem join_pos (dirs : List (List UInt8)) (h : dirs ≠ []) : 0 < (join dirs).length := by
  cases dirs with
  | nil => exact absurd rfl h
  | cons a l => simp [join]

theorem refersEnd_spec (f : Bool) (pre Z : Buf) (dirs : List (List UInt8)) (last : List UInt8) (hd : ∀ s ∈ dirs, 47 ∉ s) :
    refersEnd (pre ++ join dirs ++ 47 :: last ++ Z) pre.length (pre.length + (join dirs).length)
        (pre.length + (join dirs).length + 1 + last.length) f = .ok (pre.length + (endText f dirs last).length) ∧
      endText f dirs last <+: join dirs ++ 47 :: last := by
  have hX : (pre ++ join dirs).length = pre.length + (join dirs).length := by simp
  have a1 : isLast (pre ++ join dirs ++ 47 :: last ++ Z) (pre.length + (join dirs).length)
      (pre.length + (join dirs).length + 1 + last.length) [47, 46, 46] = .ok (decide (last = [46, 46])) :=
    isLast_eq (pre ++ join dirs) last Z [46, 46] _ _ (by decide) hX.symm (by rw [hX])
  have a2 : isLast (pre ++ join dirs ++ 47 :: last ++ Z) (pre.length + (join dirs).length)
      (pre.length + (join dirs).length + 1 + last.length) [47, 46] = .ok (decide (last = [46])) :=
    isLast_eq (pre ++ join dirs) last Z [46] _ _ (by decide) hX.symm (by rw [hX])
  have a3 : isLast (pre ++ join dirs ++ 47 :: last ++ Z) (pre.length + (join dirs).length)
      (pre.length + (join dirs).length + 1 + last.length) [47] = .ok (decide (last = [])) :=
    isLast_eq (pre ++ join dirs) last Z [] _ _ (by decide) hX.symm (by rw [hX])
  unfold refersEnd
  rw [a1, a2, a3]
  simp only [Res.ok_bind, decide_eq_true_eq]
  by_cases h1 : last = [46, 46]
  · subst h1
    rw [if_pos rfl]
    obtain ⟨r, hb, -, hr⟩ := backSlash_dirs pre (47 :: [46, 46] ++ Z) dirs hd
      (pre.length + (join dirs).length - pre.length) (by omega)
    rw [show pre ++ join dirs ++ (47 :: [46, 46] ++ Z) = pre ++ join dirs ++ 47 :: [46, 46] ++ Z by simp] at hb
    rcases dirs_cases dirs with rfl | ⟨l, s, rfl⟩
    · rw [if_neg (by simp [join])]
      refine ⟨?_, ?_⟩
      · simp [endText, follow, dirText, join]
      · simp [endText, follow, dirText, join]
    · have hj : (join (l ++ [s])).length = (join l).length + 1 + s.length := by
        rw [join_append, join_single]; simp; omega
      rw [if_pos (by omega), hb, hr (by simp)]
      simp only [Res.ok_bind, List.dropLast_concat]
      have he : endText f (l ++ [s]) [46, 46] = dirText f l := by
        simp [endText, follow]
      rw [he]
      by_cases hl : l = []
      · subst hl
        rw [if_neg (by simp [join])]
        refine ⟨?_, ?_⟩
        · congr 1; rw [hj]; simp [dirText, join]; omega
        · rw [join_append, join_single]; simp [dirText, join]
      · have := join_pos l hl
        cases f with
        | false =>
          rw [if_pos ⟨by omega, rfl⟩]
          refine ⟨?_, ?_⟩
          · congr 1; rw [hj]; simp [dirText, hl]; omega
          · rw [join_append, join_single]; simp [dirText, hl, List.append_assoc]
        | true =>
          rw [if_neg (by simp)]
          refine ⟨?_, ?_⟩
          · congr 1; rw [hj]; simp [dirText, hl]; omega
          · rw [join_append, join_single]; simp [dirText, hl, List.append_assoc]
  · rw [if_neg h1]
    by_cases h2 : last = [46]
    · subst h2
      rw [if_pos rfl]
      have he : endText f dirs [46] = dirText f dirs := by simp [endText, follow]
      rw [he]
      by_cases hl : dirs = []
      · subst hl
        rw [if_neg (by simp [join])]
        exact ⟨by simp [dirText, join], by simp [dirText, join]⟩
      · have := join_pos dirs hl
        cases f with
        | false =>
          rw [if_pos ⟨by omega, rfl⟩]
          refine ⟨?_, by simp [dirText, hl]⟩
          congr 1; simp [dirText, hl]
        | true =>
          rw [if_neg (by simp)]
          refine ⟨?_, by simp [dirText, hl]⟩
          congr 1; simp [dirText, hl]; omega
    · rw [if_neg h2]
      by_cases h3 : last = []
      · subst h3
        rw [if_pos rfl]
        have he : endText f dirs [] = dirText f dirs := by simp [endText, follow]
        rw [he]
        by_cases hl : dirs = []
        · subst hl
          rw [if_neg (by simp [join])]
          exact ⟨by simp [dirText, join], by simp [dirText, join]⟩
        · have := join_pos dirs hl
          cases f with
          | false =>
            rw [if_pos ⟨by omega, rfl⟩]
            refine ⟨?_, by simp [dirText, hl]⟩
            congr 1; simp [dirText, hl]
          | true =>
            rw [if_neg (by simp)]
            refine ⟨?_, by simp [dirText, hl]⟩
            congr 1; simp [dirText, hl]; omega
      · rw [if_neg h3]
        have he : endText f dirs last = join dirs ++ 47 :: last := by
          simp [endText, h1, h2, h3, join_append, join_single]
        rw [he]
        refine ⟨?_, List.prefix_refl _⟩
        congr 1; simp; omega

/-! ### assign_refers -/

/-- What the object is like afterwards: text, NUL, domain, NUL. -/
def Holds (y : Url) (text dom : List UInt8) : Prop :=
  y.len = text.length ∧ y.dom = text.length + 1 ∧ y.dlen = dom.length ∧
    ∃ z, y.val = some (text ++ 0 :: dom ++ 0 :: z)

/-- The bytes `dom_str` points to. -/
def srcBytes (pre : Buf) (n : Nat) : DomSrc → List UInt8
  | .here off => (pre.drop off).take n
  | .other s => s.take n

def srcOk (pre : Buf) (n : Nat) : DomSrc → Prop
  | .here off => off + n ≤ pre.length
  | .other s => n ≤ s.length

theorem patch_mid (T M Z d : Buf) (h : M.length = d.length) : patch (T ++ M ++ Z) T.length d = T ++ d ++ Z := by
  unfold patch
  have e1 : (T ++ M ++ Z).take T.length = T := by rw [List.append_assoc, List.take_left]
  have e2 : (T ++ M ++ Z).drop (T.length + d.length) = Z := by
    rw [← h, ← List.drop_drop, List.append_assoc, List.drop_left, List.drop_left]
  rw [e1, e2]

theorem copyDom_eq (pre E Z M : Buf) (src : DomSrc) (n d : Nat) (hs : srcOk pre n src) (hE : d = (pre ++ E).length)
    (hM : M.length = n) :
    copyDom (pre ++ E ++ M ++ Z) d src n = .ok (pre ++ E ++ srcBytes pre n src ++ Z) ∧ (srcBytes pre n src).length = n := by
  cases src with
  | here off =>
    have hs' : off + n ≤ pre.length := hs
    have hl : (srcBytes pre n (.here off)).length = n := by simp [srcBytes]; omega
    refine ⟨?_, hl⟩
    simp only [copyDom]
    rw [if_pos (by left; rw [hE]; simp; omega)]
    unfold memmove
    rw [if_pos (by rw [hE]; simp; omega)]
    congr 1
    have : ((pre ++ E ++ M ++ Z).drop off).take n = srcBytes pre n (.here off) := by
      simp only [srcBytes]
      rw [List.append_assoc, List.append_assoc, List.drop_append_of_le_length (by omega), List.take_append_of_le_length (by simp; omega)]
    rw [this, hE, patch_mid _ _ _ _ (by rw [hl, hM])]
  | other s =>
    have hs' : n ≤ s.length := hs
    have hl : (srcBytes pre n (.other s)).length = n := by simp [srcBytes]; omega
    refine ⟨?_, hl⟩
    simp only [copyDom]
    unfold memcpy
    rw [if_pos ⟨by rw [hE]; simp; omega, hs'⟩]
    congr 1
    rw [hE, show s.take n = srcBytes pre n (.other s) from rfl, patch_mid _ _ _ _ (by rw [hl, hM])]

theorem wr_mid (T Z : Buf) (x v : UInt8) (i : Nat) (h : i = T.length) : wr (T ++ x :: Z) i v = .ok (T ++ v :: Z) := by
  rw [h, wr_eq (by simp)]
  congr 1
  rw [show T ++ x :: Z = T ++ [x] ++ Z by simp, patch_mid T [x] Z [v] rfl]; simp

theorem take_split (l : Buf) (n : Nat) (h : n ≤ l.length) : ∃ a b, l = a ++ b ∧ a.length = n :=
  ⟨l.take n, l.drop n, by simp, by simp; omega⟩

theorem assign_refers_spec (f : Bool) (pre R query Z : Buf) (vlen beg : Nat) (src : DomSrc) (n : Nat)
    (hpre : 63 ∉ pre) (hR : 63 ∉ R) (hq : query = [] ∨ ∃ q, query = 63 :: q)
    (hv : vlen = pre.length + (1 + R.length) + query.length) (hbeg : beg = pre.length) (hs : srcOk pre n src) (hZ : n + 2 ≤ Z.length) :
    ∃ y, assign_refers (pre ++ 47 :: R ++ query ++ Z) vlen beg f src n = .ok y ∧
      Holds y (pre ++ normPath f (47 :: R) ++ query) (srcBytes pre n src) := by
  have hP : 63 ∉ pre ++ 47 :: R := by
    simp only [List.mem_append, List.mem_cons, not_or]
    exact ⟨hpre, by decide, hR⟩
  have hargs : ∃ r, coda_strnchr (pre ++ 47 :: R ++ query ++ Z) 63 vlen = .ok r ∧ r.getD vlen = pre.length + (1 + R.length) := by
    rcases hq with rfl | ⟨q, rfl⟩
    · refine ⟨none, ?_, by simpa using hv⟩
      rw [List.append_nil, strnchr_none _ _ _ _ hP (by rw [hv]; simp; omega)]
    · refine ⟨some (pre ++ 47 :: R).length, ?_, by simp; omega⟩
      rw [strnchr_some _ q Z 63 vlen hP (by rw [hv]; simp; omega)]
  obtain ⟨r, hr1, hr2⟩ := hargs
  obtain ⟨J, hloop, hlen, hdirs, hlast⟩ := refersLoop_spec pre (query ++ Z) (R.length + 1) R (1 + R.length) [] []
    (by omega) (by omega) (by simp)
  have e0 : pre ++ join [] ++ 47 :: R ++ [] ++ (query ++ Z) = pre ++ 47 :: R ++ query ++ Z := by simp [join]
  rw [e0] at hloop
  have hj : join [] = [] := rfl
  rw [hj] at hloop hlen
  simp only [hj, List.length_nil, Nat.add_zero, List.dropLast_nil] at hloop
  rw [normPath_eq]
  generalize hdd : (split 47 R).dropLast.foldl follow [] = dirs at *
  generalize hll : (split 47 R).getLastD [] = last at *
  obtain ⟨hend, tl, htl⟩ := refersEnd_spec f pre (J ++ (query ++ Z)) dirs last hdirs
  generalize hN : endText f dirs last = N at *
  have htl2 := congrArg List.length htl
  simp only [List.length_append, List.length_cons, List.length_nil, Nat.zero_add] at htl2 hlen
  have e1 : pre ++ join dirs ++ 47 :: last ++ (J ++ (query ++ Z)) = pre ++ join dirs ++ 47 :: last ++ J ++ (query ++ Z) := by simp
  have e2 : pre ++ join dirs ++ 47 :: last ++ J ++ (query ++ Z) = (pre ++ N) ++ (tl ++ J) ++ query ++ Z := by
    rw [List.append_assoc pre, ← htl]; simp
  rw [e1, e2] at hend
  rw [e2] at hloop
  have hmove : ∃ W, moveArgs ((pre ++ N) ++ (tl ++ J) ++ query ++ Z) (pre.length + N.length) (pre.length + (1 + R.length)) query.length
        = .ok ((pre ++ N ++ query) ++ (W ++ Z), (pre ++ N ++ query).length) ∧ W.length = (tl ++ J).length := by
    unfold moveArgs
    by_cases hq0 : query.length = 0
    · have : query = [] := List.eq_nil_of_length_eq_zero hq0
      subst this
      refine ⟨tl ++ J, ?_, rfl⟩
      rw [if_neg (by simp)]; simp
    · obtain ⟨W, hW, hm⟩ := memmove_left (pre ++ N) (tl ++ J) query Z (pre.length + N.length)
        (pre.length + (1 + R.length)) query.length (by simp) (by simp; omega) rfl
      refine ⟨W, ?_, hW⟩
      rw [if_pos hq0, hm]; simp; omega
  obtain ⟨W, hmv, hW⟩ := hmove
  obtain ⟨x, WZ, hx⟩ : ∃ x WZ, W ++ Z = x :: WZ := by
    cases h : W ++ Z with
    | nil => have := congrArg List.length h; simp at this; simp [this.2] at hZ
    | cons x WZ => exact ⟨x, WZ, rfl⟩
  have hWZ : n + 1 ≤ WZ.length := by
    have := congrArg List.length hx; simp at this; omega
  obtain ⟨D, rest, hD, hDl⟩ := take_split WZ n (by omega)
  obtain ⟨z0, rest, rfl⟩ : ∃ z0 r, rest = z0 :: r := by
    cases rest with
    | nil => rw [hD] at hWZ; simp at hWZ; omega
    | cons z0 r => exact ⟨z0, r, rfl⟩
  obtain ⟨hcd, hsl⟩ := copyDom_eq pre (N ++ query ++ [x]) (z0 :: rest) D src n ((pre ++ N ++ query).length + 1) hs (by simp; omega) hDl
  have e3 : pre ++ (N ++ query ++ [x]) ++ D ++ z0 :: rest = (pre ++ N ++ query) ++ (W ++ Z) := by rw [hx, hD]; simp
  rw [e3] at hcd
  generalize hSB : srcBytes pre n src = SB at *
  refine ⟨⟨some ((pre ++ N ++ query) ++ 0 :: SB ++ 0 :: rest), (pre ++ N ++ query).length, (pre ++ N ++ query).length + 1, n⟩, ?_, ?_⟩
  · unfold assign_refers
    rw [hr1]
    simp only [Res.ok_bind, hr2]
    rw [show pre.length + (1 + R.length) - beg = 1 + R.length by omega, hbeg,
      show pre.length + (1 + R.length) = pre.length + 1 + R.length by omega, hloop]
    simp only [Res.ok_bind]
    rw [hend]
    simp only [Res.ok_bind]
    rw [show pre.length + 1 + R.length = pre.length + (1 + R.length) by omega,
      show vlen - (pre.length + (1 + R.length)) = query.length by omega, hmv]
    simp only [Res.ok_bind]
    rw [hcd]
    simp only [Res.ok_bind]
    rw [show pre ++ (N ++ query ++ [x]) ++ SB ++ z0 :: rest = (pre ++ N ++ query) ++ x :: (SB ++ z0 :: rest) by simp,
      wr_mid (pre ++ N ++ query) (SB ++ z0 :: rest) x 0 _ rfl]
    simp only [Res.ok_bind]
    rw [show (pre ++ N ++ query) ++ 0 :: (SB ++ z0 :: rest) = ((pre ++ N ++ query) ++ 0 :: SB) ++ z0 :: rest by simp,
      wr_mid ((pre ++ N ++ query) ++ 0 :: SB) rest z0 0 _ (by simp; omega)]
    rfl
  · exact ⟨rfl, rfl, hsl.symm, rest, rfl⟩

end Verif.UrlParser
