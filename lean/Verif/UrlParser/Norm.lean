/-
  Lemmas about the normal form of paths, about the parts of created URLs and about `create_relative`.
-/
import Verif.UrlParser.Create

set_option linter.unusedSimpArgs false
set_option linter.unusedVariables false

namespace Verif.UrlParser
open Verif.Str Verif.Str.Spec Verif.UrlParser.Spec

/-! ### members -/

theorem mem_split (sep : UInt8) (l : List UInt8) : ∀ s ∈ split sep l, sep ∉ s ∧ ∀ c ∈ s, c ∈ l := by
  induction h : l.length using Nat.strongRecOn generalizing l with
  | _ n ih =>
    rcases cut_cases sep l with ha | ⟨a, r, rfl, hs⟩
    · rw [split_none sep l ha]
      intro s hs; simp at hs; subst hs
      exact ⟨ha, fun c hc => hc⟩
    · rw [split_append sep a r hs]
      intro s hs2
      rcases List.mem_cons.mp hs2 with rfl | h2
      · exact ⟨hs, fun c hc => by simp [hc]⟩
      · obtain ⟨h3, h4⟩ := ih r.length (by simp at h; omega) r rfl s h2
        exact ⟨h3, fun c hc => by simp [h4 c hc]⟩

def NormalSeg (s : List UInt8) : Prop := s ≠ [] ∧ s ≠ [46] ∧ s ≠ [46, 46] ∧ 47 ∉ s

theorem follow_mem (dirs : List (List UInt8)) (seg s : List UInt8) (h : s ∈ follow dirs seg) :
    s ∈ dirs ∨ (s = seg ∧ seg ≠ [] ∧ seg ≠ [46] ∧ seg ≠ [46, 46]) := by
  unfold follow at h
  split at h
  · exact Or.inl h
  · rename_i h1
    split at h
    · exact Or.inl (List.dropLast_subset _ h)
    · rename_i h2
      simp only [not_or] at h1
      rcases List.mem_append.mp h with h | h
      · exact Or.inl h
      · simp at h; exact Or.inr ⟨h, h1.1, h1.2, h2⟩

theorem foldl_follow_mem (segs : List (List UInt8)) : ∀ (dirs : List (List UInt8)) (s : List UInt8), s ∈ segs.foldl follow dirs →
    s ∈ dirs ∨ (s ∈ segs ∧ s ≠ [] ∧ s ≠ [46] ∧ s ≠ [46, 46]) := by
  induction segs with
  | nil => intro dirs s h; exact Or.inl h
  | cons a segs ih =>
    intro dirs s h
    rcases ih (follow dirs a) s h with h | h
    · rcases follow_mem dirs a s h with h | ⟨rfl, h⟩
      · exact Or.inl h
      · exact Or.inr ⟨by simp, h⟩
    · exact Or.inr ⟨by simp [h.1], h.2⟩

theorem normPath_dirs (f : Bool) (R : List UInt8) : ∃ dirs : List (List UInt8),
    (∀ s ∈ dirs, NormalSeg s ∧ ∀ c ∈ s, c ∈ R) ∧
    ((dirs ≠ [] ∧ normPath f (47 :: R) = join dirs) ∨ normPath f (47 :: R) = join dirs ++ [47]) := by
  rw [normPath_eq]
  have hseg := mem_split 47 R
  have hne := split_ne_nil 47 R
  generalize hS : split 47 R = S at *
  have hdirs : ∀ s ∈ S.dropLast.foldl follow [], NormalSeg s ∧ ∀ c ∈ s, c ∈ R := by
    intro s hs
    rcases foldl_follow_mem _ _ _ hs with h | ⟨h1, h2, h3, h4⟩
    · simp at h
    · obtain ⟨h5, h6⟩ := hseg s (List.dropLast_subset _ h1)
      exact ⟨⟨h2, h3, h4, h5⟩, h6⟩
  have hlast : S.getLastD [] ∈ S := by
    rcases dirs_cases S with rfl | ⟨l, s, rfl⟩
    · exact absurd rfl hne
    · simp [List.getLastD_eq_getLast?]
  have hl := hseg _ hlast
  generalize S.getLastD [] = last at *
  generalize S.dropLast.foldl follow [] = dirs at *
  unfold endText
  have dirText_form : ∀ ds : List (List UInt8), (∀ s ∈ ds, NormalSeg s ∧ ∀ c ∈ s, c ∈ R) →
      ∃ dirs : List (List UInt8), (∀ s ∈ dirs, NormalSeg s ∧ ∀ c ∈ s, c ∈ R) ∧
      ((dirs ≠ [] ∧ dirText f ds = join dirs) ∨ dirText f ds = join dirs ++ [47]) := by
    intro ds hds
    refine ⟨ds, hds, ?_⟩
    unfold dirText
    by_cases h : ds = []
    · rw [if_pos h, h]; exact Or.inr rfl
    · rw [if_neg h]
      cases f with
      | true => exact Or.inr rfl
      | false => exact Or.inl ⟨h, rfl⟩
  split
  · rename_i hsp
    apply dirText_form
    intro s hs
    rcases follow_mem _ _ _ hs with h | ⟨rfl, h1, h2, h3⟩
    · exact hdirs s h
    · rcases hsp with h | h | h
      · exact absurd h h1
      · exact absurd h h2
      · exact absurd h h3
  · rename_i hsp
    simp only [not_or] at hsp
    refine ⟨dirs ++ [last], ?_, Or.inl ⟨by simp, rfl⟩⟩
    intro s hs
    rcases List.mem_append.mp hs with h | h
    · exact hdirs s h
    · simp at h; subst h
      exact ⟨⟨hsp.1, hsp.2.1, hsp.2.2, hl.1⟩, hl.2⟩

theorem normPath_normal (f : Bool) (R : List UInt8) : NormalPath (normPath f (47 :: R)) := by
  obtain ⟨dirs, h1, h2⟩ := normPath_dirs f R
  exact ⟨dirs, fun s hs => (h1 s hs).1, h2⟩

theorem mem_join (dirs : List (List UInt8)) (c : UInt8) (h : c ∈ join dirs) : c = 47 ∨ ∃ s ∈ dirs, c ∈ s := by
  unfold join at h
  obtain ⟨s, hs, hc⟩ := List.mem_flatMap.mp h
  rcases List.mem_cons.mp hc with h | h
  · exact Or.inl h
  · exact Or.inr ⟨s, hs, h⟩

theorem mem_normPath (f : Bool) (R : List UInt8) (c : UInt8) (h : c ∈ normPath f (47 :: R)) : c = 47 ∨ c ∈ R := by
  obtain ⟨dirs, h1, h2⟩ := normPath_dirs f R
  have : c ∈ join dirs ++ [47] := by
    rcases h2 with ⟨_, h2⟩ | h2
    · rw [h2] at h; simp [h]
    · rw [h2] at h; exact h
  rcases List.mem_append.mp this with h | h
  · rcases mem_join dirs c h with h | ⟨s, hs, hc⟩
    · exact Or.inl h
    · exact Or.inr ((h1 s hs).2 c hc)
  · simp at h; exact Or.inl h

theorem normal_head (p : List UInt8) (h : NormalPath p) : ∃ q, p = 47 :: q := by
  obtain ⟨segs, -, h⟩ := h
  cases segs with
  | nil =>
    rcases h with ⟨h, -⟩ | h
    · exact absurd rfl h
    · exact ⟨[], h⟩
  | cons a l =>
    rcases h with ⟨-, h⟩ | h
    · exact ⟨a ++ join l, by rw [h]; simp [join]⟩
    · exact ⟨a ++ join l ++ [47], by rw [h]; simp [join]⟩

/-- No "//", "/./", "/../" in a normal path. -/
theorem normal_no (t : List UInt8) (ht : 47 ∉ t) (htt : t = [] ∨ t = [46] ∨ t = [46, 46]) (p : List UInt8) (h : NormalPath p) (i : Nat) :
    ¬ Occurs (47 :: t ++ [47]) p i := by
  obtain ⟨segs, hs, h⟩ := h
  have key : ∀ (segs : List (List UInt8)), (∀ s ∈ segs, s ≠ [] ∧ s ≠ [46] ∧ s ≠ [46, 46] ∧ 47 ∉ s) → ∀ i,
      ¬ Occurs (47 :: t ++ [47]) (join segs ++ [47]) i := by
    intro segs
    induction segs with
    | nil =>
      rintro - i ⟨a, z, e, -⟩
      have := congrArg List.length e
      simp [join] at this
      omega
    | cons s l ih =>
      intro hs i
      obtain ⟨hs1, hs2, hs3, hs4⟩ := hs s (by simp)
      have hW : ∃ W, join l ++ [47] = 47 :: W := by
        cases l with
        | nil => exact ⟨[], rfl⟩
        | cons a l => exact ⟨a ++ join l ++ [47], by simp [join]⟩
      obtain ⟨W, hW⟩ := hW
      have e : join (s :: l) ++ [47] = 47 :: (s ++ 47 :: W) := by
        rw [← hW]; simp [join]
      rintro ⟨a, z, ea, hi⟩
      rw [e] at ea
      cases a with
      | nil =>
        simp only [List.nil_append, List.cons_append, List.append_assoc] at ea
        have e2 := (List.cons.inj ea).2
        have hpre : t ++ [47] <+: s ++ 47 :: W := ⟨z, by rw [e2]; simp⟩
        have := (prefix_seg t s W ht hs4).1 hpre
        subst this
        rcases htt with h | h | h
        · exact hs1 h
        · exact hs2 h
        · exact hs3 h
      | cons x a =>
        simp only [List.cons_append, List.append_assoc] at ea
        have e2 := (List.cons.inj ea).2
        rcases List.append_eq_append_iff.mp e2 with ⟨w, hw1, hw2⟩ | ⟨w, hw1, hw2⟩
        · -- a = s ++ w
          refine ih (fun s hs' => hs s (by simp [hs'])) w.length ⟨w, z, ?_, rfl⟩
          rw [hW, hw2]; simp
        · -- s = a ++ w
          cases w with
          | nil =>
            refine ih (fun s hs' => hs s (by simp [hs'])) 0 ⟨[], z, ?_, rfl⟩
            rw [hW]
            simp at hw2 ⊢
            exact hw2.symm
          | cons y w =>
            simp only [List.cons_append] at hw2
            have := (List.cons.inj hw2).1
            exact hs4 (by rw [hw1, ← this]; simp)
  intro hocc
  rcases h with ⟨-, h⟩ | h
  · obtain ⟨a, z, e, hi⟩ := hocc
    exact key segs hs i ⟨a, z ++ [47], by rw [← h, e]; simp, hi⟩
  · rw [h] at hocc
    exact key segs hs i hocc

/-! ### C strings -/

theorem cstr_eq (l z : Buf) (h : 0 ∉ l) : cstr (l ++ 0 :: z) = .ok l := by
  induction l with
  | nil => rfl
  | cons c l ih =>
    simp only [List.mem_cons, not_or] at h
    simp only [List.cons_append, cstr]
    rw [if_neg (Ne.symm h.1), ih h.2]; rfl

theorem holds_url (y : Url) (t d : Buf) (h : Holds y t d) (h0 : 0 ∉ t) (hne : t ≠ []) :
    get_url y = .ok t ∧ get_url_len y = t.length := by
  obtain ⟨h1, h2, h3, z, h4⟩ := h
  refine ⟨?_, h1⟩
  unfold get_url Url.empty
  have : t.length ≠ 0 := by simpa using hne
  rw [h1, h4]
  simp only [beq_iff_eq, this, if_false]
  rw [List.append_assoc]
  exact cstr_eq t _ h0

theorem holds_dom (y : Url) (t d : Buf) (h : Holds y t d) (h0 : 0 ∉ d) (hne : t ≠ []) :
    get_domain y = .ok d ∧ get_domain_len y = d.length := by
  obtain ⟨h1, h2, h3, z, h4⟩ := h
  refine ⟨?_, h3⟩
  unfold get_domain Url.empty
  have : t.length ≠ 0 := by simpa using hne
  rw [h1, h2, h4]
  simp only [beq_iff_eq, this, if_false]
  rw [show t ++ 0 :: d ++ 0 :: z = (t ++ [0]) ++ (d ++ 0 :: z) by simp, List.drop_left' (by simp)]
  exact cstr_eq d _ h0

theorem caseEq_eq : ∀ (a b z w : Buf), 0 ∉ a → 0 ∉ b → caseEq (a ++ 0 :: z) (b ++ 0 :: w) = .ok (a.map lower == b.map lower)
  | [], [], z, w, _, _ => by
    simp [caseEq]
  | [], y :: b, z, w, _, hb => by
    simp only [List.mem_cons, not_or] at hb
    have h : tolower 0 ≠ tolower y := by
      have := byte_all (fun y => 0 ≠ y → tolower 0 ≠ tolower y) (by decide +kernel) y
      exact this hb.1
    simp [caseEq, h]
  | x :: a, [], z, w, ha, _ => by
    simp only [List.mem_cons, not_or] at ha
    have h : tolower x ≠ tolower 0 := by
      have := byte_all (fun y => 0 ≠ y → tolower y ≠ tolower 0) (by decide +kernel) x
      exact this ha.1
    simp [caseEq, h]
  | x :: a, y :: b, z, w, ha, hb => by
    simp only [List.mem_cons, not_or] at ha hb
    have ih := caseEq_eq a b z w ha.2 hb.2
    simp only [List.cons_append, caseEq]
    rw [tolower_eq]
    by_cases h : lower x = lower y
    · rw [if_neg (by simpa using h), if_neg (Ne.symm ha.1), ih]
      simp [h]
    · rw [if_pos h]
      simp [h]

/-! ### the parts of a URL made by create_absolute -/

theorem host_char (v : Buf) : ∀ c ∈ host v, hostChar c = true ∧ lower c = c := by
  intro c hc
  have := mem_stripDots _ _ hc
  obtain ⟨x, hx, rfl⟩ := List.mem_map.mp this
  refine ⟨by rw [hostChar_lower]; exact takeWhile_all _ _ _ hx, ?_⟩
  exact byte_all (fun x => lower (lower x) = lower x) (by decide +kernel) x

theorem not_host (h : Buf) (hh : ∀ c ∈ h, hostChar c = true ∧ lower c = c) (x : UInt8) (hx : hostChar x = false) : x ∉ h := by
  intro hm
  have := (hh x hm).1
  rw [hx] at this
  cases this

theorem tail_cons (v : Buf) : ∃ q, tail v = 47 :: q := withSlash_cons _

theorem path_cons (v : Buf) : ∃ R, path v = 47 :: R ∧ 63 ∉ R := by
  obtain ⟨q, hq⟩ := tail_cons v
  refine ⟨q.takeWhile (· != 63), ?_, (cut_first 63 q).1⟩
  unfold path; rw [hq]; simp [List.takeWhile_cons]

theorem cut_query (l : Buf) : l.dropWhile (· != 63) = [] ∨ ∃ q', l.dropWhile (· != 63) = 63 :: q' := by
  by_cases hm : 63 ∈ l
  · exact Or.inr ((cut_first 63 l).2.2 hm)
  · exact Or.inl ((cut_first 63 l).2.1 hm).2

theorem mem_tail (v : Buf) (c : UInt8) (h : c ∈ tail v) : c = 47 ∨ c ∈ body v := by
  unfold tail at h
  simp only at h
  split at h
  · exact Or.inr ((List.dropWhile_sublist _).subset h)
  · rcases List.mem_cons.mp h with h | h
    · exact Or.inl h
    · exact Or.inr ((List.dropWhile_sublist _).subset h)

theorem mem_body (v : Buf) (c : UInt8) (h : c ∈ body v) : c ≠ 35 ∧ c ∈ v := by
  unfold body at h
  refine ⟨?_, ?_⟩
  · rintro rfl; exact (cut_first 35 _).1 h
  · have := mem_takeWhile _ _ _ h
    split at this
    · exact List.mem_of_mem_drop this
    · split at this
      · exact List.mem_of_mem_drop this
      · exact this

theorem abs_parts (f : Bool) (v : Buf) :
    GoodUrl (absText f v) (scheme v) (host v) (normPath f (path v)) (query v) := by
  obtain ⟨R, hR, hR63⟩ := path_cons v
  refine ⟨rfl, scheme_form v, host_char v, ?_, ?_, cut_query _, ?_⟩
  · rw [hR]; exact normPath_normal f R
  · rw [hR]; intro h
    rcases mem_normPath f R _ h with h | h
    · revert h; decide
    · exact hR63 h
  · intro h
    unfold absText at h
    simp only [List.mem_append] at h
    rcases h with ((h | h) | h) | h
    · exact (scheme_clean _ (scheme_form v)).1 h
    · exact not_host _ (host_char v) 35 (by decide) h
    · rw [hR] at h
      rcases mem_normPath f R _ h with h | h
      · revert h; decide
      · have h1 : 35 ∈ path v := by rw [hR]; simp [h]
        unfold path at h1
        rcases mem_tail v _ (mem_takeWhile _ _ _ h1) with h | h
        · revert h; decide
        · exact (mem_body v _ h).1 rfl
    · unfold query at h
      rcases mem_tail v _ ((List.dropWhile_sublist _).subset h) with h | h
      · revert h; decide
      · exact (mem_body v _ h).1 rfl

theorem dom_no_zero (h d : Buf) (hh : ∀ c ∈ h, hostChar c = true ∧ lower c = c) (hd : DomainOf h d) : 0 ∉ d := by
  obtain ⟨a, had, -⟩ := hd
  intro hm
  exact not_host h hh 0 (by decide) (by rw [had]; simp [hm])

theorem abs_no_zero (f : Bool) (v : Buf) (h0 : 0 ∉ v) : 0 ∉ absText f v := by
  obtain ⟨R, hR, hR63⟩ := path_cons v
  intro h
  unfold absText at h
  simp only [List.mem_append] at h
  rcases h with ((h | h) | h) | h
  · unfold scheme at h
    split at h
    · exact h0 (List.mem_of_mem_take h)
    · split at h
      · exact h0 (List.mem_of_mem_take h)
      · revert h; decide
  · exact not_host _ (host_char v) 0 (by decide) h
  · rw [hR] at h
    rcases mem_normPath f R _ h with h | h
    · revert h; decide
    · have h1 : 0 ∈ path v := by rw [hR]; simp [h]
      unfold path at h1
      rcases mem_tail v _ (mem_takeWhile _ _ _ h1) with h | h
      · revert h; decide
      · exact h0 (mem_body v _ h).2
  · unfold query at h
    rcases mem_tail v _ ((List.dropWhile_sublist _).subset h) with h | h
    · revert h; decide
    · exact h0 (mem_body v _ h).2

theorem good_ne_nil {u s h p q : Buf} (hg : GoodUrl u s h p q) : u ≠ [] := by
  rintro rfl
  have := hg.1
  have h2 := hg.2.1
  have : s = [] := by
    have h3 := congrArg List.length this
    simp only [List.length_append, List.length_nil] at h3
    exact List.eq_nil_of_length_eq_zero (by omega)
  rw [this] at h2
  revert h2; decide

/-- Scheme and host of a good URL are what the code takes for them, unless the scheme is written with an upper-case 'S'. -/
theorem parent_of_good (y : Url) (u s h p q d : Buf) (hg : GoodUrl u s h p q) (hS : s[4]? ≠ some 83) (hy : Holds y u d) (hd : 0 ∉ d) :
    Parent y (s ++ h) p q d := by
  obtain ⟨hu, hs, hh, hp, hp63, hq, h35⟩ := hg
  have hcl := scheme_clean s hs
  refine ⟨by rw [← hu]; exact hy, normal_head p hp, ?_, hp63, hq, hd, ?_⟩
  · simp only [List.mem_append, not_or]
    exact ⟨hcl.2, not_host h hh 63 (by decide)⟩
  · have h47 := not_host h hh 47 (by decide)
    rcases hs with hs | hs
    · have hl : s.length = 7 := by have := congrArg List.length hs; simpa [http] using this
      have h4 : s[4]? ≠ some 115 := by
        intro h
        have h5 := congrArg (fun l => l[4]?) hs
        simp [h, http] at h5
        revert h5; decide
      refine ⟨7, ?_, by simp; omega, ?_⟩
      · rw [List.getElem?_append_left (by omega), if_neg h4]
      · rw [List.drop_left' hl]; exact h47
    · have hl : s.length = 8 := by have := congrArg List.length hs; simpa [https] using this
      have h4 : s[4]? = some 115 := by
        have h5 := congrArg (fun l => l[4]?) hs
        simp [https] at h5
        obtain ⟨x, hx1, hx2⟩ := h5
        have := byte_all (fun x => lower x = 115 → x = 115 ∨ x = 83) (by decide +kernel) x hx2
        rcases this with h | h
        · rw [hx1, h]
        · rw [h] at hx1; exact absurd hx1 hS
      refine ⟨8, ?_, by simp; omega, ?_⟩
      · rw [List.getElem?_append_left (by omega), if_pos h4]
      · rw [List.drop_left' hl]; exact h47

/-- With an upper-case 'S' the second slash of "HTTPS://" is taken for the beginning of the path. -/
theorem parent_of_bad (y : Url) (u s h p q d : Buf) (hg : GoodUrl u s h p q) (hS : s[4]? = some 83) (hy : Holds y u d) (hd : 0 ∉ d) :
    Parent y (s.take 7) (47 :: (h ++ p)) q d := by
  obtain ⟨hu, hs, hh, hp, hp63, hq, h35⟩ := hg
  have hcl := scheme_clean s hs
  have hs' : s.map lower = https := by
    rcases hs with hs | hs
    · exfalso
      have h5 := congrArg (fun l => l[4]?) hs
      simp [hS, http] at h5
      revert h5; decide
    · exact hs
  have hl : s.length = 8 := by have := congrArg List.length hs'; simpa [https] using this
  have h7 : s.drop 7 = [47] := by
    have h5 : (s.drop 7).map lower = [47] := by rw [List.map_drop, hs']; rfl
    cases hd7 : s.drop 7 with
    | nil => rw [hd7] at h5; cases h5
    | cons x l =>
      rw [hd7] at h5
      simp at h5
      have := byte_all (fun x => lower x = 47 → x = 47) (by decide +kernel) x h5.1
      rw [this, h5.2]
  have hsplit : s = s.take 7 ++ [47] := by rw [← h7, List.take_append_drop]
  refine ⟨?_, ⟨h ++ p, rfl⟩, fun hm => hcl.2 (List.mem_of_mem_take hm), ?_, hq, hd, ?_⟩
  · have : s.take 7 ++ 47 :: (h ++ p) ++ q = u := by
      rw [hu]; conv => rhs; rw [hsplit]
      simp
    rw [this]; exact hy
  · simp only [List.mem_cons, List.mem_append, not_or]
    exact ⟨by decide, not_host h hh 63 (by decide), hp63⟩
  · refine ⟨7, ?_, by simp; omega, ?_⟩
    · rw [List.getElem?_take_of_lt (by omega), hS, if_neg (by decide)]
    · rw [List.drop_of_length_le (by simp; omega)]; simp

theorem parent_of_holds (y : Url) (u s h p q d : Buf) (hg : GoodUrl u s h p q) (hy : Holds y u d) (hd : 0 ∉ d) :
    ∃ pre path query, Parent y pre path query d := by
  by_cases hS : s[4]? = some 83
  · exact ⟨_, _, _, parent_of_bad y u s h p q d hg hS hy hd⟩
  · exact ⟨_, _, _, parent_of_good y u s h p q d hg hS hy hd⟩

/-! ### the merged path -/

theorem merge_cons (path v : Buf) (R : Buf) (hR : path = 47 :: R) (hv : v.head? ≠ some 35) (hne : v ≠ []) : ∃ Q, merge path v = 47 :: Q := by
  unfold merge
  simp only
  split
  · rename_i h
    cases v with
    | nil => simp at h
    | cons c v =>
      simp at h; subst h
      exact ⟨v.takeWhile (· != 35), by simp [List.takeWhile_cons]⟩
  · obtain ⟨a, z, h1, h2, h3⟩ := dirPart path R hR
    rw [h3]
    cases a with
    | nil => exact ⟨_, rfl⟩
    | cons x a =>
      rw [hR] at h1
      simp at h1
      rw [← h1.1]
      exact ⟨_, rfl⟩

theorem mem_merge (path v : Buf) (c : UInt8) (h : c ∈ merge path v) : c ∈ path ∨ (c ∈ v ∧ c ≠ 35) := by
  have hv : c ∈ v.takeWhile (· != 35) → c ∈ v ∧ c ≠ 35 := by
    intro h
    refine ⟨mem_takeWhile _ _ _ h, ?_⟩
    rintro rfl; exact (cut_first 35 v).1 h
  unfold merge at h
  simp only at h
  split at h
  · exact Or.inr (hv h)
  · rcases List.mem_append.mp h with h | h
    · left
      have := (List.dropWhile_sublist _).subset (List.mem_reverse.mp h)
      simpa using this
    · exact Or.inr (hv h)

theorem rel_holds_parent (f : Bool) (y r : Url) (pre path query d v : Buf) (hp : Parent y pre path query d) (hv : v.head? ≠ some 35) (hne : v ≠ [])
    (hr : Holds r (relText f pre path v) d) : ∃ path' query', Parent r pre path' query' d := by
  obtain ⟨-, ⟨R, hR⟩, h63, -, -, hd, hk⟩ := hp
  obtain ⟨Q, hQ⟩ := merge_cons path v R hR hv hne
  have htw : (merge path v).takeWhile (· != 63) = 47 :: Q.takeWhile (· != 63) := by rw [hQ]; simp [List.takeWhile_cons]
  refine ⟨normPath f ((merge path v).takeWhile (· != 63)), (merge path v).dropWhile (· != 63), hr, ?_, h63, ?_, cut_query _, hd, hk⟩
  · rw [htw]; exact normal_head _ (normPath_normal _ _)
  · rw [htw]
    intro h
    rcases mem_normPath _ _ _ h with h | h
    · revert h; decide
    · exact (cut_first 63 Q).1 h

/-! ### create_absolute and create_relative -/

theorem create_absolute_spec (fresh : Nat → Buf) (hf : ∀ n, (fresh n).length = n) (fl : Flags) (v rest : Buf) (hu : Usable 8 v rest) :
    ∃ y d, create_absolute fresh .null (some (v ++ rest)) v.length fl = .ok (0, y) ∧ Holds y (absText fl.fetchable v) d ∧ DomainOf (host v) d := by
  obtain ⟨hne, hobj, hc1, hc2⟩ := hu
  have hl : 0 < v.length := List.length_pos_iff.mpr hne
  obtain ⟨y, d, hy, h1, h2⟩ := create_scheme_spec fl.fetchable (fresh (2 + 2 * v.length + 9)) v rest hobj ⟨hc1, hc2⟩
    (by rw [hf]; split <;> (try split) <;> omega)
  refine ⟨y, d, ?_, h1, h2⟩
  simp only [create_absolute]
  rw [if_neg (by simp [Url.empty, Url.null]; exact hne), hy]
  rfl

/-- All outcomes of `create_relative`. -/
theorem create_relative_spec (fresh : Nat → Buf) (hf : ∀ n, (fresh n).length = n) (fl : Flags) (v rest : Buf) (hu : Usable 11 v rest)
    (y : Url) (pre path query dom : Buf) (hp : Parent y pre path query dom) :
    ((startsI http v = true ∨ startsI https v = true) →
      ∃ r d, Holds r (absText fl.fetchable v) d ∧ DomainOf (host v) d ∧
        create_relative fresh .null (some (v ++ rest)) v.length fl y
          = .ok (if fl.subdomain = false ∨ d.map lower = dom.map lower then (0, r) else (-1, .null))) ∧
    (¬ (startsI http v = true ∨ startsI https v = true) →
      (startsI mailtoText (v ++ rest) = true ∨ startsI javascriptText (v ++ rest) = true ∨ v.head? = some 35) →
      create_relative fresh .null (some (v ++ rest)) v.length fl y = .ok (-1, .null)) ∧
    (¬ (startsI http v = true ∨ startsI https v = true) →
      ¬ (startsI mailtoText (v ++ rest) = true ∨ startsI javascriptText (v ++ rest) = true ∨ v.head? = some 35) →
      ∃ r, create_relative fresh .null (some (v ++ rest)) v.length fl y = .ok (0, r) ∧
        Holds r (relText fl.fetchable pre path v) dom) := by
  obtain ⟨hne, hobj, hc1, hc2⟩ := hu
  have hl : 0 < v.length := List.length_pos_iff.mpr hne
  have hyl : 0 < y.len := by
    obtain ⟨⟨h1, -⟩, ⟨R, hR⟩, -⟩ := hp
    rw [h1, hR]; simp; omega
  obtain ⟨pv, hpv, hrej, hacc⟩ := create_suburl_spec fl.fetchable (fresh (2 + 2 * v.length + y.len + y.dlen)) v rest y pre path query dom hne hobj hp
    (by rw [hf]; omega)
  have s1 : starts (v ++ rest) httpText = .ok (startsI http v) := by
    rw [← startsI_cut http v rest hc2]
    exact starts_eq (v ++ rest) httpText (by simp only [httpText, List.length_cons, List.length_nil]; omega) (by decide) (by decide) (by decide)
  have s2 : starts (v ++ rest) httpsText = .ok (startsI https v) := by
    rw [← startsI_cut https v rest hc1]
    exact starts_eq (v ++ rest) httpsText (by simp only [httpsText, List.length_cons, List.length_nil]; omega) (by decide) (by decide) (by decide)
  have hguard : ¬ ((!Url.null.empty || v.length == 0 || y.empty) = true) := by
    simp [Url.empty, Url.null]
    exact ⟨hne, by omega⟩
  have hsch : hasScheme (v ++ rest) = .ok (startsI http v || startsI https v) := by
    unfold hasScheme
    rw [s1, s2]
    cases startsI http v <;> rfl
  have unf : create_relative fresh .null (some (v ++ rest)) v.length fl y
      = (if (startsI http v || startsI https v) = true then do
          let y' ← create_scheme (fresh (2 + 2 * v.length + y.len + y.dlen)) (v ++ rest) v.length fl.fetchable
          if fl.subdomain then
            match y'.val with
            | none => .ub
            | some yv => do
              let eq ← caseEq (yv.drop y'.dom) (pv.drop y.dom)
              if eq then .ok (0, y') else .ok (-1, .null)
          else .ok (0, y')
        else do
          let r ← create_suburl (fresh (2 + 2 * v.length + y.len + y.dlen)) (v ++ rest) v.length fl.fetchable pv y
          match r with
          | none => .ok (-1, .null)
          | some y => .ok (0, y) : Res (Int × Url)) := by
    simp only [create_relative]
    rw [if_neg hguard, hpv]
    simp only [hsch, Res.ok_bind]
    rfl
  refine ⟨fun hs => ?_, fun hs hr => ?_, fun hs hr => ?_⟩
  · rw [unf, if_pos (by simpa using hs)]
    obtain ⟨r, d, hr, h1, h2⟩ := create_scheme_spec fl.fetchable (fresh (2 + 2 * v.length + y.len + y.dlen)) v rest (by omega) ⟨hc1, hc2⟩ (by
      rw [hf]
      have h7 : startsI http v = true → 7 ≤ v.length := fun h => by have := startsI_len _ _ h; simpa [http] using this
      have h8 : startsI https v = true → 8 ≤ v.length := fun h => by have := startsI_len _ _ h; simpa [https] using this
      split
      · rename_i h; have := h8 h; omega
      · split
        · rename_i h; have := h7 h; omega
        · rename_i h3 h4; rcases hs with h | h <;> contradiction)
    refine ⟨r, d, h1, h2, ?_⟩
    rw [hr]
    simp only [Res.ok_bind]
    have hd0 := dom_no_zero (host v) d (host_char v) h2
    obtain ⟨-, hrd, -, z, hrv⟩ := h1
    obtain ⟨⟨-, hyd, -, w, hyv⟩, -, -, -, -, hdom0, -⟩ := hp
    rw [hpv] at hyv
    cases hyv
    cases hsub : fl.subdomain with
    | false => simp
    | true =>
      simp only [if_true, hrv, hrd, hyd]
      have e1 : List.drop ((absText fl.fetchable v).length + 1) (absText fl.fetchable v ++ 0 :: d ++ 0 :: z) = d ++ 0 :: z := by
        rw [show absText fl.fetchable v ++ 0 :: d ++ 0 :: z = (absText fl.fetchable v ++ [0]) ++ (d ++ 0 :: z) by simp, List.drop_left' (by simp)]
      have e2 : List.drop ((pre ++ path ++ query).length + 1) (pre ++ path ++ query ++ 0 :: dom ++ 0 :: w) = dom ++ 0 :: w := by
        rw [show pre ++ path ++ query ++ 0 :: dom ++ 0 :: w = (pre ++ path ++ query ++ [0]) ++ (dom ++ 0 :: w) by simp,
          List.drop_left' (by simp only [List.length_append, List.length_cons, List.length_nil])]
      rw [e1, e2, caseEq_eq d dom z w hd0 hdom0]
      simp only [Res.ok_bind, beq_iff_eq]
      by_cases h : d.map lower = dom.map lower <;> simp [h]
  · rw [unf, if_neg (by simpa using hs), hrej hr]
    rfl
  · rw [unf, if_neg (by simpa using hs)]
    obtain ⟨r, h1, h2⟩ := hacc hr
    refine ⟨r, ?_, h2⟩
    rw [h1]
    rfl

end Verif.UrlParser
