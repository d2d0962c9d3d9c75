/-
  The tree of a storage without its memory: nodes with their slot, the number of bytes they share with their parent, and the rest of the string.
-/
import Verif.StrStore.Model
set_option linter.unusedSimpArgs false
set_option linter.unusedVariables false

namespace Verif.StrStore

/-! strcmp and common prefixes -/

theorem strcmp_self (s : List UInt8) : strcmp s s = 0 := by
  induction s with
  | nil => rfl
  | cons a s ih => simp [strcmp, ih]

theorem strcmp_eq {s t : List UInt8} (h : strcmp s t = 0) : s = t := by
  induction s generalizing t with
  | nil => cases t with
    | nil => rfl
    | cons b t => simp [strcmp] at h
  | cons a s ih => cases t with
    | nil => simp [strcmp] at h
    | cons b t =>
      simp only [strcmp] at h
      by_cases h1 : a < b
      · rw [if_pos h1] at h; simp at h
      · rw [if_neg h1] at h
        by_cases h2 : b < a
        · rw [if_pos h2] at h; simp at h
        · rw [if_neg h2] at h
          have : a = b := by
            rw [UInt8.lt_iff_toNat_lt] at h1 h2
            exact UInt8.toNat.inj (by omega)
          rw [this, ih h]

theorem strcmp_flip (s t : List UInt8) : strcmp s t = - strcmp t s := by
  induction s generalizing t with
  | nil => cases t <;> simp [strcmp]
  | cons a s ih => cases t with
    | nil => simp [strcmp]
    | cons b t =>
      simp only [strcmp]
      by_cases h1 : a < b
      · have h2 : ¬ b < a := by rw [UInt8.lt_iff_toNat_lt] at *; omega
        rw [if_pos h1, if_neg h2, if_pos h1]
      · rw [if_neg h1]
        by_cases h2 : b < a
        · rw [if_pos h2, if_pos h2]; rfl
        · rw [if_neg h2, if_neg h2, if_neg h1, ih t]

/-- Three strings in order: the first two share as much as the first and the last.  Also: the order is transitive. -/
theorem strcmp_mid {x y z : List UInt8} (h1 : strcmp x y < 0) (h2 : strcmp y z < 0) : strcmp x z < 0 ∧ lcp x z ≤ lcp x y := by
  induction x generalizing y z with
  | nil =>
    cases z with
    | nil => cases y <;> simp [strcmp] at h1 h2
    | cons c z => simp [strcmp, lcp]
  | cons a x ih =>
    cases y with
    | nil => simp [strcmp] at h1
    | cons b y =>
      cases z with
      | nil => simp [strcmp] at h2
      | cons c z =>
        simp only [strcmp, lcp] at *
        by_cases e1 : a < b
        · have : a < c := by
            by_cases e2 : b < c
            · rw [UInt8.lt_iff_toNat_lt] at *; omega
            · rw [if_neg e2] at h2
              by_cases e3 : c < b
              · rw [if_pos e3] at h2; simp at h2
              · rw [UInt8.lt_iff_toNat_lt] at *; omega
          have hne : a ≠ c := by intro e; rw [e, UInt8.lt_iff_toNat_lt] at this; omega
          rw [if_pos this, if_neg hne]; exact ⟨by omega, by omega⟩
        · rw [if_neg e1] at h1
          by_cases e2 : b < a
          · rw [if_pos e2] at h1; simp at h1
          · rw [if_neg e2] at h1
            have hab : a = b := by rw [UInt8.lt_iff_toNat_lt] at *; exact UInt8.toNat.inj (by omega)
            subst hab
            by_cases e3 : a < c
            · have hne : a ≠ c := by intro e; rw [e, UInt8.lt_iff_toNat_lt] at e3; omega
              rw [if_pos e3, if_neg hne]; exact ⟨by omega, by omega⟩
            · rw [if_neg e3] at h2 ⊢
              by_cases e4 : c < a
              · rw [if_pos e4] at h2; simp at h2
              · rw [if_neg e4] at h2 ⊢
                have := ih h1 h2
                refine ⟨this.1, ?_⟩
                rw [if_pos rfl]
                by_cases e5 : a = c
                · rw [if_pos e5]; omega
                · rw [if_neg e5]; omega

theorem lcp_comm (s t : List UInt8) : lcp s t = lcp t s := by
  induction s generalizing t with
  | nil => cases t <;> simp [lcp]
  | cons a s ih => cases t with
    | nil => simp [lcp]
    | cons b t =>
      simp only [lcp, ih t]
      by_cases h : a = b
      · rw [if_pos h, if_pos h.symm]
      · rw [if_neg h, if_neg (fun e => h e.symm)]

theorem lcp_le (s t : List UInt8) : lcp s t ≤ s.length := by
  induction s generalizing t with
  | nil => cases t <;> simp [lcp]
  | cons a s ih => cases t with
    | nil => simp [lcp]
    | cons b t =>
      simp only [lcp, List.length_cons]
      split
      · have := ih t; omega
      · omega

theorem lcp_take {s t : List UInt8} {k : Nat} (h : k ≤ lcp s t) : s.take k = t.take k := by
  induction s generalizing t k with
  | nil => cases t with
    | nil => rfl
    | cons b t => simp only [lcp] at h; have : k = 0 := by omega
                  subst this; rfl
  | cons a s ih => cases t with
    | nil => simp only [lcp] at h; have : k = 0 := by omega
             subst this; rfl
    | cons b t =>
      simp only [lcp] at h
      by_cases e : a = b
      · rw [if_pos e] at h
        match k with
        | 0 => rfl
        | k + 1 => rw [List.take_succ_cons, List.take_succ_cons, e, ih (t := t) (by omega)]
      · rw [if_neg e] at h
        have : k = 0 := by omega
        subst this; rfl

/-! Trees -/

inductive Tree where
  | mk (ptr : Ptr) (prev : UInt8) (str : List UInt8) (kids : List Tree)

namespace Tree
def ptr : Tree → Ptr | mk p _ _ _ => p
def prev : Tree → UInt8 | mk _ c _ _ => c
def str : Tree → List UInt8 | mk _ _ s _ => s
def kids : Tree → List Tree | mk _ _ _ k => k
end Tree

/-- Order of the children: by decreasing `prev`, then by the string. -/
def klt (c : UInt8) (s : List UInt8) (d : UInt8) (t : List UInt8) : Bool := decide (d < c) || (decide (c = d) && decide (strcmp s t < 0))

theorem klt_iff {c d : UInt8} {s t : List UInt8} : klt c s d t = true ↔ d < c ∨ (c = d ∧ strcmp s t < 0) := by
  simp [klt]

theorem klt_irrefl (c : UInt8) (s : List UInt8) : klt c s c s = false := by
  rw [Bool.eq_false_iff]; intro h
  rw [klt_iff, strcmp_self, UInt8.lt_iff_toNat_lt] at h
  omega

theorem klt_trans {c d e : UInt8} {s t u : List UInt8} (h1 : klt c s d t = true) (h2 : klt d t e u = true) : klt c s e u = true := by
  rw [klt_iff] at *
  rcases h1 with h1 | ⟨e1, h1⟩
  · rcases h2 with h2 | ⟨e2, h2⟩
    · left; rw [UInt8.lt_iff_toNat_lt] at *; omega
    · left; rw [← e2]; exact h1
  · rcases h2 with h2 | ⟨e2, h2⟩
    · left; rw [e1]; exact h2
    · right; exact ⟨e1.trans e2, (strcmp_mid h1 h2).1⟩

theorem klt_total {c d : UInt8} {s t : List UInt8} (h : klt c s d t = false) : (c = d ∧ s = t) ∨ klt d t c s = true := by
  rw [Bool.eq_false_iff] at h
  rw [klt_iff]
  by_cases e : c = d
  · by_cases e2 : s = t
    · exact .inl ⟨e, e2⟩
    · right; right
      refine ⟨e.symm, ?_⟩
      have h0 : strcmp t s ≠ 0 := fun h => e2 (strcmp_eq h).symm
      have hf := strcmp_flip s t
      have : ¬ strcmp s t < 0 := fun hh => h (klt_iff.2 (Or.inr ⟨e, hh⟩))
      omega
  · right; left
    have : ¬ d < c := fun hh => h (klt_iff.2 (Or.inl hh))
    have hne : c.toNat ≠ d.toNat := fun hh => e (UInt8.toNat.inj hh)
    rw [UInt8.lt_iff_toNat_lt] at *; omega

theorem klt_asymm {c d : UInt8} {s t : List UInt8} (h : klt c s d t = true) : klt d t c s = false := by
  rw [Bool.eq_false_iff]; intro h2
  have := klt_trans h h2
  rw [klt_irrefl] at this; simp at this

def Tree.under (c : UInt8) (s : List UInt8) (t : Tree) : Bool := klt t.prev t.str c s

/-- The children before and after a key. -/
def lo (ts : List Tree) (c : UInt8) (s : List UInt8) : List Tree := ts.filter (Tree.under c s)
def hi (ts : List Tree) (c : UInt8) (s : List UInt8) : List Tree := ts.filter (fun t => !Tree.under c s t)

def hitOf (ts : List Tree) (c : UInt8) (s : List UInt8) : Option Tree := ts.find? (fun t => t.prev == c && t.str == s)

/-- The bytes that are skipped for a child: as many as are common, modulo 256. -/
def share (s : List UInt8) (t : Tree) : UInt8 := UInt8.ofNat (lcp s t.str)

/-- Lookup. -/
def look : Nat → List Tree → UInt8 → List UInt8 → Option Ptr
  | 0, _, _, _ => none
  | fuel + 1, ts, c, s =>
    match hitOf ts c s with
    | some t => some t.ptr
    | none =>
      match (lo ts c s).getLast? with
      | none => none
      | some t => if share s t > 8 then look fuel t.kids (c + share s t) (s.drop (share s t).toNat) else none

/-- Insertion of a new node with slot `p`. -/
def ins (p : Ptr) : Nat → List Tree → UInt8 → List UInt8 → List Tree
  | 0, ts, _, _ => ts
  | fuel + 1, ts, c, s =>
    match hitOf ts c s with
    | some _ => ts
    | none =>
      match (lo ts c s).getLast? with
      | none => .mk p c s [] :: hi ts c s
      | some t =>
        if share s t > 8 then
          (lo ts c s).dropLast ++ .mk t.ptr t.prev t.str (ins p fuel t.kids (c + share s t) (s.drop (share s t).toNat)) :: hi ts c s
        else lo ts c s ++ .mk p c s [] :: hi ts c s

/-- The key of the new node. -/
def bot : Nat → List Tree → UInt8 → List UInt8 → UInt8 × List UInt8
  | 0, _, c, s => (c, s)
  | fuel + 1, ts, c, s =>
      match (lo ts c s).getLast? with
      | none => (c, s)
      | some t => if share s t > 8 then bot fuel t.kids (c + share s t) (s.drop (share s t).toNat) else (c, s)

/-- A property of all lists of children in a tree. -/
inductive All (P : List Tree → Prop) : List Tree → Prop where
  | mk (ts : List Tree) : P ts → (∀ t ∈ ts, All P t.kids) → All P ts

theorem All.here {P ts} (h : All P ts) : P ts := by cases h; assumption
theorem All.down {P ts} (h : All P ts) : ∀ t ∈ ts, All P t.kids := by cases h; assumption

def sorted (ts : List Tree) : Prop := ts.Pairwise (fun a b => klt a.prev a.str b.prev b.str = true)

theorem split (ts : List Tree) (c : UInt8) (s : List UInt8) (h : sorted ts) : ts = lo ts c s ++ hi ts c s := by
  induction ts with
  | nil => rfl
  | cons t ts ih =>
    have h' := List.pairwise_cons.1 h
    unfold lo hi at *
    by_cases hb : Tree.under c s t = true
    · rw [List.filter_cons_of_pos hb, List.filter_cons_of_neg (by simp [hb]), List.cons_append, ← ih h'.2]
    · have hl : ts.filter (Tree.under c s) = [] := by
        rw [List.filter_eq_nil_iff]
        intro u hu hbu
        exact hb (klt_trans (h'.1 u hu) hbu)
      have hh : ts.filter (fun t => !Tree.under c s t) = ts := by
        rw [List.filter_eq_self]
        intro u hu
        by_cases hbu : Tree.under c s u = true
        · exact absurd (klt_trans (h'.1 u hu) hbu) hb
        · simp [hbu]
      rw [List.filter_cons_of_neg hb, List.filter_cons_of_pos (by simp [hb]), hl, hh]; rfl

theorem lo_below {ts : List Tree} {c : UInt8} {s : List UInt8} {t : Tree} (h : t ∈ lo ts c s) : t ∈ ts ∧ klt t.prev t.str c s = true :=
  List.mem_filter.1 h

theorem hitOf_none {ts : List Tree} {c : UInt8} {s : List UInt8} (h : hitOf ts c s = none) : ∀ t ∈ ts, ¬ (t.prev = c ∧ t.str = s) := by
  intro t ht hk
  have := List.find?_eq_none.1 h t ht
  simp [hk.1, hk.2] at this

theorem hi_above {ts : List Tree} {c : UInt8} {s : List UInt8} (hn : hitOf ts c s = none) {t : Tree} (h : t ∈ hi ts c s) :
    t ∈ ts ∧ klt c s t.prev t.str = true := by
  have hm := List.mem_filter.1 h
  refine ⟨hm.1, ?_⟩
  have hf : klt t.prev t.str c s = false := by simpa [Tree.under] using hm.2
  rcases klt_total hf with e | e
  · exact absurd e (hitOf_none hn t hm.1)
  · exact e

/-- Case analysis of an insertion: the list is cut in two; a node is inserted, or the last node of the first half is changed. -/
theorem ins_cases (p : Ptr) (fuel : Nat) (ts : List Tree) (c : UInt8) (s : List UInt8) (hs : sorted ts) (hn : hitOf ts c s = none) :
    (∃ l r, ts = l ++ r ∧ (∀ t ∈ l, klt t.prev t.str c s = true) ∧ (∀ t ∈ r, klt c s t.prev t.str = true) ∧
      (∀ t, l.getLast? = some t → ¬ share s t > 8) ∧ ins p (fuel + 1) ts c s = l ++ .mk p c s [] :: r ∧ bot (fuel + 1) ts c s = (c, s) ∧
      look (fuel + 1) ts c s = none ∧ l.getLast? = (lo ts c s).getLast?) ∨
    (∃ l t r, ts = l ++ t :: r ∧ (∀ u ∈ l, klt u.prev u.str c s = true) ∧ klt t.prev t.str c s = true ∧
      (∀ u ∈ r, klt c s u.prev u.str = true) ∧ share s t > 8 ∧
      ins p (fuel + 1) ts c s = l ++ .mk t.ptr t.prev t.str (ins p fuel t.kids (c + share s t) (s.drop (share s t).toNat)) :: r ∧
      bot (fuel + 1) ts c s = bot fuel t.kids (c + share s t) (s.drop (share s t).toNat) ∧
      look (fuel + 1) ts c s = look fuel t.kids (c + share s t) (s.drop (share s t).toNat) ∧ (lo ts c s).getLast? = some t) := by
  have hsp := split ts c s hs
  match hg : (lo ts c s).getLast? with
  | none =>
    left
    have hnil : lo ts c s = [] := List.getLast?_eq_none_iff.1 hg
    refine ⟨lo ts c s, hi ts c s, hsp, fun t h => (lo_below h).2, fun t h => (hi_above hn h).2, ?_, ?_, ?_, ?_, hg⟩
    · rw [hg]; intro t h; cases h
    · simp only [ins, hn, hg, hnil]; rfl
    · simp only [bot, hg]
    · simp only [look, hn, hg]
  | some t =>
    by_cases hk : share s t > 8
    · right
      obtain ⟨l, hl⟩ : ∃ l, lo ts c s = l ++ [t] := by
        obtain ⟨l, hl⟩ := List.getLast?_eq_some_iff.1 hg
        exact ⟨l, hl⟩
      have hmem : ∀ u ∈ l, u ∈ lo ts c s := fun u hu => by rw [hl]; simp [hu]
      refine ⟨l, t, hi ts c s, ?_, fun u h => (lo_below (hmem u h)).2, (lo_below (by rw [hl]; simp)).2, fun u h => (hi_above hn h).2, hk, ?_, ?_, ?_, rfl⟩
      · rw [show l ++ t :: hi ts c s = (l ++ [t]) ++ hi ts c s by simp, ← hl]; exact hsp
      · simp only [ins, hn, hg, hk, if_true]
        rw [hl, List.dropLast_concat]
      · simp only [bot, hg, hk, if_true]
      · simp only [look, hn, hg, hk, if_true]
    · left
      refine ⟨lo ts c s, hi ts c s, hsp, fun t h => (lo_below h).2, fun t h => (hi_above hn h).2, ?_, ?_, ?_, ?_, hg⟩
      · rw [hg]; intro u h; cases h; exact hk
      · simp only [ins, hn, hg, hk, if_false]
      · simp only [bot, hg, hk, if_false]
      · simp only [look, hn, hg, hk, if_false]

theorem look_hit {fuel : Nat} {ts : List Tree} {c : UInt8} {s : List UInt8} {t : Tree} (h : hitOf ts c s = some t) :
    look (fuel + 1) ts c s = some t.ptr := by
  simp only [look, h]

/-- Sorting is kept. -/
theorem ins_sorted (p : Ptr) : ∀ (fuel : Nat) (ts : List Tree) (c : UInt8) (s : List UInt8), All sorted ts → All sorted (ins p fuel ts c s) := by
  intro fuel
  induction fuel with
  | zero => intro ts c s h; exact h
  | succ fuel ih =>
    intro ts c s h
    match hh : hitOf ts c s with
    | some t => simp only [ins, hh]; exact h
    | none =>
      have hs := h.here
      rcases ins_cases p fuel ts c s h.here hh with ⟨l, r, e, hl, hr, _, hi, _⟩ | ⟨l, t, r, e, hl, ht, hr, _, hi, _⟩
      · rw [hi]
        subst e
        have hp := List.pairwise_append.1 hs
        refine ⟨_, ?_, ?_⟩
        · refine List.pairwise_append.2 ⟨hp.1, List.pairwise_cons.2 ⟨hr, hp.2.1⟩, ?_⟩
          intro a ha b hb
          rcases List.mem_cons.1 hb with e | hb
          · subst e; exact hl a ha
          · exact hp.2.2 a ha b hb
        · intro u hu
          rcases List.mem_append.1 hu with hu | hu
          · exact h.down u (by simp [hu])
          · rcases List.mem_cons.1 hu with e | hu
            · subst e; exact ⟨_, List.Pairwise.nil, fun t ht => absurd ht List.not_mem_nil⟩
            · exact h.down u (by simp [hu])
      · rw [hi]
        subst e
        have hp := List.pairwise_append.1 hs
        have hp2 := List.pairwise_cons.1 hp.2.1
        refine ⟨_, ?_, ?_⟩
        · refine List.pairwise_append.2 ⟨hp.1, List.pairwise_cons.2 ⟨fun b hb => hp2.1 b hb, hp2.2⟩, ?_⟩
          intro a ha b hb
          rcases List.mem_cons.1 hb with e | hb
          · subst e; exact hp.2.2 a ha t (by simp)
          · exact hp.2.2 a ha b (by simp [hb])
        · intro u hu
          rcases List.mem_append.1 hu with hu | hu
          · exact h.down u (by simp [hu])
          · rcases List.mem_cons.1 hu with e | hu
            · subst e; exact ih _ _ _ (h.down t (by simp))
            · exact h.down u (by simp [hu])

end Verif.StrStore
