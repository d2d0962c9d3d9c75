/-
  Lemmas for C180.
-/
import Verif.FileMap.Spec
import Mathlib.Data.List.Forall2
import Mathlib.Data.List.GetD

namespace Verif.FileMap

theorem le_roundUp (n : Nat) : n ≤ roundUp n := by
  unfold roundUp PAGE
  omega

theorem lt_roundUp {n off : Nat} (h : off < n) : off < roundUp n := Nat.lt_of_lt_of_le h (le_roundUp n)

/-- A mapping stands for an area. -/
structure MRep (w : Spec.World) (m : Mapping) (a : Spec.Area) : Prop where
  live : m.live = a.live
  file : m.file = a.file
  size : m.size = a.size
  wr : m.write = a.write
  sh : m.shared = a.shared
  fits : ∀ f, a.file = some f → a.size ≤ w.len f
  sharedPages : ∀ f, a.file = some f → a.shared = true → ∀ p, m.copied p = false
  anon : a.file = none → ∀ p, m.copied p = true
  mine : ∀ o x, a.mine o = some x → (∀ f, a.file = some f → a.shared = false → m.copied (o / PAGE) = true ∧ m.own o = x) ∧ (a.file = none → m.own o = x)

/-- The state stands for the world. -/
structure WRep (s : State) (w : Spec.World) : Prop where
  len : ∀ f, (s.files f).length = w.len f
  byte : ∀ f o, o < w.len f → (s.files f).getD o 0 = w.byte f o
  zero : ∀ f o, w.len f ≤ o → w.byte f o = 0
  maps : List.Forall₂ (MRep w) s.maps w.areas

theorem forall2_get {α β : Type} {R : α → β → Prop} : ∀ {l : List α} {l' : List β}, List.Forall₂ R l l' → ∀ {i : Nat} {b : β}, l'[i]? = some b → ∃ a, l[i]? = some a ∧ R a b
  | _, _, .nil, i, b, h => by simp at h
  | _, _, .cons (a := a) hr ht, 0, b, h => by
    simp at h; subst h; exact ⟨a, by simp, hr⟩
  | _, _, .cons hr ht, i + 1, b, h => by
    simp at h ⊢; exact forall2_get ht h

theorem forall2_set {α β : Type} {R : α → β → Prop} {l : List α} {l' : List β} (h : List.Forall₂ R l l') (i : Nat) {a : α} {b : β} (hr : R a b) :
    List.Forall₂ R (l.set i a) (l'.set i b) := by
  induction h generalizing i with
  | nil => exact .nil
  | cons h1 h2 ih =>
    cases i with
    | zero => exact .cons hr h2
    | succ i => exact .cons h1 (ih i)

theorem forall2_modify {α β : Type} {R : α → β → Prop} {l : List α} {l' : List β} (h : List.Forall₂ R l l') (i : Nat) {f : α → α} {g : β → β}
    (hr : ∀ a b, R a b → R (f a) (g b)) : List.Forall₂ R (l.modify i f) (l'.modify i g) := by
  induction h generalizing i with
  | nil => cases i <;> exact .nil
  | cons h1 h2 ih =>
    cases i with
    | zero => exact .cons (hr _ _ h1) h2
    | succ i => exact .cons h1 (ih i)

theorem forall2_imp {α β : Type} {R S : α → β → Prop} {l : List α} {l' : List β} (h : List.Forall₂ R l l') (hi : ∀ a b, R a b → S a b) : List.Forall₂ S l l' := by
  induction h with
  | nil => exact .nil
  | cons h1 _ ih => exact .cons (hi _ _ h1) ih

theorem forall2_snoc {α β : Type} {R : α → β → Prop} {l : List α} {l' : List β} (h : List.Forall₂ R l l') {a : α} {b : β} (hr : R a b) : List.Forall₂ R (l ++ [a]) (l' ++ [b]) := by
  induction h with
  | nil => exact .cons hr .nil
  | cons h1 _ ih => exact .cons h1 ih

theorem forall2_length {α β : Type} {R : α → β → Prop} {l : List α} {l' : List β} (h : List.Forall₂ R l l') : l.length = l'.length := by
  induction h with
  | nil => rfl
  | cons _ _ ih => simp [ih]

/-- Inside of its size a mapping can be read. -/
theorem view_ok {s : State} {w : Spec.World} (h : WRep s w) {m : Mapping} {a : Spec.Area} (hm : MRep w m a) (hl : a.live = true) {off : Nat} (ho : off < a.size) :
    ∃ b, view s m off = .ok b ∧ (∀ f, a.file = some f → a.shared = true → b = w.byte f off) ∧
      ((a.file = none ∨ a.shared = false) → ∀ x, a.mine off = some x → b = x) := by
  unfold view
  rw [hm.live, hl, hm.size, if_pos (by simp [lt_roundUp ho]), hm.file]
  cases hf : a.file with
  | none =>
    rw [if_pos (hm.anon hf _)]
    exact ⟨_, rfl, by simp, fun _ x hx => (hm.mine off x hx).2 hf⟩
  | some f =>
    have hfit := hm.fits f hf
    cases hsh : a.shared with
    | true =>
      rw [if_neg (by rw [hm.sharedPages f hf hsh]; simp)]
      simp only [h.len]
      rw [if_pos (lt_roundUp (by omega))]
      refine ⟨_, rfl, ?_, by simp⟩
      rintro g hg -
      cases hg
      exact h.byte f off (by omega)
    | false =>
      by_cases hc : m.copied (off / PAGE) = true
      · rw [if_pos hc]
        exact ⟨_, rfl, by simp, fun _ x hx => ((hm.mine off x hx).1 f hf hsh).2⟩
      · rw [if_neg hc]
        simp only [h.len]
        rw [if_pos (lt_roundUp (by omega))]
        exact ⟨_, rfl, by simp, fun _ x hx => absurd ((hm.mine off x hx).1 f hf hsh).1 hc⟩

theorem truncate_length (l : List UInt8) (n : Nat) : (truncate l n).length = n := by
  unfold truncate; simp; omega

theorem truncate_grow (l : List UInt8) (n : Nat) (h : l.length ≤ n) (o : Nat) : (truncate l n).getD o 0 = l.getD o 0 := by
  unfold truncate
  rw [List.take_of_length_le h]
  by_cases ho : o < l.length
  · rw [List.getD_append _ _ _ _ ho]
  · rw [List.getD_append_right _ _ _ _ (by omega), List.getD_eq_default _ _ (by omega : l.length ≤ o)]
    by_cases h2 : o - l.length < n - l.length
    · rw [List.getD_eq_getElem _ _ (by simpa using h2), List.getElem_replicate]
    · rw [List.getD_eq_default _ _ (by simp; omega)]

theorem getD_set (l : List UInt8) (i o : Nat) (b : UInt8) (h : i < l.length) : (l.set i b).getD o 0 = if o = i then b else l.getD o 0 := by
  by_cases ho : o = i
  · subst ho
    rw [if_pos rfl, List.getD_eq_getElem _ _ (by simpa using h)]; simp
  · rw [if_neg ho]
    simp only [List.getD_eq_getElem?_getD]
    rw [List.getElem?_set_ne (Ne.symm ho)]

/-- One operation that is used right. -/
theorem step_rep {s : State} {w : Spec.World} (h : WRep s w) (op : Op) (hr : Spec.Right w op) :
    ∃ s' r, step s op = .ok (s', r) ∧ Spec.Good w op r ∧ WRep s' (Spec.next w op) := by
  have hlen := forall2_length h.maps
  cases op with
  | map file size wr sh =>
    cases file with
    | none =>
      unfold step coda_mmap Spec.Good Spec.next
      by_cases hz : size = 0
      · simp only [if_pos hz]
        exact ⟨_, _, rfl, rfl, h⟩
      · simp only [if_neg hz]
        refine ⟨_, _, rfl, by rw [hlen], ⟨h.len, h.byte, h.zero, ?_⟩⟩
        refine forall2_snoc (forall2_imp h.maps fun m a hm => ⟨hm.1, hm.2, hm.3, hm.4, hm.5, hm.6, hm.7, hm.8, hm.9⟩) ?_
        refine ⟨rfl, rfl, rfl, rfl, rfl, by simp, by simp, fun _ _ => rfl, ?_⟩
        intro o x hx
        refine ⟨by simp, fun _ => ?_⟩
        simp at hx
        exact hx
    | some f =>
      unfold step coda_mmap Spec.Good Spec.next
      by_cases hz : size = 0
      · simp only [if_pos hz, if_neg (not_not.mpr hz), h.len]
        by_cases hl : w.len f = 0
        · simp only [if_pos hl]
          exact ⟨_, _, rfl, rfl, h⟩
        · simp only [if_neg hl]
          refine ⟨_, _, rfl, by rw [hlen], ⟨h.len, h.byte, h.zero, ?_⟩⟩
          refine forall2_snoc (forall2_imp h.maps fun m a hm => ⟨hm.1, hm.2, hm.3, hm.4, hm.5, hm.6, hm.7, hm.8, hm.9⟩) ?_
          refine ⟨rfl, rfl, rfl, rfl, rfl, ?_, fun _ _ _ _ => rfl, by simp, by simp⟩
          intro g hg
          cases hg
          exact Nat.le_refl _
      · have hgrow : w.len f ≤ size := by
          rcases hr with hr | hr
          · exact absurd hr hz
          · exact hr
        simp only [if_neg hz, if_pos hz, ne_eq]
        cases wr with
        | false =>
          simp only [Bool.false_eq_true, if_false]
          exact ⟨_, _, rfl, rfl, h⟩
        | true =>
          simp only [if_true]
          refine ⟨_, _, rfl, by rw [hlen], ⟨?_, ?_, ?_, ?_⟩⟩
          · intro g
            by_cases hg : g = f
            · simp [hg, truncate_length]
            · simp [hg, h.len]
          · intro g o ho
            by_cases hg : g = f
            · subst hg
              simp only [if_true]
              rw [truncate_grow _ _ (by rw [h.len]; exact hgrow)]
              by_cases ho' : o < w.len g
              · exact h.byte g o ho'
              · rw [List.getD_eq_default _ _ (by rw [h.len]; omega), h.zero g o (by omega)]
            · simp only [if_neg hg] at ho ⊢
              exact h.byte g o ho
          · intro g o ho
            by_cases hg : g = f
            · subst hg
              simp only [if_true] at ho
              exact h.zero g o (by omega)
            · simp only [if_neg hg] at ho
              exact h.zero g o ho
          · refine forall2_snoc (forall2_imp h.maps fun m a hm => ⟨hm.1, hm.2, hm.3, hm.4, hm.5, ?_, hm.7, hm.8, hm.9⟩) ?_
            · refine ⟨rfl, rfl, rfl, rfl, rfl, ?_, fun _ _ _ _ => rfl, by simp, by simp⟩
              intro g hg
              cases hg
              simp
            · intro g hg
              have := hm.fits g hg
              by_cases hgf : g = f
              · subst hgf; simp only [if_true]; omega
              · simp only [if_neg hgf]; exact this
  | umap i =>
    refine ⟨_, _, rfl, rfl, ⟨h.len, h.byte, h.zero, ?_⟩⟩
    exact forall2_modify (forall2_imp h.maps fun m a hm => ⟨hm.1, hm.2, hm.3, hm.4, hm.5, hm.6, hm.7, hm.8, hm.9⟩) i
      (fun m a hm => ⟨rfl, hm.2, hm.3, hm.4, hm.5, hm.6, hm.7, hm.8, hm.9⟩)
  | read i off =>
    obtain ⟨a, ha, hl, ho⟩ := hr
    obtain ⟨m, hm, hR⟩ := forall2_get h.maps ha
    obtain ⟨b, hb, h1, h2⟩ := view_ok h hR hl ho
    refine ⟨s, .byte b, by simp only [step, read, hm, hb], ⟨a, b, ha, rfl, ?_⟩, h⟩
    split
    · rename_i f hf hsh; exact h1 f hf hsh
    · rename_i hn
      refine h2 ?_
      cases hf : a.file with
      | none => exact Or.inl rfl
      | some f =>
        cases hsh : a.shared with
        | false => exact Or.inr rfl
        | true => exact absurd hsh (hn f hf)
  | write i off b =>
    obtain ⟨a, ha, hl, ho, hw⟩ := hr
    obtain ⟨m, hm, hR⟩ := forall2_get h.maps ha
    obtain ⟨b0, hb, h1, h2⟩ := view_ok h hR hl ho
    cases hf : a.file with
    | none =>
      refine ⟨{ s with maps := s.maps.set i { m with own := fun o => if o = off then b else m.own o } }, .unit, ?_, rfl, ?_⟩
      · simp only [step, write, hm, hb, hR.wr, hw, if_true, hR.file, hf]
      · have hn : Spec.next w (.write i off b) = { w with areas := w.areas.set i { a with mine := fun o => if o = off then some b else a.mine o } } := by
          simp only [Spec.next, ha, hf]
        rw [hn]
        refine ⟨h.len, h.byte, h.zero, ?_⟩
        refine forall2_set (forall2_imp h.maps fun m a hm => ⟨hm.1, hm.2, hm.3, hm.4, hm.5, hm.6, hm.7, hm.8, hm.9⟩) i
          ⟨hR.1, hR.2, hR.3, hR.4, hR.5, hR.6, hR.7, hR.8, ?_⟩
        intro o x hx
        refine ⟨fun g hg => (by simp only [hf] at hg; cases hg), fun _ => ?_⟩
        simp only at hx ⊢
        by_cases hoo : o = off
        · rw [if_pos hoo] at hx ⊢; cases hx; rfl
        · rw [if_neg hoo] at hx ⊢; exact (hR.mine o x hx).2 hf
    | some f =>
      cases hsh : a.shared with
      | true =>
        have hfit := hR.fits f hf
        refine ⟨{ s with files := fun g => if g = f then (s.files f).set off b else s.files g }, .unit, ?_, rfl, ?_⟩
        · simp only [step, write, hm, hb, hR.wr, hw, if_true, hR.file, hf, hR.sh, hsh]
        · have hn : Spec.next w (.write i off b) = { w with byte := fun g o => if g = f ∧ o = off then b else w.byte g o } := by
            simp only [Spec.next, ha, hf, hsh]
          rw [hn]
          refine ⟨?_, ?_, ?_, forall2_imp h.maps fun m a hm => ⟨hm.1, hm.2, hm.3, hm.4, hm.5, hm.6, hm.7, hm.8, hm.9⟩⟩
          · intro g
            by_cases hg : g = f
            · simp [hg, h.len]
            · simp [hg, h.len]
          · intro g o hol
            by_cases hg : g = f
            · subst hg
              simp only [if_true, true_and]
              rw [getD_set _ _ _ _ (by rw [h.len]; omega)]
              split
              · rfl
              · exact h.byte g o hol
            · simp only [if_neg hg, hg, false_and, if_false]
              exact h.byte g o hol
          · intro g o hol
            simp only
            rw [if_neg]
            · exact h.zero g o hol
            · rintro ⟨rfl, rfl⟩
              simp only at hol
              omega
      | false =>
        refine ⟨{ s with maps := s.maps.set i (copyPage s m off b) }, .unit, ?_, rfl, ?_⟩
        · simp only [step, write, hm, hb, hR.wr, hw, if_true, hR.file, hf, hR.sh, hsh]
          rfl
        · have hn : Spec.next w (.write i off b) = { w with areas := w.areas.set i { a with mine := fun o => if o = off then some b else a.mine o } } := by
            simp only [Spec.next, ha, hf, hsh]
          rw [hn]
          refine ⟨h.len, h.byte, h.zero, ?_⟩
          refine forall2_set (forall2_imp h.maps fun m a hm => ⟨hm.1, hm.2, hm.3, hm.4, hm.5, hm.6, hm.7, hm.8, hm.9⟩) i
            ⟨hR.1, hR.2, hR.3, hR.4, hR.5, hR.6, ?_, ?_, ?_⟩
          · intro g hg hs
            simp only [hsh] at hs
            cases hs
          · intro hn
            simp only [hf] at hn
            cases hn
          · intro o x hx
            refine ⟨fun g hg hs => ?_, fun hn => by simp only [hf] at hn; cases hn⟩
            simp only [copyPage] at hx ⊢
            by_cases hoo : o = off
            · rw [if_pos hoo] at hx; cases hx
              rw [if_pos hoo, if_pos (by rw [hoo])]
              exact ⟨rfl, rfl⟩
            · rw [if_neg hoo] at hx
              rw [if_neg hoo]
              obtain ⟨c1, c2⟩ := (hR.mine o x hx).1 f hf hsh
              by_cases hp : o / PAGE = off / PAGE
              · rw [if_pos hp, if_pos hp]
                refine ⟨rfl, ?_⟩
                have hv : view s m o = .ok x := by
                  unfold view
                  have hlt : o < roundUp m.size := by
                    rw [hR.size]
                    have : off < roundUp a.size := lt_roundUp ho
                    unfold roundUp PAGE at *
                    omega
                  rw [hR.live, hl, if_pos (by simp [hlt]), if_pos c1, c2]
                rw [hv]
              · rw [if_neg hp, if_neg hp]
                exact ⟨c1, c2⟩

/-- The files before anything is mapped. -/
def world (files : Nat → List UInt8) : Spec.World := ⟨fun f => (files f).length, fun f o => (files f).getD o 0, []⟩

theorem start_rep (files : Nat → List UInt8) : WRep ⟨files, []⟩ (world files) := by
  refine ⟨fun _ => rfl, fun _ _ _ => rfl, fun f o h => ?_, .nil⟩
  exact List.getD_eq_default _ _ h

theorem run_rep : ∀ (ops : List Op) {s : State} {w : Spec.World}, WRep s w → Spec.AllRight w ops → ∃ s' rs, run s ops = .ok (s', rs) ∧ Spec.AllGood w ops rs
  | [], s, w, _, _ => ⟨s, [], rfl, trivial⟩
  | op :: ops, s, w, h, hr => by
    obtain ⟨s1, r, e, hg, h1⟩ := step_rep h op hr.1
    obtain ⟨s2, rs, e2, hg2⟩ := run_rep ops h1 hr.2
    exact ⟨s2, r :: rs, by simp only [run, e, e2], hg, hg2⟩

end Verif.FileMap
