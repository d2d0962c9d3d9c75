import Verif.StrStore.Pure
import Verif.StrStore.Spec
set_option linter.unusedSimpArgs false
set_option linter.unusedVariables false

namespace Verif.StrStore

/-- `s` is the rest of a string of `S` from position `c` on. -/
def Of (S : List UInt8 → Prop) (c : UInt8) (s : List UInt8) : Prop := ∃ x, S x ∧ c.toNat ≤ x.length ∧ s = x.drop c.toNat

/-- All children are such rests. -/
def Fact (S : List UInt8 → Prop) (ts : List Tree) : Prop := ∀ t ∈ ts, Of S t.prev t.str

variable {S : List UInt8 → Prop}

theorem of_len (hs : Short S) {c : UInt8} {s : List UInt8} (h : Of S c s) : c.toNat + s.length < 256 := by
  obtain ⟨x, hx, hc, e⟩ := h
  have := (hs x hx).1
  subst e; simp; omega

theorem share_toNat {s : List UInt8} (h : s.length < 256) (t : Tree) : (share s t).toNat = lcp s t.str := by
  have := lcp_le s t.str
  simp [share]; omega

theorem share_le (s : List UInt8) (t : Tree) : (share s t).toNat ≤ lcp s t.str := by
  simp [share]; exact Nat.mod_le _ _

theorem share_gt {s : List UInt8} {t : Tree} (h : share s t > 8) : 8 < (share s t).toNat := by
  have : (8 : UInt8) < share s t := h
  rw [UInt8.lt_iff_toNat_lt] at this; exact this

theorem of_step (hs : Short S) {c : UInt8} {s : List UInt8} (h : Of S c s) (t : Tree) :
    Of S (c + share s t) (s.drop (share s t).toNat) ∧ (c + share s t).toNat = c.toNat + lcp s t.str := by
  have hl := of_len hs h
  obtain ⟨x, hx, hc, e⟩ := h
  have h1 := share_toNat (s := s) (by omega) t
  have h2 := lcp_le s t.str
  have h3 : (c + share s t).toNat = c.toNat + lcp s t.str := by
    rw [UInt8.toNat_add, h1]; omega
  refine ⟨⟨x, hx, ?_, ?_⟩, h3⟩
  · rw [h3]; have : s.length = x.length - c.toNat := by rw [e]; simp
    omega
  · rw [h3, h1, e, List.drop_drop]

theorem same_prev (hn : NoShift S) (hs : Short S) {c : UInt8} {s : List UInt8} (h : Of S c s) {t : Tree} (ht : Of S t.prev t.str)
    (hk : share s t > 8) : t.prev = c := by
  have hl := of_len hs h
  have h1 := share_toNat (s := s) (by omega) t
  have h2 := share_gt hk
  have h3 := lcp_le s t.str
  obtain ⟨x, hx, hc, e⟩ := h
  obtain ⟨y, hy, hd, e2⟩ := ht
  have := hn x y hx hy c.toNat t.prev.toNat (by rw [← e]; simp; omega) (by rw [← e, ← e2]; exact lcp_take (by omega))
  exact UInt8.toNat.inj this.symm

/-- Nothing is inserted between a node and the strings that are looked up below it. -/
theorem no_between (hn : NoShift S) (hs : Short S) {c d : UInt8} {s u : List UInt8} (h : Of S c s) (h2 : Of S d u) {t : Tree} (ht : Of S t.prev t.str)
    (k1 : klt t.prev t.str c s = true) (k2 : klt c s d u = true) (hk : ¬ share s t > 8) : ¬ share u t > 8 := by
  intro hu
  have hp := same_prev hn hs h2 ht hu
  rw [klt_iff] at k1 k2
  have hcd : c = d := by
    rcases k2 with k2 | k2
    · rcases k1 with k1 | k1
      · rw [hp] at k1; rw [UInt8.lt_iff_toNat_lt] at *; omega
      · rw [← hp]; exact k1.1.symm
    · exact k2.1
  have a1 : strcmp t.str s < 0 := by
    rcases k1 with k1 | k1
    · rw [hp, hcd, UInt8.lt_iff_toNat_lt] at k1; omega
    · exact k1.2
  have a2 : strcmp s u < 0 := by
    rcases k2 with k2 | k2
    · rw [hcd, UInt8.lt_iff_toNat_lt] at k2; omega
    · exact k2.2
  have := (strcmp_mid a1 a2).2
  rw [lcp_comm t.str u, lcp_comm t.str s] at this
  apply hk
  have l1 := of_len hs h
  have l2 := of_len hs h2
  have e1 := share_toNat (s := s) (by omega) t
  have e2 := share_toNat (s := u) (by omega) t
  have := share_gt hu
  show (8 : UInt8) < share s t
  rw [UInt8.lt_iff_toNat_lt, e1]
  show 8 < _
  omega

theorem step_inj (hn : NoShift S) (hs : Short S) {c d : UInt8} {s u : List UInt8} (h : Of S c s) (h2 : Of S d u) {t : Tree} (ht : Of S t.prev t.str)
    (hk : share s t > 8) (hu : share u t > 8) (e1 : d + share u t = c + share s t) (e2 : u.drop (share u t).toNat = s.drop (share s t).toNat) :
    d = c ∧ u = s := by
  have p1 := same_prev hn hs h ht hk
  have p2 := same_prev hn hs h2 ht hu
  have hdc : d = c := by rw [← p1, ← p2]
  refine ⟨hdc, ?_⟩
  have q1 := (of_step hs h t).2
  have q2 := (of_step hs h2 t).2
  rw [← e1, q2, hdc] at q1
  have l1 := of_len hs h
  have l2 := of_len hs h2
  have f1 := share_toNat (s := s) (by omega) t
  have f2 := share_toNat (s := u) (by omega) t
  rw [f1, f2] at e2
  have hk2 : lcp u t.str = lcp s t.str := by omega
  have t1 := lcp_take (s := s) (t := t.str) (Nat.le_refl _)
  have t2 := lcp_take (s := u) (t := t.str) (Nat.le_refl _)
  rw [hk2] at t2 e2
  calc u = u.take (lcp s t.str) ++ u.drop (lcp s t.str) := (List.take_append_drop _ _).symm
    _ = s.take (lcp s t.str) ++ s.drop (lcp s t.str) := by rw [e2, t1, t2]
    _ = s := List.take_append_drop _ _

theorem getLast?_mid {α : Type} (l r : List α) (x y : α) (hr : r ≠ []) : (l ++ x :: r).getLast? = (l ++ y :: r).getLast? := by
  rw [List.getLast?_append, List.getLast?_append, List.getLast?_cons, List.getLast?_cons]
  obtain ⟨z, hz⟩ : ∃ z, r.getLast? = some z := by
    match h : r.getLast? with
    | none => exact absurd (List.getLast?_eq_none_iff.1 h) hr
    | some z => exact ⟨z, rfl⟩
  rw [hz]; rfl

theorem getLast?_app {α : Type} (l r : List α) (hr : r ≠ []) : (l ++ r).getLast? = r.getLast? := by
  rw [List.getLast?_append]
  obtain ⟨z, hz⟩ : ∃ z, r.getLast? = some z := by
    match h : r.getLast? with
    | none => exact absurd (List.getLast?_eq_none_iff.1 h) hr
    | some z => exact ⟨z, rfl⟩
  rw [hz]; rfl

theorem look_nil (fuel : Nat) (c : UInt8) (s : List UInt8) : look fuel [] c s = none := by
  cases fuel <;> rfl

/-- One step of a lookup for which there is no exact hit. -/
theorem look_miss {fuel : Nat} {ts : List Tree} {c : UInt8} {s : List UInt8} (h : hitOf ts c s = none) :
    look (fuel + 1) ts c s = match (lo ts c s).getLast? with
      | none => none
      | some t => if share s t > 8 then look fuel t.kids (c + share s t) (s.drop (share s t).toNat) else none := by
  rw [look, h]
  rfl

/-- Inserting a string does not change what is found for others. -/
theorem ins_look_other (hn : NoShift S) (hs : Short S) (p : Ptr) : ∀ (fuel fuel2 : Nat) (ts : List Tree) (c d : UInt8) (s u : List UInt8),
    All sorted ts → All (Fact S) ts → Of S c s → Of S d u → ¬ (d = c ∧ u = s) → look fuel2 (ins p fuel ts c s) d u = look fuel2 ts d u := by
  intro fuel
  induction fuel with
  | zero => intro fuel2 ts c d s u _ _ _ _ _; rfl
  | succ fuel ih =>
    intro fuel2 ts c d s u h hf hc hd hne
    match fuel2 with
    | 0 => rfl
    | fuel2 + 1 =>
    match hh : hitOf ts c s with
    | some t => simp only [ins, hh]
    | none =>
      rcases ins_cases p fuel ts c s h.here hh with ⟨l, r, e, hl, hr, hg, hi, _⟩ | ⟨l, t, r, e, hl, ht, hr, hk, hi, _⟩
      · rw [hi]
        have hhit : hitOf (l ++ .mk p c s [] :: r) d u = hitOf ts d u := by
          have : (((Tree.mk p c s []).prev == d && (Tree.mk p c s []).str == u) : Bool) = false := by
            rw [Bool.eq_false_iff]; intro hb
            simp [Tree.prev, Tree.str] at hb
            exact hne ⟨hb.1.symm, hb.2.symm⟩
          rw [e]; unfold hitOf
          rw [List.find?_append, List.find?_append, List.find?_cons_of_neg (by rw [this]; simp)]
        match hhd : hitOf ts d u with
        | some x => rw [look_hit (hhit.trans hhd), look_hit hhd]
        | none =>
          rw [look_miss (hhit.trans hhd), look_miss hhd]
          have hlo1 : lo ts d u = lo l d u ++ lo r d u := by rw [e]; unfold lo; rw [List.filter_append]
          by_cases hY : klt c s d u = true
          · have hlo2 : lo (l ++ .mk p c s [] :: r) d u = lo l d u ++ .mk p c s [] :: lo r d u := by
              unfold lo; rw [List.filter_append, List.filter_cons_of_pos (by exact hY)]
            rw [hlo1, hlo2]
            by_cases hre : lo r d u = []
            · have hll : lo l d u = l := by
                unfold lo; rw [List.filter_eq_self]; intro x hx; exact klt_trans (hl x hx) hY
              rw [hre, hll, List.append_nil, List.getLast?_append]
              simp only [List.getLast?_singleton, Option.some_or]
              have hnew : (if share u (Tree.mk p c s []) > 8 then look fuel2 (Tree.mk p c s []).kids (d + share u (Tree.mk p c s []))
                  (u.drop (share u (Tree.mk p c s [])).toNat) else none) = (none : Option Ptr) := by
                split
                · exact look_nil _ _ _
                · rfl
              rw [hnew]
              match hx : l.getLast? with
              | none => rfl
              | some x =>
                have hxl : x ∈ l := List.mem_of_getLast? hx
                have := no_between hn hs hc hd (hf.here x (by rw [e]; simp [hxl])) (hl x hxl) hY (hg x hx)
                simp only []
                rw [if_neg this]
            · rw [getLast?_app _ _ (by simp), getLast?_app _ _ hre, List.getLast?_cons]
              obtain ⟨z, hz⟩ : ∃ z, (lo r d u).getLast? = some z := by
                match h : (lo r d u).getLast? with
                | none => exact absurd (List.getLast?_eq_none_iff.1 h) hre
                | some z => exact ⟨z, rfl⟩
              rw [hz]; rfl
          · have hlo2 : lo (l ++ .mk p c s [] :: r) d u = lo l d u ++ lo r d u := by
              unfold lo; rw [List.filter_append, List.filter_cons_of_neg (by exact hY)]
            rw [hlo1, hlo2]
      · rw [hi]
        have htm : t ∈ ts := by rw [e]; simp
        have hft := hf.here t htm
        generalize ht' : Tree.mk t.ptr t.prev t.str (ins p fuel t.kids (c + share s t) (s.drop (share s t).toNat)) = t'
        have hpt : t'.ptr = t.ptr := by rw [← ht']; rfl
        have hpr : t'.prev = t.prev := by rw [← ht']; rfl
        have hst : t'.str = t.str := by rw [← ht']; rfl
        have hkd : t'.kids = ins p fuel t.kids (c + share s t) (s.drop (share s t).toNat) := by rw [← ht']; rfl
        have hhit : (hitOf (l ++ t' :: r) d u).map Tree.ptr = (hitOf ts d u).map Tree.ptr := by
          rw [e]; unfold hitOf
          rw [List.find?_append, List.find?_append]
          cases List.find? (fun t => t.prev == d && t.str == u) l with
          | some x => rfl
          | none =>
            simp only [Option.none_or]
            by_cases hm : (t.prev == d && t.str == u) = true
            · rw [List.find?_cons_of_pos (by rw [hpr, hst]; exact hm), List.find?_cons_of_pos (by exact hm)]; simp [hpt]
            · rw [List.find?_cons_of_neg (by rw [hpr, hst]; exact hm), List.find?_cons_of_neg (by exact hm)]
        match hhd : hitOf ts d u with
        | some x =>
          rw [hhd] at hhit
          match hh2 : hitOf (l ++ t' :: r) d u with
          | none => rw [hh2] at hhit; simp at hhit
          | some y =>
            rw [hh2] at hhit
            rw [look_hit hh2, look_hit hhd]; simpa using hhit
        | none =>
          have hh2 : hitOf (l ++ t' :: r) d u = none := by
            rw [hhd] at hhit; simpa using hhit
          rw [look_miss hh2, look_miss hhd]
          have hlo1 : lo ts d u = lo l d u ++ lo (t :: r) d u := by rw [e]; unfold lo; rw [List.filter_append]
          have hlo2 : lo (l ++ t' :: r) d u = lo l d u ++ lo (t' :: r) d u := by unfold lo; rw [List.filter_append]
          rw [hlo1, hlo2]
          by_cases hT : klt t.prev t.str d u = true
          · have a1 : lo (t :: r) d u = t :: lo r d u := by unfold lo; rw [List.filter_cons_of_pos (by exact hT)]
            have a2 : lo (t' :: r) d u = t' :: lo r d u := by
              unfold lo; rw [List.filter_cons_of_pos (by unfold Tree.under; rw [hpr, hst]; exact hT)]
            rw [a1, a2]
            by_cases hre : lo r d u = []
            · rw [hre, List.getLast?_append, List.getLast?_append]
              simp only [List.getLast?_singleton, Option.some_or]
              have hsh : share u t' = share u t := by unfold share; rw [hst]
              rw [hsh]
              by_cases hut : share u t > 8
              · rw [if_pos hut, if_pos hut, hkd]
                exact ih fuel2 t.kids _ _ _ _ (h.down t htm) (hf.down t htm) (of_step hs hc t).1 (of_step hs hd t).1
                  (fun he => hne (step_inj hn hs hc hd hft hk hut he.1 he.2))
              · rw [if_neg hut, if_neg hut]
            · rw [getLast?_mid _ _ t' t hre]
          · have a1 : lo (t :: r) d u = lo r d u := by unfold lo; rw [List.filter_cons_of_neg (by exact hT)]
            have a2 : lo (t' :: r) d u = lo r d u := by
              unfold lo; rw [List.filter_cons_of_neg (by unfold Tree.under; rw [hpr, hst]; exact hT)]
            rw [a1, a2]

/-- The new string is found. -/
theorem ins_look_self (p : Ptr) : ∀ (fuel : Nat) (ts : List Tree) (c : UInt8) (s : List UInt8),
    All sorted ts → s.length < fuel → look fuel ts c s = none → look fuel (ins p fuel ts c s) c s = some p := by
  intro fuel
  induction fuel with
  | zero => intro ts c s _ h _; omega
  | succ fuel ih =>
    intro ts c s h hlen hlook
    match hh : hitOf ts c s with
    | some t => rw [look_hit hh] at hlook; cases hlook
    | none =>
      rcases ins_cases p fuel ts c s h.here hh with ⟨l, r, e, hl, hr, hg, hi, _⟩ | ⟨l, t, r, e, hl, ht, hr, hk, hi, _, hlk, _⟩
      · rw [hi]
        have : hitOf (l ++ .mk p c s [] :: r) c s = some (.mk p c s []) := by
          unfold hitOf
          have hnl : List.find? (fun t => t.prev == c && t.str == s) l = none := by
            rw [List.find?_eq_none]; intro x hx hb
            simp at hb
            exact hitOf_none hh x (by rw [e]; simp [hx]) hb
          rw [List.find?_append, hnl, List.find?_cons_of_pos (by simp [Tree.prev, Tree.str])]; rfl
        rw [look_hit this]; rfl
      · rw [hi]
        generalize ht' : Tree.mk t.ptr t.prev t.str (ins p fuel t.kids (c + share s t) (s.drop (share s t).toNat)) = t'
        have hpr : t'.prev = t.prev := by rw [← ht']; rfl
        have hst : t'.str = t.str := by rw [← ht']; rfl
        have hkd : t'.kids = ins p fuel t.kids (c + share s t) (s.drop (share s t).toNat) := by rw [← ht']; rfl
        have hh2 : hitOf (l ++ t' :: r) c s = none := by
          unfold hitOf; rw [List.find?_eq_none]; intro x hx hb
          simp at hb
          rcases List.mem_append.1 hx with hx | hx
          · exact hitOf_none hh x (by rw [e]; simp [hx]) hb
          · rcases List.mem_cons.1 hx with hx | hx
            · subst hx; rw [hpr, hst] at hb
              exact hitOf_none hh t (by rw [e]; simp) hb
            · exact hitOf_none hh x (by rw [e]; simp [hx]) hb
        rw [look_miss hh2]
        have hlo : (lo (l ++ t' :: r) c s).getLast? = some t' := by
          unfold lo
          rw [List.filter_append, List.filter_cons_of_pos (by unfold Tree.under; rw [hpr, hst]; exact ht)]
          have : List.filter (Tree.under c s) r = [] := by
            rw [List.filter_eq_nil_iff]; intro x hx hb
            have := klt_asymm (hr x hx)
            unfold Tree.under at hb; rw [this] at hb; cases hb
          rw [this, List.getLast?_append]; rfl
        rw [hlo]
        have hsh : share s t' = share s t := by unfold share; rw [hst]
        simp only []
        rw [hsh, if_pos hk, hkd]
        have := share_gt hk
        have := share_le s t
        have := lcp_le s t.str
        exact ih _ _ _ (h.down t (by rw [e]; simp)) (by simp; omega) (by rw [← hlk]; exact hlook)

theorem ins_fact (p : Ptr) (hs : Short S) : ∀ (fuel : Nat) (ts : List Tree) (c : UInt8) (s : List UInt8),
    All sorted ts → All (Fact S) ts → Of S c s → All (Fact S) (ins p fuel ts c s) := by
  intro fuel
  induction fuel with
  | zero => intro ts c s _ h _; exact h
  | succ fuel ih =>
    intro ts c s hsd h hc
    match hh : hitOf ts c s with
    | some t => simp only [ins, hh]; exact h
    | none =>
      rcases ins_cases p fuel ts c s hsd.here hh with ⟨l, r, e, hl, hr, hg, hi, _⟩ | ⟨l, t, r, e, hl, ht, hr, hk, hi, _⟩
      · rw [hi]
        refine ⟨_, ?_, ?_⟩
        · intro x hx
          rcases List.mem_append.1 hx with hx | hx
          · exact h.here x (by rw [e]; simp [hx])
          · rcases List.mem_cons.1 hx with hx | hx
            · subst hx; exact hc
            · exact h.here x (by rw [e]; simp [hx])
        · intro x hx
          rcases List.mem_append.1 hx with hx | hx
          · exact h.down x (by rw [e]; simp [hx])
          · rcases List.mem_cons.1 hx with hx | hx
            · subst hx; exact ⟨_, fun t ht => absurd ht List.not_mem_nil, fun t ht => absurd ht List.not_mem_nil⟩
            · exact h.down x (by rw [e]; simp [hx])
      · rw [hi]
        have htm : t ∈ ts := by rw [e]; simp
        refine ⟨_, ?_, ?_⟩
        · intro x hx
          rcases List.mem_append.1 hx with hx | hx
          · exact h.here x (by rw [e]; simp [hx])
          · rcases List.mem_cons.1 hx with hx | hx
            · subst hx; exact h.here t htm
            · exact h.here x (by rw [e]; simp [hx])
        · intro x hx
          rcases List.mem_append.1 hx with hx | hx
          · exact h.down x (by rw [e]; simp [hx])
          · rcases List.mem_cons.1 hx with hx | hx
            · subst hx; exact ih _ _ _ (hsd.down t htm) (h.down t htm) (of_step hs hc t).1
            · exact h.down x (by rw [e]; simp [hx])

/-! Enumeration -/

mutual
/-- The strings of a tree below a node with the string `F`. -/
def enumT (F : List UInt8) : Tree → List (List UInt8 × Ptr)
  | .mk p c s ks => (F.take c.toNat ++ s, (p.1, p.2 + 1)) :: enumTs (F.take c.toNat ++ s) ks
def enumTs (F : List UInt8) : List Tree → List (List UInt8 × Ptr)
  | [] => []
  | t :: ts => enumT F t ++ enumTs F ts
end

theorem enumTs_append (F : List UInt8) (a b : List Tree) : enumTs F (a ++ b) = enumTs F a ++ enumTs F b := by
  induction a with
  | nil => rfl
  | cons t a ih => simp only [List.cons_append, enumTs, ih, List.append_assoc]

theorem enumT_eq (F : List UInt8) (t : Tree) :
    enumT F t = (F.take t.prev.toNat ++ t.str, (t.ptr.1, t.ptr.2 + 1)) :: enumTs (F.take t.prev.toNat ++ t.str) t.kids := by
  cases t; rfl

/-- An insertion adds the string `x` to the enumeration. -/
theorem ins_enum (hn : NoShift S) (hs : Short S) (p : Ptr) (x : List UInt8) (hx : S x) : ∀ (fuel : Nat) (ts : List Tree) (F : List UInt8) (c : UInt8) (s : List UInt8),
    All sorted ts → All (Fact S) ts → s.length < fuel → look fuel ts c s = none → c.toNat ≤ x.length → s = x.drop c.toNat → x.take c.toNat = F.take c.toNat →
    ∃ l1 l2, enumTs F ts = l1 ++ l2 ∧ enumTs F (ins p fuel ts c s) = l1 ++ (x, (p.1, p.2 + 1)) :: l2 := by
  intro fuel
  induction fuel with
  | zero => intro ts F c s _ _ h; omega
  | succ fuel ih =>
    intro ts F c s hsd hf hlen hlook hcx he hF
    match hh : hitOf ts c s with
    | some t => rw [look_hit hh] at hlook; cases hlook
    | none =>
      rcases ins_cases p fuel ts c s hsd.here hh with ⟨l, r, e, hl, hr, hg, hi, _⟩ | ⟨l, t, r, e, hl, ht, hr, hk, hi, _, hlk, _⟩
      · rw [hi]
        refine ⟨enumTs F l, enumTs F r, by rw [e, enumTs_append], ?_⟩
        rw [enumTs_append, enumTs, enumT, enumTs, ← hF, he, List.take_append_drop]
        rfl
      · rw [hi]
        have htm : t ∈ ts := by rw [e]; simp
        have hof : Of S c s := ⟨x, hx, hcx, he⟩
        have hpc := same_prev hn hs hof (hf.here t htm) hk
        have hst := of_step hs hof t
        have hl1 := of_len hs hof
        have hsn := share_toNat (s := s) (by omega) t
        have hsg := share_gt hk
        have hle := lcp_le s t.str
        have hsl : s.length = x.length - c.toNat := by rw [he]; simp
        have hFc : (F.take c.toNat).length = c.toNat := by rw [← hF]; simp; omega
        obtain ⟨l1, l2, e1, e2⟩ := ih t.kids (F.take c.toNat ++ t.str) (c + share s t) (s.drop (share s t).toNat) (hsd.down t htm) (hf.down t htm)
          (by simp; omega) (by rw [← hlk]; exact hlook) (by rw [hst.2]; omega) (by rw [hst.2, hsn, he, List.drop_drop])
          (by
            rw [hst.2, List.take_append, hFc, Nat.add_sub_cancel_left, List.take_of_length_le (l := F.take c.toNat) (by omega)]
            rw [← lcp_take (s := s) (t := t.str) (Nat.le_refl _), ← hF, List.take_add]
            congr 1
            rw [← he])
        refine ⟨enumTs F l ++ (F.take c.toNat ++ t.str, (t.ptr.1, t.ptr.2 + 1)) :: l1, l2 ++ enumTs F r, ?_, ?_⟩
        · rw [e, enumTs_append, enumTs, enumT_eq, hpc, e1]; simp
        · rw [enumTs_append, enumTs, enumT, hpc, e2]; simp

end Verif.StrStore
