import Verif.StrStore.Mem
set_option linter.unusedSimpArgs false
set_option linter.unusedVariables false

namespace Verif.StrStore

/-! The tree in memory -/

def Node.cap : Node → Nat
  | .mk _ c _ => c
def Node.children : Node → List Node
  | .mk _ _ ch => ch

def rdp (sb : SB) (v : Ptr) : UInt8 := match byteAt sb.blocks v with
  | .ok c => c
  | .ub => 0
def rds (sb : SB) (v : Ptr) : List UInt8 := match strAt sb v with
  | .ok s => s
  | .ub => []

mutual
def absN (sb : SB) : Node → Tree
  | .mk v _ ch => .mk v (rdp sb v) (rds sb v) (absL sb ch)
def absL (sb : SB) : List Node → List Tree
  | [] => []
  | n :: ns => absN sb n :: absL sb ns
end

mutual
def ptrsN : Node → List Ptr
  | .mk v _ ch => v :: ptrsL ch
def ptrsL : List Node → List Ptr
  | [] => []
  | n :: ns => ptrsN n ++ ptrsL ns
end

theorem absL_map (sb : SB) (l : List Node) : absL sb l = l.map (absN sb) := by
  induction l with
  | nil => rfl
  | cons a l ih => simp [absL, ih]

theorem ptrsL_flatMap (l : List Node) : ptrsL l = l.flatMap ptrsN := by
  induction l with
  | nil => rfl
  | cons a l ih => simp [ptrsL, ih]

theorem absN_eq (sb : SB) (n : Node) : absN sb n = .mk n.value (rdp sb n.value) (rds sb n.value) (absL sb n.children) := by
  cases n; rfl
theorem ptrsN_eq (n : Node) : ptrsN n = n.value :: ptrsL n.children := by
  cases n; rfl

theorem node_eq (n : Node) : n = .mk n.value n.cap n.children := by cases n; rfl

theorem ptrs_mem {l : List Node} {n : Node} (h : n ∈ l) : n.value ∈ ptrsL l ∧ ∀ w ∈ ptrsL n.children, w ∈ ptrsL l := by
  rw [ptrsL_flatMap]
  refine ⟨List.mem_flatMap.2 ⟨n, h, by rw [ptrsN_eq]; simp⟩, fun w hw => List.mem_flatMap.2 ⟨n, h, by rw [ptrsN_eq]; simp [hw]⟩⟩

inductive CapOK : Nat → List Node → Prop where
  | mk (cap : Nat) (ch : List Node) : capOK cap ch.length → (∀ n ∈ ch, CapOK n.cap n.children) → CapOK cap ch

theorem CapOK.here {cap ch} (h : CapOK cap ch) : capOK cap ch.length := by cases h; assumption
theorem CapOK.down {cap ch} (h : CapOK cap ch) : ∀ n ∈ ch, CapOK n.cap n.children := by cases h; assumption

def IsCell (sb : SB) (v : Ptr) : Prop := ∃ c s d, Cell sb v c s d

theorem isCell_read {sb : SB} {v : Ptr} (h : IsCell sb v) : byteAt sb.blocks v = .ok (rdp sb v) ∧ strAt sb v = .ok (rds sb v) := by
  obtain ⟨c, s, d, h⟩ := h
  simp only [rdp, rds, cell_byte h, cell_str h, and_self]

mutual
theorem abs_frameN {sb sb' : SB} : ∀ (n : Node), (∀ v ∈ ptrsN n, rdp sb' v = rdp sb v ∧ rds sb' v = rds sb v) → absN sb' n = absN sb n
  | .mk v c ch, h => by
    rw [ptrsN] at h
    rw [absN, absN, (h v (by simp)).1, (h v (by simp)).2, abs_frame ch (fun w hw => h w (by simp [hw]))]
theorem abs_frame {sb sb' : SB} : ∀ (l : List Node), (∀ v ∈ ptrsL l, rdp sb' v = rdp sb v ∧ rds sb' v = rds sb v) → absL sb' l = absL sb l
  | [], _ => rfl
  | n :: ns, h => by
    rw [ptrsL] at h
    rw [absL, absL, abs_frameN n (fun w hw => h w (by simp [hw])), abs_frame ns (fun w hw => h w (by simp [hw]))]
end

theorem cell_rd {sb : SB} {v : Ptr} {c : UInt8} {s d : List UInt8} (h : Cell sb v c s d) : rdp sb v = c ∧ rds sb v = s := by
  simp only [rdp, rds, cell_byte h, cell_str h, and_self]

/-! The binary search -/

theorem key_unique {ts : List Tree} (h : sorted ts) {a b : Tree} (ha : a ∈ ts) (hb : b ∈ ts) (e1 : a.prev = b.prev) (e2 : a.str = b.str) : a = b := by
  induction ts with
  | nil => cases ha
  | cons t ts ih =>
    have h' := List.pairwise_cons.1 h
    rcases List.mem_cons.1 ha with ha | ha
    · rcases List.mem_cons.1 hb with hb | hb
      · rw [ha, hb]
      · have := h'.1 b hb
        rw [← ha, e1, e2, klt_irrefl] at this; cases this
    · rcases List.mem_cons.1 hb with hb | hb
      · have := h'.1 a ha
        rw [← hb, e1, e2, klt_irrefl] at this; cases this
      · exact ih h'.2 ha hb

theorem hit_of_mem {ts : List Tree} (h : sorted ts) {t : Tree} (ht : t ∈ ts) : hitOf ts t.prev t.str = some t := by
  match hh : hitOf ts t.prev t.str with
  | none => exact absurd ⟨rfl, rfl⟩ (hitOf_none hh t ht)
  | some u =>
    have hm := List.mem_of_find?_eq_some hh
    have hp := List.find?_some hh
    simp at hp
    rw [key_unique h hm ht hp.1 hp.2]

/-- The cut between the children before the key and the others. -/
theorem cut {ts : List Tree} (h : sorted ts) (c : UInt8) (s : List UInt8) (k : Nat) (hk : k ≤ ts.length)
    (h1 : ∀ i, (hi : i < ts.length) → i < k → klt ts[i].prev ts[i].str c s = true)
    (h2 : ∀ i, (hi : i < ts.length) → k ≤ i → klt c s ts[i].prev ts[i].str = true) :
    hitOf ts c s = none ∧ ts.take k = lo ts c s ∧ ts.drop k = hi ts c s := by
  have a1 : ∀ t ∈ ts.take k, klt t.prev t.str c s = true := by
    intro t ht
    obtain ⟨i, hi, rfl⟩ := List.mem_iff_getElem.1 ht
    simp at hi
    rw [List.getElem_take]
    exact h1 i (by omega) (by omega)
  have a2 : ∀ t ∈ ts.drop k, klt c s t.prev t.str = true := by
    intro t ht
    obtain ⟨i, hi, rfl⟩ := List.mem_iff_getElem.1 ht
    simp at hi
    rw [List.getElem_drop]
    exact h2 (k + i) (by omega) (by omega)
  refine ⟨?_, ?_, ?_⟩
  · match hh : hitOf ts c s with
    | none => rfl
    | some u =>
      have hm := List.mem_of_find?_eq_some hh
      have hp := List.find?_some hh
      simp at hp
      rw [← List.take_append_drop k ts] at hm
      rcases List.mem_append.1 hm with hm | hm
      · have := a1 u hm; rw [hp.1, hp.2, klt_irrefl] at this; cases this
      · have := a2 u hm; rw [hp.1, hp.2, klt_irrefl] at this; cases this
  · unfold lo
    conv => rhs; rw [← List.take_append_drop k ts, List.filter_append]
    rw [List.filter_eq_self (p := Tree.under c s) |>.2 (fun t ht => a1 t ht), List.filter_eq_nil_iff.2, List.append_nil]
    intro t ht hu
    rw [show Tree.under c s t = klt t.prev t.str c s from rfl, klt_asymm (a2 t ht)] at hu; cases hu
  · unfold hi
    conv => rhs; rw [← List.take_append_drop k ts, List.filter_append]
    rw [List.filter_eq_nil_iff.2, List.nil_append, List.filter_eq_self.2]
    · intro t ht
      rw [show Tree.under c s t = klt t.prev t.str c s from rfl, klt_asymm (a2 t ht)]; rfl
    · intro t ht hu
      rw [show Tree.under c s t = klt t.prev t.str c s from rfl, a1 t ht] at hu; cases hu

theorem sorted_lt {ts : List Tree} (h : sorted ts) {i j : Nat} (hi : i < ts.length) (hj : j < ts.length) (hij : i < j) :
    klt ts[i].prev ts[i].str ts[j].prev ts[j].str = true := (List.pairwise_iff_getElem.1 h) i j hi hj hij

theorem bsearch_spec (sb : SB) (ch : List Node) (c : UInt8) (s : List UInt8) (hcell : ∀ n ∈ ch, IsCell sb n.value) (hs : sorted (absL sb ch)) :
    ∀ (fuel b e : Nat), b ≤ e → e ≤ ch.length → e - b < fuel →
    (∀ i, (hi : i < (absL sb ch).length) → i < b → klt (absL sb ch)[i].prev (absL sb ch)[i].str c s = true) →
    (∀ i, (hi : i < (absL sb ch).length) → e ≤ i → klt c s (absL sb ch)[i].prev (absL sb ch)[i].str = true) →
    (∃ t, hitOf (absL sb ch) c s = some t ∧ bsearch sb ch c s fuel b e = .ok (.hit t.ptr)) ∨
    (∃ k, hitOf (absL sb ch) c s = none ∧ bsearch sb ch c s fuel b e = .ok (.miss k) ∧ k ≤ ch.length ∧
      (absL sb ch).take k = lo (absL sb ch) c s ∧ (absL sb ch).drop k = hi (absL sb ch) c s) := by
  have hlen : (absL sb ch).length = ch.length := by rw [absL_map]; simp
  intro fuel
  induction fuel with
  | zero => intro b e _ _ h; omega
  | succ fuel ih =>
    intro b e hbe hel hf h1 h2
    unfold bsearch
    by_cases hlt : b < e
    · rw [if_pos hlt]
      simp only []
      have hmid : (b + e) / 2 < ch.length := by omega
      rw [List.getElem?_eq_getElem hmid]
      simp only []
      have hn : ch[(b + e) / 2] ∈ ch := List.getElem_mem hmid
      have hr := isCell_read (hcell _ hn)
      rw [hr.2, hr.1]
      simp only [Res.ok_bind]
      have ht : (absL sb ch)[(b + e) / 2]'(by omega) = absN sb ch[(b + e) / 2] := by
        simp only [absL_map, List.getElem_map]
      have hm := List.getElem_mem (l := absL sb ch) (n := (b + e) / 2) (by omega)
      have hts : (absN sb ch[(b + e) / 2]).str = rds sb ch[(b + e) / 2].value := by rw [absN_eq]; rfl
      have htp : (absN sb ch[(b + e) / 2]).prev = rdp sb ch[(b + e) / 2].value := by rw [absN_eq]; rfl
      have htq : (absN sb ch[(b + e) / 2]).ptr = ch[(b + e) / 2].value := by rw [absN_eq]; rfl
      rw [← hts, ← htp, ← ht]
      generalize hT : (absL sb ch)[(b + e) / 2]'(by omega) = T at *
      -- the two directions
      have left : klt c s T.prev T.str = true → ∀ i, (hi : i < (absL sb ch).length) → (b + e) / 2 ≤ i → klt c s (absL sb ch)[i].prev (absL sb ch)[i].str = true := by
        intro hk i hi hge
        by_cases he : (b + e) / 2 = i
        · subst he; rw [hT]; exact hk
        · have := sorted_lt hs (i := (b + e) / 2) (j := i) (by omega) hi (by omega)
          rw [hT] at this
          exact klt_trans hk this
      have right : klt T.prev T.str c s = true → ∀ i, (hi : i < (absL sb ch).length) → i < (b + e) / 2 + 1 → klt (absL sb ch)[i].prev (absL sb ch)[i].str c s = true := by
        intro hk i hi hle
        by_cases he : i = (b + e) / 2
        · subst he; rw [hT]; exact hk
        · have := sorted_lt hs (i := i) (j := (b + e) / 2) hi (by omega) (by omega)
          rw [hT] at this
          exact klt_trans this hk
      by_cases hhit : strcmp s T.str = 0 ∧ T.prev = c
      · rw [if_pos hhit]
        left
        refine ⟨T, ?_, ?_⟩
        · have := hit_of_mem hs hm
          rw [← hhit.2, strcmp_eq hhit.1]; exact this
        · rw [ht, htq]
      · rw [if_neg hhit]
        by_cases hp : T.prev = c
        · rw [if_pos hp]
          by_cases hres : strcmp s T.str < 0
          · rw [if_pos hres]
            have hk : klt c s T.prev T.str = true := klt_iff.2 (Or.inr ⟨hp.symm, hres⟩)
            exact ih b ((b + e) / 2) (by omega) (by omega) (by omega) h1 (left hk)
          · rw [if_neg hres]
            have hk : klt T.prev T.str c s = true := by
              rw [klt_iff]; right
              refine ⟨hp, ?_⟩
              have hf := strcmp_flip s T.str
              have : strcmp s T.str ≠ 0 := fun h => hhit ⟨h, hp⟩
              omega
            exact ih ((b + e) / 2 + 1) e (by omega) (by omega) (by omega) (right hk) h2
        · rw [if_neg hp]
          by_cases hz : T.prev < c
          · rw [if_pos hz]
            exact ih b ((b + e) / 2) (by omega) (by omega) (by omega) h1 (left (klt_iff.2 (Or.inl hz)))
          · rw [if_neg hz]
            have hk : c < T.prev := by
              have hne : T.prev.toNat ≠ c.toNat := fun hh => hp (UInt8.toNat.inj hh)
              rw [UInt8.lt_iff_toNat_lt] at *; omega
            exact ih ((b + e) / 2 + 1) e (by omega) (by omega) (by omega) (right (klt_iff.2 (Or.inl hk))) h2
    · rw [if_neg hlt]
      right
      have hbe2 : b = e := by omega
      subst hbe2
      have := cut hs c s b (by omega) h1 h2
      exact ⟨b, this.1, rfl, hel, this.2.1, this.2.2⟩

theorem take_getLast? {α : Type} (l : List α) (k : Nat) (hk : k ≤ l.length) (h0 : k ≠ 0) : (l.take k).getLast? = l[k - 1]? := by
  rw [List.getLast?_eq_getElem?, List.length_take, Nat.min_eq_left hk, List.getElem?_take_of_lt (by omega)]

theorem take_getLast?_zero {α : Type} (l : List α) : (l.take 0).getLast? = none := by simp

theorem commonBytes_spec (sb : SB) (ch : List Node) (s : List UInt8) (hcell : ∀ n ∈ ch, IsCell sb n.value) (k : Nat) (hk : k ≤ ch.length) :
    commonBytes sb ch k s = .ok (match ((absL sb ch).take k).getLast? with
      | none => 0
      | some t => share s t) := by
  unfold commonBytes
  have hlen : (absL sb ch).length = ch.length := by rw [absL_map]; simp
  by_cases h0 : k ≠ 0
  · rw [if_pos h0, take_getLast? _ _ (by omega) h0]
    have hi : k - 1 < ch.length := by omega
    rw [List.getElem?_eq_getElem hi, List.getElem?_eq_getElem (by omega)]
    simp only []
    rw [(isCell_read (hcell _ (List.getElem_mem hi))).2]
    simp only [absL_map, List.getElem_map]
    rw [absN_eq]; rfl
  · rw [if_neg h0]
    have : k = 0 := by omega
    subst this
    rw [take_getLast?_zero]

/-! internal_find_add -/

def slot (p : Ptr) : Ptr := (p.1, p.2 + 1)

theorem find_spec (sb : SB) : ∀ (fuel : Nat) (v : Ptr) (cap : Nat) (ch : List Node) (c : UInt8) (s : List UInt8),
    (∀ w ∈ ptrsL ch, IsCell sb w) → All sorted (absL sb ch) → s.length < fuel →
    internal_find_add fuel sb (.mk v cap ch) c s false = .ok (sb, .mk v cap ch, (look fuel (absL sb ch) c s).map slot) := by
  intro fuel
  induction fuel with
  | zero => intro v cap ch c s _ _ h; omega
  | succ fuel ih =>
    intro v cap ch c s hcell hs hf
    have hc' : ∀ n ∈ ch, IsCell sb n.value := fun n hn => hcell _ (ptrs_mem hn).1
    have hlen : (absL sb ch).length = ch.length := by rw [absL_map]; simp
    rw [internal_find_add]
    rcases bsearch_spec sb ch c s hc' hs.here (ch.length + 1) 0 ch.length (by omega) (Nat.le_refl _) (by omega) (fun i _ h => by omega) (fun i h1 h2 => by omega) with
      ⟨t, hh, e⟩ | ⟨k, hh, e, hk, hlo, hhi⟩
    · rw [e, look_hit hh]; rfl
    · rw [e]
      simp only [Res.ok_bind]
      rw [commonBytes_spec sb ch s hc' k hk, hlo, look_miss hh]
      simp only [Res.ok_bind]
      match hg : (lo (absL sb ch) c s).getLast? with
      | none => rfl
      | some t =>
        simp only []
        by_cases hsh : share s t > 8
        · rw [if_pos hsh, if_pos hsh]
          have h0 : k ≠ 0 := by
            intro h0; rw [h0] at hlo; rw [← hlo] at hg; simp at hg
          rw [← hlo, take_getLast? _ _ (by omega) h0] at hg
          have hi : k - 1 < ch.length := by omega
          rw [List.getElem?_eq_getElem hi]
          simp only []
          rw [List.getElem?_eq_getElem (by omega)] at hg
          simp only [absL_map, List.getElem_map] at hg
          cases hg
          have hn := List.getElem_mem hi
          generalize hN : ch[k - 1] = n at *
          rw [node_eq n]
          have hkids : (absN sb n).kids = absL sb n.children := by rw [absN_eq]; rfl
          have hlen2 := share_le s (absN sb n)
          have hgt := share_gt hsh
          have hll := lcp_le s (absN sb n).str
          have hin : absN sb n ∈ absL sb ch := by rw [absL_map]; exact List.mem_map_of_mem hn
          have := ih n.value n.cap n.children (c + share s (absN sb n)) (s.drop (share s (absN sb n)).toNat)
            (fun w hw => hcell w ((ptrs_mem hn).2 w hw)) (by rw [← hkids]; exact hs.down _ hin) (by simp; omega)
          rw [← node_eq n] at this
          rw [← node_eq n, this]
          simp only [Res.ok_bind]
          rw [← hN, List.set_getElem_self, hN, hkids]
        · rw [if_neg hsh, if_neg hsh]; rfl

theorem bot_suffix : ∀ (fuel : Nat) (ts : List Tree) (c : UInt8) (s : List UInt8), ∃ k, (bot fuel ts c s).2 = s.drop k := by
  intro fuel
  induction fuel with
  | zero => intro ts c s; exact ⟨0, by simp [bot]⟩
  | succ fuel ih =>
    intro ts c s
    unfold bot
    match (lo ts c s).getLast? with
    | none => exact ⟨0, by simp⟩
    | some t =>
      simp only []
      by_cases h : share s t > 8
      · rw [if_pos h]
        obtain ⟨k, hk⟩ := ih t.kids (c + share s t) (s.drop (share s t).toNat)
        exact ⟨_, by rw [hk, List.drop_drop]⟩
      · rw [if_neg h]; exact ⟨0, by simp⟩

/-- What an addition does. -/
theorem add_spec (sb : SB) (hm : MemInv sb) : ∀ (fuel : Nat) (v : Ptr) (cap : Nat) (ch : List Node) (c : UInt8) (s : List UInt8),
    (∀ w ∈ ptrsL ch, IsCell sb w) → All sorted (absL sb ch) → CapOK cap ch → s.length < fuel → 0 ∉ s → s.length + 2 + sb.uds ≤ blockSize →
    (∀ p, look fuel (absL sb ch) c s = some p → internal_find_add fuel sb (.mk v cap ch) c s true = .ok (sb, .mk v cap ch, some (slot p))) ∧
    (look fuel (absL sb ch) c s = none → ∃ sb' cap' ch' p,
      alloc sb (bot fuel (absL sb ch) c s).1 (bot fuel (absL sb ch) c s).2 = .ok (sb', p) ∧
      internal_find_add fuel sb (.mk v cap ch) c s true = .ok (sb', .mk v cap' ch', some (slot p)) ∧
      absL sb' ch' = ins p fuel (absL sb ch) c s ∧ (∀ w, w ∈ ptrsL ch' ↔ w ∈ ptrsL ch ∨ w = p) ∧ CapOK cap' ch') := by
  intro fuel
  induction fuel with
  | zero => intro v cap ch c s _ _ _ h; omega
  | succ fuel ih =>
    intro v cap ch c s hcell hs hcap hf h0s hfit
    have hc' : ∀ n ∈ ch, IsCell sb n.value := fun n hn => hcell _ (ptrs_mem hn).1
    have hlen : (absL sb ch).length = ch.length := by rw [absL_map]; simp
    rcases bsearch_spec sb ch c s hc' hs.here (ch.length + 1) 0 ch.length (by omega) (Nat.le_refl _) (by omega) (fun i _ h => by omega) (fun i h1 h2 => by omega) with
      ⟨t, hh, e⟩ | ⟨k, hh, e, hk, hlo, hhi⟩
    · refine ⟨?_, ?_⟩
      · intro p hp
        rw [look_hit hh] at hp; cases hp
        rw [internal_find_add, e]; rfl
      · intro hl; rw [look_hit hh] at hl; cases hl
    · -- what the frame says about the old nodes
      have frame : ∀ (sb' : SB) (s1 : Nat) (p : Ptr), (∀ w c' s' d', Cell sb w c' s' d' → Cell sb' w c' s' d' ∧ Apart sb.uds w s'.length p s1) →
          ∀ l, (∀ w ∈ ptrsL l, IsCell sb w) → absL sb' l = absL sb l := by
        intro sb' s1 p hfr l hl
        refine abs_frame l (fun w hw => ?_)
        obtain ⟨c2, s2, d2, hc2⟩ := hl w hw
        have h1 := cell_rd hc2
        have h2 := cell_rd (hfr w c2 s2 d2 hc2).1
        rw [h1.1, h1.2, h2.1, h2.2]; exact ⟨rfl, rfl⟩
      have hbs : ∀ b, internal_find_add (fuel + 1) sb (.mk v cap ch) c s b = (do
          let common ← commonBytes sb ch k s
          if common > 8 then
            match ch[k - 1]? with
            | none => .ub
            | some n => do
              let (sb2, n2, r) ← internal_find_add fuel sb n (c + common) (s.drop common.toNat) b
              .ok (sb2, .mk v cap (ch.set (k - 1) n2), r)
          else if b = false then .ok (sb, .mk v cap ch, none)
          else
            let cap := grow cap ch.length
            if ch.length < cap then do
              let (sb2, p) ← alloc sb c s
              .ok (sb2, .mk v cap (ch.take k ++ .mk p 0 [] :: ch.drop k), some (p.1, p.2 + 1))
            else .ub) := by
        intro b; rw [internal_find_add, e]; rfl
      have hcb := commonBytes_spec sb ch s hc' k hk
      rw [hlo] at hcb
      -- the new node is put here
      have here : (∀ t, (lo (absL sb ch) c s).getLast? = some t → ¬ share s t > 8) →
          look (fuel + 1) (absL sb ch) c s = none ∧ (∃ sb' cap' ch' p,
            alloc sb (bot (fuel + 1) (absL sb ch) c s).1 (bot (fuel + 1) (absL sb ch) c s).2 = .ok (sb', p) ∧
            internal_find_add (fuel + 1) sb (.mk v cap ch) c s true = .ok (sb', .mk v cap' ch', some (slot p)) ∧
            absL sb' ch' = ins p (fuel + 1) (absL sb ch) c s ∧ (∀ w, w ∈ ptrsL ch' ↔ w ∈ ptrsL ch ∨ w = p) ∧ CapOK cap' ch') := by
        intro hno
        have hcommon : ∃ cm, commonBytes sb ch k s = .ok cm ∧ ¬ cm > 8 := by
          rw [hcb]
          match hg : (lo (absL sb ch) c s).getLast? with
          | none => exact ⟨0, rfl, by decide⟩
          | some t => exact ⟨_, rfl, hno t hg⟩
        obtain ⟨cm, hcm, hcm8⟩ := hcommon
        obtain ⟨sb', p, ha, hm', hu', hcl, hfr⟩ := alloc_spec sb hm c s h0s hfit
        have hg := grow_ok hcap.here
        have hbot : bot (fuel + 1) (absL sb ch) c s = (c, s) := by
          unfold bot
          match hg : (lo (absL sb ch) c s).getLast? with
          | none => rfl
          | some t => simp only []; rw [if_neg (hno t hg)]
        have hlook : look (fuel + 1) (absL sb ch) c s = none := by
          rw [look_miss hh]
          match hg : (lo (absL sb ch) c s).getLast? with
          | none => rfl
          | some t => simp only []; rw [if_neg (hno t hg)]
        refine ⟨hlook, sb', grow cap ch.length, ch.take k ++ .mk p 0 [] :: ch.drop k, p, by rw [hbot]; exact ha, ?_, ?_, ?_, ?_⟩
        · rw [hbs true, hcm]
          simp only [Res.ok_bind]
          rw [if_neg hcm8, if_neg (by simp), if_pos hg.1, ha]
          rfl
        · have hr := cell_rd hcl
          have hin : ins p (fuel + 1) (absL sb ch) c s = (absL sb ch).take k ++ .mk p c s [] :: (absL sb ch).drop k := by
            rw [hlo, hhi]
            unfold ins
            rw [hh]
            simp only []
            match hg : (lo (absL sb ch) c s).getLast? with
            | none =>
              simp only []
              rw [List.getLast?_eq_none_iff.1 hg]; rfl
            | some t => simp only []; rw [if_neg (hno t hg)]
          rw [hin, ← frame sb' s.length p hfr ch hcell]
          simp only [absL_map, List.map_append, List.map_cons, List.map_take, List.map_drop]
          rw [absN_eq]
          simp only [Node.value, Node.children, hr.1, hr.2]; rfl
        · intro w
          rw [ptrsL_flatMap, ptrsL_flatMap]
          have : ch.flatMap ptrsN = (ch.take k).flatMap ptrsN ++ (ch.drop k).flatMap ptrsN := by rw [← List.flatMap_append, List.take_append_drop]
          rw [this]
          simp only [List.flatMap_append, List.flatMap_cons, ptrsN, ptrsL, List.mem_append, List.mem_cons, List.not_mem_nil, or_false]
          constructor
          · rintro (h | h | h)
            · exact .inl (.inl h)
            · exact .inr h
            · exact .inl (.inr h)
          · rintro ((h | h) | h)
            · exact .inl h
            · exact .inr (.inr h)
            · exact .inr (.inl h)
        · refine ⟨_, _, ?_, ?_⟩
          · have : (ch.take k ++ Node.mk p 0 [] :: ch.drop k).length = ch.length + 1 := by simp; omega
            rw [this]; exact hg.2
          · intro n hn
            simp only [List.mem_append, List.mem_cons] at hn
            rcases hn with hn | hn | hn
            · exact hcap.down n (List.mem_of_mem_take hn)
            · subst hn; exact ⟨_, _, Or.inl rfl, fun n hn => absurd hn List.not_mem_nil⟩
            · exact hcap.down n (List.mem_of_mem_drop hn)
      match hg : (lo (absL sb ch) c s).getLast? with
      | none =>
        have := here (fun t ht => by rw [hg] at ht; cases ht)
        refine ⟨?_, fun _ => this.2⟩
        intro p hp; rw [this.1] at hp; cases hp
      | some t =>
        by_cases hsh : share s t > 8
        · have hlk : look (fuel + 1) (absL sb ch) c s = look fuel t.kids (c + share s t) (s.drop (share s t).toNat) := by
            rw [look_miss hh, hg]; simp only []; rw [if_pos hsh]
          have hbt : bot (fuel + 1) (absL sb ch) c s = bot fuel t.kids (c + share s t) (s.drop (share s t).toNat) := by
            unfold bot; rw [hg]; simp only []; rw [if_pos hsh]
            cases fuel <;> rfl
          have hin : ∀ p, ins p (fuel + 1) (absL sb ch) c s = ((absL sb ch).take k).dropLast ++
              .mk t.ptr t.prev t.str (ins p fuel t.kids (c + share s t) (s.drop (share s t).toNat)) :: (absL sb ch).drop k := by
            intro p
            rw [ins, hh]
            simp only []
            rw [hg]
            simp only []
            rw [if_pos hsh, hlo, hhi]
          have h0 : k ≠ 0 := by
            intro h0; rw [h0] at hlo; rw [← hlo] at hg; simp at hg
          have hg2 := hg
          rw [← hlo, take_getLast? _ _ (by omega) h0] at hg2
          have hi : k - 1 < ch.length := by omega
          rw [List.getElem?_eq_getElem (by omega)] at hg2
          simp only [absL_map, List.getElem_map] at hg2
          have hn := List.getElem_mem hi
          have hca : ch[k - 1]? = some ch[k - 1] := List.getElem?_eq_getElem hi
          have hch : ch = ch.take (k - 1) ++ ch[k - 1] :: ch.drop k := by
            have h1 : ch.drop (k - 1) = ch[k - 1] :: ch.drop k := by
              rw [List.drop_eq_getElem_cons hi]
              congr 2; omega
            rw [← h1, List.take_append_drop]
          have hset : ∀ n2, ch.set (k - 1) n2 = ch.take (k - 1) ++ n2 :: ch.drop k := by
            intro n2
            rw [List.set_eq_take_append_cons_drop, if_pos hi]
            congr 3; omega
          generalize hN : ch[k - 1] = n at *
          have hte : absN sb n = t := by injection hg2
          have hkids : t.kids = absL sb n.children := by rw [← hte, absN_eq]; rfl
          have hlen2 := share_le s t
          have hgt := share_gt hsh
          have hll := lcp_le s t.str
          have hint : t ∈ absL sb ch := by rw [absL_map, ← hte]; exact List.mem_map_of_mem hn
          have ihx := ih n.value n.cap n.children (c + share s t) (s.drop (share s t).toNat)
            (fun w hw => hcell w ((ptrs_mem hn).2 w hw)) (by rw [← hkids]; exact hs.down _ hint) (hcap.down n hn) (by simp; omega)
            (fun h => h0s (List.mem_of_mem_drop h)) (by simp; omega)
          rw [← node_eq n, ← hkids] at ihx
          rw [hg] at hcb
          simp only [] at hcb
          refine ⟨?_, ?_⟩
          · intro p hp
            rw [hlk] at hp
            rw [hbs true, hcb]
            simp only [Res.ok_bind]
            rw [if_pos hsh, hca]
            simp only []
            rw [ihx.1 p hp]
            simp only [Res.ok_bind]
            rw [hset, ← hch]
          · intro hl
            rw [hlk] at hl
            obtain ⟨sb', cap', ch', p, a1, a2, a3, a4, a5⟩ := ihx.2 hl
            refine ⟨sb', cap, ch.set (k - 1) (.mk n.value cap' ch'), p, by rw [hbt]; exact a1, ?_, ?_, ?_, ?_⟩
            · rw [hbs true, hcb]
              simp only [Res.ok_bind]
              rw [if_pos hsh, hca]
              simp only []
              rw [a2]
              rfl
            · -- memory outside of the new cell is as before
              obtain ⟨kk, hkk⟩ := bot_suffix fuel t.kids (c + share s t) (s.drop (share s t).toNat)
              obtain ⟨sb2, p2, b1, b2, b3, b4, b5⟩ := alloc_spec sb hm (bot fuel t.kids (c + share s t) (s.drop (share s t).toNat)).1
                (bot fuel t.kids (c + share s t) (s.drop (share s t).toNat)).2
                (by rw [hkk, List.drop_drop]; exact fun h => h0s (List.mem_of_mem_drop h)) (by rw [hkk]; simp; omega)
              rw [a1] at b1
              cases b1
              have fr := frame sb' _ p b5
              have e1 : absL sb' (ch.take (k - 1)) = absL sb (ch.take (k - 1)) := fr _ (fun w hw => hcell w (by
                rw [hch, ptrsL_flatMap, List.flatMap_append, ← ptrsL_flatMap]; simp [hw]))
              have e2 : absL sb' (ch.drop k) = absL sb (ch.drop k) := fr _ (fun w hw => hcell w (by
                rw [hch, ptrsL_flatMap, List.flatMap_append, List.flatMap_cons, ← ptrsL_flatMap, ← ptrsL_flatMap]; simp [hw]))
              have e3 : rdp sb' n.value = t.prev ∧ rds sb' n.value = t.str := by
                obtain ⟨c2, s2, d2, hc2⟩ := hc' n hn
                have h1 := cell_rd hc2
                have h2 := cell_rd (b5 n.value c2 s2 d2 hc2).1
                rw [h2.1, h2.2, ← h1.1, ← h1.2, ← hte, absN_eq]; exact ⟨rfl, rfl⟩
              have e4 : t.ptr = n.value := by rw [← hte, absN_eq]; rfl
              rw [hin, hset]
              rw [absL_map, List.map_append, List.map_cons, ← absL_map, ← absL_map, e1, e2, absN_eq]
              have q1 : (Node.mk n.value cap' ch').value = n.value := rfl
              have q2 : (Node.mk n.value cap' ch').children = ch' := rfl
              rw [q1, q2, e3.1, e3.2, a3, ← e4]
              congr 1
              · rw [List.dropLast_eq_take, List.take_take, absL_map, absL_map, List.map_take]
                congr 1
                simp; omega
              · congr 1
                rw [absL_map, absL_map, List.map_drop]
            · intro w
              rw [hset]
              have : ptrsL ch = ptrsL (ch.take (k - 1)) ++ (n.value :: ptrsL n.children) ++ ptrsL (ch.drop k) := by
                conv => lhs; rw [hch]
                rw [ptrsL_flatMap, List.flatMap_append, List.flatMap_cons, ← ptrsL_flatMap, ← ptrsL_flatMap, ptrsN_eq]; simp
              rw [this, ptrsL_flatMap, List.flatMap_append, List.flatMap_cons, ← ptrsL_flatMap, ← ptrsL_flatMap]
              simp only [ptrsN, List.mem_append, List.mem_cons, a4 w]
              constructor
              · rintro (h | (h | h | h) | h)
                · exact .inl (.inl (.inl h))
                · exact .inl (.inl (.inr (.inl h)))
                · exact .inl (.inl (.inr (.inr h)))
                · exact .inr h
                · exact .inl (.inr h)
              · rintro (((h | h | h) | h) | h)
                · exact .inl h
                · exact .inr (.inl (.inl h))
                · exact .inr (.inl (.inr (.inl h)))
                · exact .inr (.inr h)
                · exact .inr (.inl (.inr (.inr h)))
            · refine ⟨_, _, by rw [List.length_set]; exact hcap.here, ?_⟩
              intro m hmm
              rcases List.mem_or_eq_of_mem_set hmm with hmm | hmm
              · exact hcap.down m hmm
              · subst hmm; exact a5
        · have := here (fun u hu => by rw [hg] at hu; cases hu; exact hsh)
          refine ⟨?_, fun _ => this.2⟩
          intro p hp; rw [this.1] at hp; cases hp

end Verif.StrStore
