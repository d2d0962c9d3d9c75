import Verif.StrStore.Refine
import Verif.StrStore.Hist
set_option linter.unusedSimpArgs false
set_option linter.unusedVariables false

namespace Verif.StrStore

def St.tree (st : St) : List Tree := absL st.sb st.root.children
def St.ptrs (st : St) : List Ptr := ptrsL st.root.children

structure Inv (st : St) : Prop where
  mem : MemInv st.sb
  cells : ∀ w ∈ st.ptrs, IsCell st.sb w
  sep : ∀ v ∈ st.ptrs, ∀ w ∈ st.ptrs, v ≠ w → Apart st.sb.uds v (rds st.sb v).length w (rds st.sb w).length
  cap : CapOK st.root.cap st.root.children
  sorted : All sorted st.tree
  zero : ∀ t ∈ st.tree, t.prev = 0

theorem apart_symm {uds : Nat} {v w : Ptr} {m n : Nat} (h : Apart uds v m w n) : Apart uds w n v m := by
  unfold Apart at *
  rcases h with h | h | h
  · exact .inl (fun e => h e.symm)
  · exact .inr (.inr h)
  · exact .inr (.inl h)

theorem slot_inj {p q : Ptr} (h : slot p = slot q) : p = q := by
  unfold slot at h
  have h1 := congrArg Prod.fst h
  have h2 := congrArg Prod.snd h
  simp at h1 h2
  exact Prod.ext h1 h2

theorem init_inv (uds : Nat) : Inv (St.init uds) := by
  refine ⟨⟨?_, Nat.zero_le _, Or.inl rfl, ?_⟩, ?_, ?_, ⟨_, _, Or.inl rfl, fun n hn => absurd hn List.not_mem_nil⟩,
    ⟨_, List.Pairwise.nil, fun n hn => absurd hn List.not_mem_nil⟩, fun n hn => absurd hn List.not_mem_nil⟩
  · intro b hb; exact absurd hb List.not_mem_nil
  · intro b hb; simp [St.init, initSB] at hb
  · intro b hb; exact absurd hb List.not_mem_nil
  · intro b hb; exact absurd hb List.not_mem_nil

theorem find_inv {st : St} (h : Inv st) (x : List UInt8) :
    string_storage_find st.sb st.root x = .ok (st.sb, st.root, (look (x.length + 1) st.tree 0 x).map slot) := by
  have := find_spec st.sb (x.length + 1) st.root.value st.root.cap st.root.children 0 x h.cells h.sorted (by omega)
  rw [← node_eq] at this
  exact this

theorem ins_zero (p : Ptr) (fuel : Nat) (ts : List Tree) (s : List UInt8) (hs : sorted ts) (h : ∀ t ∈ ts, t.prev = 0) :
    ∀ t ∈ ins p fuel ts 0 s, t.prev = 0 := by
  cases fuel with
  | zero => exact h
  | succ fuel =>
    match hh : hitOf ts 0 s with
    | some t => simp only [ins, hh]; exact h
    | none =>
      rcases ins_cases p fuel ts 0 s hs hh with ⟨l, r, e, _, _, _, hi, _⟩ | ⟨l, t, r, e, _, _, _, _, hi, _⟩
      · rw [hi]
        intro u hu
        rw [e] at h
        simp only [List.mem_append, List.mem_cons] at hu
        rcases hu with hu | hu | hu
        · exact h u (by simp [hu])
        · subst hu; rfl
        · exact h u (by simp [hu])
      · rw [hi]
        intro u hu
        rw [e] at h
        simp only [List.mem_append, List.mem_cons] at hu
        rcases hu with hu | hu | hu
        · exact h u (by simp [hu])
        · subst hu; exact h t (by simp)
        · exact h u (by simp [hu])

/-- Additions from a good state. -/
theorem add_inv {st : St} (h : Inv st) (x : List UInt8) (h0 : 0 ∉ x) (hfit : x.length + 2 + st.sb.uds ≤ blockSize) :
    (∀ p, look (x.length + 1) st.tree 0 x = some p → string_storage_add st.sb st.root x = .ok (st.sb, st.root, some (slot p))) ∧
    (look (x.length + 1) st.tree 0 x = none → ∃ sb' root' p, string_storage_add st.sb st.root x = .ok (sb', root', some (slot p)) ∧
      Inv ⟨sb', root'⟩ ∧ sb'.uds = st.sb.uds ∧ (⟨sb', root'⟩ : St).tree = ins p (x.length + 1) st.tree 0 x ∧
      (∀ w, w ∈ (⟨sb', root'⟩ : St).ptrs ↔ w ∈ st.ptrs ∨ w = p) ∧ p ∉ st.ptrs ∧ userRead sb' (slot p) = .ok (List.replicate st.sb.uds 0) ∧
      (∀ w ∈ st.ptrs, userRead sb' (slot w) = userRead st.sb (slot w))) := by
  have hadd : string_storage_add st.sb st.root x = internal_find_add (x.length + 1) st.sb st.root 0 x true := by
    unfold string_storage_add; rw [if_neg (by omega)]
  have hsp := add_spec st.sb h.mem (x.length + 1) st.root.value st.root.cap st.root.children 0 x h.cells h.sorted h.cap (by omega) h0 hfit
  rw [← node_eq] at hsp
  rw [hadd]
  refine ⟨hsp.1, ?_⟩
  intro hl
  obtain ⟨sb', cap', ch', p, a1, a2, a3, a4, a5⟩ := hsp.2 hl
  obtain ⟨kk, hkk⟩ := bot_suffix (x.length + 1) (absL st.sb st.root.children) 0 x
  obtain ⟨sb2, p2, b1, b2, b3, b4, b5⟩ := alloc_spec st.sb h.mem (bot (x.length + 1) (absL st.sb st.root.children) 0 x).1
    (bot (x.length + 1) (absL st.sb st.root.children) 0 x).2 (by rw [hkk]; exact fun h => h0 (List.mem_of_mem_drop h)) (by rw [hkk]; simp; omega)
  rw [a1] at b1
  cases b1
  have keep : ∀ w ∈ st.ptrs, rdp sb' w = rdp st.sb w ∧ rds sb' w = rds st.sb w ∧ IsCell sb' w ∧ userRead sb' (slot w) = userRead st.sb (slot w) ∧
      Apart st.sb.uds w (rds st.sb w).length p (rds sb' p).length := by
    intro w hw
    obtain ⟨c, s, d, hc⟩ := h.cells w hw
    have hc2 := b5 w c s d hc
    have r1 := cell_rd hc
    have r2 := cell_rd hc2.1
    have r3 := cell_rd b4
    refine ⟨by rw [r1.1, r2.1], by rw [r1.2, r2.2], ⟨c, s, d, hc2.1⟩, ?_, by rw [r1.2, r3.2]; exact hc2.2⟩
    unfold slot
    rw [cell_data hc, cell_data hc2.1]
  have hcp : IsCell sb' p := ⟨_, _, _, b4⟩
  refine ⟨sb', .mk st.root.value cap' ch', p, a2, ⟨b2, ?_, ?_, a5, ?_, ?_⟩, b3, a3, a4, ?_, cell_data b4, fun w hw => (keep w hw).2.2.2.1⟩
  · intro w hw
    rcases (a4 w).1 hw with hw | hw
    · exact (keep w hw).2.2.1
    · rw [hw]; exact hcp
  · intro v hv w hw hne
    simp only [b3]
    rcases (a4 v).1 hv with hv | hv
    · rw [(keep v hv).2.1]
      rcases (a4 w).1 hw with hw | hw
      · rw [(keep w hw).2.1]; exact h.sep v hv w hw hne
      · rw [hw]; exact (keep v hv).2.2.2.2
    · rcases (a4 w).1 hw with hw | hw
      · rw [(keep w hw).2.1, hv]; exact apart_symm (keep w hw).2.2.2.2
      · exact absurd (hv.trans hw.symm) hne
  · show All sorted (absL sb' ch')
    rw [a3]; exact ins_sorted p _ _ _ _ h.sorted
  · show ∀ t ∈ absL sb' ch', t.prev = 0
    rw [a3]; exact ins_zero p _ _ _ h.sorted.here h.zero
  · intro hp
    have := (keep p hp).2.2.2.2
    unfold Apart at this
    omega

theorem put_inv {st : St} (h : Inv st) {w : Ptr} (hw : w ∈ st.ptrs) (d : List UInt8) (hd : d.length ≤ st.sb.uds) :
    ∃ sb' o, userWrite st.sb (slot w) d = .ok sb' ∧ Inv ⟨sb', st.root⟩ ∧ sb'.uds = st.sb.uds ∧ (⟨sb', st.root⟩ : St).tree = st.tree ∧
      userRead st.sb (slot w) = .ok o ∧ userRead sb' (slot w) = .ok (d ++ o.drop d.length) ∧
      (∀ v ∈ st.ptrs, v ≠ w → userRead sb' (slot v) = userRead st.sb (slot v)) := by
  obtain ⟨c, s, o, hc⟩ := h.cells w hw
  obtain ⟨sb', a1, a2, a3, a4, a5⟩ := userWrite_spec st.sb h.mem w c s o d hc hd
  have keep : ∀ v ∈ st.ptrs, v ≠ w → ∃ c s d, Cell st.sb v c s d ∧ Cell sb' v c s d := by
    intro v hv hne
    obtain ⟨c', s', d', hc'⟩ := h.cells v hv
    have hs := h.sep v hv w hw hne
    rw [(cell_rd hc').2, (cell_rd hc).2] at hs
    exact ⟨c', s', d', hc', a5 v c' s' d' hc' hs⟩
  have same : ∀ v ∈ st.ptrs, rdp sb' v = rdp st.sb v ∧ rds sb' v = rds st.sb v ∧ IsCell sb' v := by
    intro v hv
    by_cases hne : v = w
    · rw [hne, (cell_rd hc).1, (cell_rd hc).2, (cell_rd a4).1, (cell_rd a4).2]
      exact ⟨rfl, rfl, ⟨_, _, _, a4⟩⟩
    · obtain ⟨c', s', d', h1, h2⟩ := keep v hv hne
      rw [(cell_rd h1).1, (cell_rd h1).2, (cell_rd h2).1, (cell_rd h2).2]
      exact ⟨rfl, rfl, ⟨_, _, _, h2⟩⟩
  have htree : absL sb' st.root.children = absL st.sb st.root.children := abs_frame _ (fun v hv => ⟨(same v hv).1, (same v hv).2.1⟩)
  refine ⟨sb', o, a1, ⟨a2, fun v hv => (same v hv).2.2, ?_, h.cap, ?_, ?_⟩, a3, htree, cell_data hc, cell_data a4, ?_⟩
  · intro v hv u hu hne
    simp only [a3, (same v hv).2.1, (same u hu).2.1]
    exact h.sep v hv u hu hne
  · show All sorted (absL sb' st.root.children)
    rw [htree]; exact h.sorted
  · show ∀ t ∈ absL sb' st.root.children, t.prev = 0
    rw [htree]; exact h.zero
  · intro v hv hne
    obtain ⟨c', s', d', h1, h2⟩ := keep v hv hne
    unfold slot
    rw [cell_data h1, cell_data h2]

theorem look_ptr (sb : SB) : ∀ (fuel : Nat) (ch : List Node) (c : UInt8) (s : List UInt8) (p : Ptr), look fuel (absL sb ch) c s = some p → p ∈ ptrsL ch := by
  intro fuel
  induction fuel with
  | zero => intro ch c s p h; cases h
  | succ fuel ih =>
    intro ch c s p h
    match hh : hitOf (absL sb ch) c s with
    | some t =>
      rw [look_hit hh] at h; cases h
      have hm := List.mem_of_find?_eq_some hh
      rw [absL_map] at hm
      obtain ⟨n, hn, rfl⟩ := List.mem_map.1 hm
      rw [absN_eq]; exact (ptrs_mem hn).1
    | none =>
      rw [look_miss hh] at h
      match hg : (lo (absL sb ch) c s).getLast? with
      | none => rw [hg] at h; cases h
      | some t =>
        rw [hg] at h
        simp only [] at h
        have hm := (lo_below (List.mem_of_getLast? hg)).1
        rw [absL_map] at hm
        obtain ⟨n, hn, rfl⟩ := List.mem_map.1 hm
        by_cases hk : share s (absN sb n) > 8
        · rw [if_pos hk] at h
          have hkids : (absN sb n).kids = absL sb n.children := by rw [absN_eq]; rfl
          rw [hkids] at h
          exact (ptrs_mem hn).2 _ (ih _ _ _ _ h)
        · rw [if_neg hk] at h; cases h

/-! Enumeration -/

/-- Three writes that fill the buffer of a key. -/
theorem key_fill (pre mid : List UInt8) (h : pre.length + mid.length = 255) : (do
    let buf ← memcpy (List.replicate 256 1) 0 pre
    let buf ← memcpy buf pre.length mid
    wr buf 255 0) = .ok (pre ++ mid ++ [0]) := by
  have e0 : (List.replicate 256 (1 : UInt8)) = [] ++ List.replicate pre.length 1 ++ (List.replicate mid.length 1 ++ [1]) := by
    rw [List.nil_append, ← List.append_assoc, List.replicate_append_replicate, h, ← List.replicate_succ']
  have e1 : patch (List.replicate 256 (1 : UInt8)) 0 pre = pre ++ List.replicate mid.length 1 ++ [1] := by
    rw [e0]
    have := patch_at (pre := []) (mid := List.replicate pre.length 1) (post := List.replicate mid.length 1 ++ [1]) (e := pre) (by simp)
    rw [List.length_nil] at this
    rw [this]; simp
  have e2 : patch (pre ++ List.replicate mid.length 1 ++ [1]) pre.length mid = pre ++ mid ++ [1] := patch_at (by simp)
  have e3 : patch (pre ++ mid ++ [1]) 255 [0] = pre ++ mid ++ [0] := by
    have := patch_at (pre := pre ++ mid) (mid := [1]) (post := []) (e := [0]) rfl
    rw [List.length_append, h, List.append_nil, List.append_nil] at this
    exact this
  have m1 : memcpy (List.replicate 256 1) 0 pre = .ok (pre ++ List.replicate mid.length 1 ++ [1]) := by
    unfold memcpy; rw [if_pos (by rw [List.length_replicate]; omega), e1]
  have m2 : memcpy (pre ++ List.replicate mid.length 1 ++ [1]) pre.length mid = .ok (pre ++ mid ++ [1]) := by
    unfold memcpy; rw [if_pos (by simp), e2]
  rw [m1, Res.ok_bind, m2, Res.ok_bind, wr_eq (by simp; omega), e3]

mutual
theorem enum_okN (sb : SB) : ∀ (n : Node) (b : Buf), b.length = 256 → (∀ w ∈ ptrsN n, IsCell sb w) → ∃ l, enumNode sb (some b) n = .ok l
  | .mk v c ch, b, hb, h => by
    rw [enumNode]
    exact enum_okL sb ch (some b) (fun _ e => by cases e; exact hb) (fun e => by cases e) (fun w hw => h w (by rw [ptrsN]; simp [hw]))
theorem enum_okL (sb : SB) : ∀ (l : List Node) (par : Option Buf), (∀ b, par = some b → b.length = 256) → (par = none → ∀ n ∈ l, rdp sb n.value = 0) →
    (∀ w ∈ ptrsL l, IsCell sb w) → ∃ r, enumList sb par l = .ok r
  | [], _, _, _, _ => ⟨[], by rw [enumList]⟩
  | n :: ns, par, hb, h0, h => by
    rw [ptrsL] at h
    have hn : IsCell sb n.value := h _ (by rw [ptrsN_eq]; simp)
    have hr := isCell_read hn
    obtain ⟨pre, hpre, hpl⟩ : ∃ pre, (match par with
        | some b => if (rdp sb n.value).toNat ≤ b.length then Res.ok (b.take (rdp sb n.value).toNat) else .ub
        | none => if rdp sb n.value = 0 then .ok [] else .ub) = .ok pre ∧ pre.length = (rdp sb n.value).toNat := by
      cases par with
      | none => simp only []; rw [if_pos (h0 rfl n (by simp)), h0 rfl n (by simp)]; exact ⟨[], rfl, rfl⟩
      | some b =>
        simp only []
        have := hb b rfl
        have h2 := (rdp sb n.value).toNat_lt
        rw [if_pos (by omega)]
        exact ⟨_, rfl, by simp; omega⟩
    have hkey : ∃ buf, keyBuf sb par n.value = .ok (buf ++ [0]) ∧ buf.length = 255 := by
      have fill := key_fill pre ((rds sb n.value).take (255 - (rdp sb n.value).toNat) ++ List.replicate (255 - (rdp sb n.value).toNat - (rds sb n.value).length) 0)
        (by have h2 := (rdp sb n.value).toNat_lt
            simp; omega)
      rw [hpl] at fill
      refine ⟨pre ++ ((rds sb n.value).take (255 - (rdp sb n.value).toNat) ++ List.replicate (255 - (rdp sb n.value).toNat - (rds sb n.value).length) 0), ?_, ?_⟩
      · unfold keyBuf
        rw [hr.1, hr.2]
        simp only [Res.ok_bind]
        cases par with
        | none =>
          by_cases hz : rdp sb n.value = 0
          · simp only [if_pos hz] at hpre ⊢; cases hpre; exact fill
          · simp only [if_neg hz] at hpre; cases hpre
        | some b =>
          by_cases hz : (rdp sb n.value).toNat ≤ b.length
          · simp only [if_pos hz] at hpre ⊢; cases hpre; exact fill
          · simp only [if_neg hz] at hpre; cases hpre
      · have h2 := (rdp sb n.value).toNat_lt
        simp; omega
    obtain ⟨buf, hbuf, hlen⟩ := hkey
    have hcs : ∃ key, cstr (buf ++ [0]) = .ok key := by
      clear hbuf hlen
      induction buf with
      | nil => exact ⟨[], rfl⟩
      | cons a buf ih =>
        obtain ⟨k, hk⟩ := ih
        simp only [List.cons_append, cstr]
        by_cases ha : a = 0
        · rw [if_pos ha]; exact ⟨_, rfl⟩
        · rw [if_neg ha, hk]; exact ⟨_, rfl⟩
    obtain ⟨key, hkey⟩ := hcs
    obtain ⟨l1, e1⟩ := enum_okN sb n (buf ++ [0]) (by simp [hlen]) (fun w hw => h w (by simp [hw]))
    obtain ⟨l2, e2⟩ := enum_okL sb ns par hb (fun e m hm => h0 e m (by simp [hm])) (fun w hw => h w (by simp [hw]))
    refine ⟨(key, (n.value.1, n.value.2 + 1)) :: l1 ++ l2, ?_⟩
    rw [enumList, hbuf]
    simp only [Res.ok_bind]
    rw [hkey]
    simp only [Res.ok_bind]
    rw [e1]
    simp only [Res.ok_bind]
    rw [e2]; rfl
end

/-- Nodes begin where their parent ends at most, and keys have at most 255 bytes. -/
inductive KOK : Nat → List Tree → Prop where
  | mk (n : Nat) (ts : List Tree) : (∀ t ∈ ts, t.prev.toNat ≤ n ∧ t.prev.toNat + t.str.length ≤ 255) →
    (∀ t ∈ ts, KOK (t.prev.toNat + t.str.length) t.kids) → KOK n ts

theorem KOK.here {n ts} (h : KOK n ts) : ∀ t ∈ ts, t.prev.toNat ≤ n ∧ t.prev.toNat + t.str.length ≤ 255 := by cases h; assumption
theorem KOK.down {n ts} (h : KOK n ts) : ∀ t ∈ ts, KOK (t.prev.toNat + t.str.length) t.kids := by cases h; assumption

variable {S : List UInt8 → Prop}

theorem ins_kok (hn : NoShift S) (hs : Short S) (p : Ptr) : ∀ (fuel : Nat) (ts : List Tree) (n : Nat) (c : UInt8) (s : List UInt8),
    All sorted ts → All (Fact S) ts → Of S c s → KOK n ts → c.toNat ≤ n → KOK n (ins p fuel ts c s) := by
  intro fuel
  induction fuel with
  | zero => intro ts n c s _ _ _ h _; exact h
  | succ fuel ih =>
    intro ts n c s hsd hf ho h hc
    match hh : hitOf ts c s with
    | some t => simp only [ins, hh]; exact h
    | none =>
      have hl := of_len hs ho
      rcases ins_cases p fuel ts c s hsd.here hh with ⟨l, r, e, _, _, _, hi, _⟩ | ⟨l, t, r, e, _, _, _, hk, hi, _⟩
      · rw [hi]
        subst e
        refine ⟨_, _, ?_, ?_⟩
        · intro u hu
          simp only [List.mem_append, List.mem_cons] at hu
          rcases hu with hu | hu | hu
          · exact h.here u (by simp [hu])
          · subst hu; exact ⟨hc, by simp only [Tree.prev, Tree.str]; omega⟩
          · exact h.here u (by simp [hu])
        · intro u hu
          simp only [List.mem_append, List.mem_cons] at hu
          rcases hu with hu | hu | hu
          · exact h.down u (by simp [hu])
          · subst hu; exact ⟨_, _, fun t ht => absurd ht List.not_mem_nil, fun t ht => absurd ht List.not_mem_nil⟩
          · exact h.down u (by simp [hu])
      · rw [hi]
        subst e
        have htm : t ∈ l ++ t :: r := by simp
        have hst := of_step hs ho t
        have hsp := same_prev hn hs ho (hf.here t htm) hk
        have hlc := lcp_le t.str s
        rw [lcp_comm] at hlc
        refine ⟨_, _, ?_, ?_⟩
        · intro u hu
          simp only [List.mem_append, List.mem_cons] at hu
          rcases hu with hu | hu | hu
          · exact h.here u (by simp [hu])
          · subst hu; exact h.here t htm
          · exact h.here u (by simp [hu])
        · intro u hu
          simp only [List.mem_append, List.mem_cons] at hu
          rcases hu with hu | hu | hu
          · exact h.down u (by simp [hu])
          · subst hu
            exact ih t.kids _ _ _ (hsd.down t htm) (hf.down t htm) hst.1 (h.down t htm) (by rw [hst.2]; show _ ≤ t.prev.toNat + t.str.length; rw [hsp]; omega)
          · exact h.down u (by simp [hu])

/-- The buffer of a key. -/
def keyPad (F : List UInt8) : Buf := F ++ List.replicate (256 - F.length) 0

theorem keyPad_cstr {F : List UInt8} (h0 : 0 ∉ F) (hl : F.length ≤ 255) : cstr (keyPad F) = .ok F := by
  unfold keyPad
  rw [show 256 - F.length = (255 - F.length) + 1 by omega, List.replicate_succ]
  exact cstr_eq F _ h0

mutual
theorem enum_specN (sb : SB) : ∀ (n : Node) (F : List UInt8), (∀ w ∈ ptrsL n.children, IsCell sb w) → KOK F.length (absL sb n.children) → 0 ∉ F → F.length ≤ 255 →
    enumNode sb (some (keyPad F)) n = .ok (enumTs F (absL sb n.children))
  | .mk v c ch, F, h, hk, h0, hl => by
    rw [enumNode]
    exact enum_specL sb ch F (some (keyPad F)) h hk h0 hl (fun _ => rfl) (fun e => by cases e)
theorem enum_specL (sb : SB) : ∀ (l : List Node) (F : List UInt8) (par : Option Buf), (∀ w ∈ ptrsL l, IsCell sb w) → KOK F.length (absL sb l) → 0 ∉ F → F.length ≤ 255 →
    (par.isSome = true → par = some (keyPad F)) → (par = none → F = []) →
    enumList sb par l = .ok (enumTs F (absL sb l))
  | [], _, _, _, _, _, _, _, _ => by rw [enumList, absL, enumTs]
  | n :: ns, F, par, h, hk, h0, hl, hp1, hp2 => by
    rw [ptrsL] at h
    have hcn : IsCell sb n.value := h _ (by rw [ptrsN_eq]; simp)
    have hr := isCell_read hcn
    have hs0 : 0 ∉ rds sb n.value := by
      obtain ⟨c, s, d, hc⟩ := hcn
      rw [(cell_rd hc).2]
      obtain ⟨_, _, _, _, _, h0, _⟩ := hc
      exact h0
    have hmem : absN sb n ∈ absL sb (n :: ns) := by rw [absL]; simp
    have hh := hk.here _ hmem
    have hd := hk.down _ hmem
    rw [absN_eq] at hh hd
    simp only [Tree.prev, Tree.str, Tree.kids] at hh hd
    generalize hG : F.take (rdp sb n.value).toNat ++ rds sb n.value = G at *
    have hGl : G.length = (rdp sb n.value).toNat + (rds sb n.value).length := by rw [← hG]; simp; omega
    have hG0 : 0 ∉ G := by
      rw [← hG]
      intro hm
      rcases List.mem_append.1 hm with hm | hm
      · exact h0 (List.mem_of_mem_take hm)
      · exact hs0 hm
    have hbuf : keyBuf sb par n.value = .ok (keyPad G) := by
      have hpad : F.take (rdp sb n.value).toNat ++ (rds sb n.value).take (255 - (rdp sb n.value).toNat) ++
          List.replicate (255 - (rdp sb n.value).toNat - (rds sb n.value).length) 0 ++ [0] = keyPad G := by
        rw [List.take_of_length_le (l := rds sb n.value) (by omega), hG]
        unfold keyPad
        rw [List.append_assoc]
        congr 1
        rw [show 256 - G.length = (255 - (rdp sb n.value).toNat - (rds sb n.value).length) + 1 by omega, List.replicate_succ']
      have fill := key_fill (F.take (rdp sb n.value).toNat) ((rds sb n.value).take (255 - (rdp sb n.value).toNat) ++
        List.replicate (255 - (rdp sb n.value).toNat - (rds sb n.value).length) 0) (by simp; omega)
      rw [← List.append_assoc, hpad, List.length_take, Nat.min_eq_left hh.1] at fill
      unfold keyBuf
      rw [hr.1, hr.2]
      simp only [Res.ok_bind]
      cases par with
      | none =>
        have hF := hp2 rfl
        subst hF
        have hz : rdp sb n.value = 0 := UInt8.toNat.inj (by simp at hh ⊢; simpa using hh.1)
        rw [hz] at fill ⊢
        exact fill
      | some b =>
        have hb := hp1 rfl
        cases hb
        simp only []
        rw [if_pos (by unfold keyPad; simp; omega)]
        have : (keyPad F).take (rdp sb n.value).toNat = F.take (rdp sb n.value).toNat := by
          unfold keyPad
          rw [List.take_append_of_le_length hh.1]
        rw [this]
        exact fill
    have e1 := enum_specN sb n G (fun w hw => h w (by rw [ptrsN_eq]; simp [hw])) (by rw [hGl]; exact hd) hG0 (by omega)
    have hk2 : KOK F.length (absL sb ns) := ⟨_, _, fun t ht => hk.here t (by rw [absL]; simp [ht]), fun t ht => hk.down t (by rw [absL]; simp [ht])⟩
    have e2 := enum_specL sb ns F par (fun w hw => h w (by simp [hw])) hk2 h0 hl hp1 hp2
    rw [enumList, hbuf]
    simp only [Res.ok_bind]
    rw [keyPad_cstr hG0 (by omega)]
    simp only [Res.ok_bind]
    rw [e1]
    simp only [Res.ok_bind]
    rw [e2]
    simp only [Res.ok_bind]
    rw [absL, enumTs, absN_eq, enumT, hG]
end

mutual
theorem enum_ptrN (sb : SB) : ∀ (n : Node) (F : List UInt8) (e : List UInt8 × Ptr), e ∈ enumT F (absN sb n) → ∃ w ∈ ptrsN n, e.2 = slot w
  | .mk v c ch, F, e, h => by
    rw [absN, enumT] at h
    rw [ptrsN]
    rcases List.mem_cons.1 h with h | h
    · exact ⟨v, by simp, by rw [h]; rfl⟩
    · obtain ⟨w, hw, he⟩ := enum_ptrL sb ch _ e h
      exact ⟨w, by simp [hw], he⟩
theorem enum_ptrL (sb : SB) : ∀ (l : List Node) (F : List UInt8) (e : List UInt8 × Ptr), e ∈ enumTs F (absL sb l) → ∃ w ∈ ptrsL l, e.2 = slot w
  | [], F, e, h => by rw [absL, enumTs] at h; cases h
  | n :: ns, F, e, h => by
    rw [absL, enumTs] at h
    rw [ptrsL]
    rcases List.mem_append.1 h with h | h
    · obtain ⟨w, hw, he⟩ := enum_ptrN sb n F e h
      exact ⟨w, by simp [hw], he⟩
    · obtain ⟨w, hw, he⟩ := enum_ptrL sb ns F e h
      exact ⟨w, by simp [hw], he⟩
end

end Verif.StrStore
