import Verif.StrHeap.Model
import Verif.StrStore.Props
/-
  Who owns which block of the heap.
-/
namespace Verif.StrHeap

open StrStore

mutual
/-- The blocks of the arrays of a tree. -/
def nodeIds : HNode → List Nat
  | .mk _ arr _ ch => idsL ch ++ arr.toList
def idsL : List HNode → List Nat
  | [] => []
  | n :: ns => nodeIds n ++ idsL ns
end

mutual
/-- A node has an array exactly if it has children. -/
def okN : HNode → Prop
  | .mk _ arr _ ch => (arr = none ↔ ch = []) ∧ okL ch
def okL : List HNode → Prop
  | [] => True
  | n :: ns => okN n ∧ okL ns
end

theorem eraseL_eq (ch : List HNode) : eraseL ch = ch.map HNode.erase := by
  induction ch with
  | nil => rfl
  | cons n ns ih => simp [eraseL, ih]

theorem idsL_eq (ch : List HNode) : idsL ch = ch.flatMap nodeIds := by
  induction ch with
  | nil => rfl
  | cons n ns ih => simp [idsL, ih]

theorem okL_iff (ch : List HNode) : okL ch ↔ ∀ n ∈ ch, okN n := by
  induction ch with
  | nil => simp [okL]
  | cons n ns ih => simp [okL, ih]

/-- The blocks of the strings and of their array. -/
def sbIds (s : HSB) : List Nat := s.ids.filterMap id ++ s.barr.toList

structure SBok (s : HSB) : Prop where
  some : ∀ a ∈ s.ids, a ≠ none
  len : s.ids.length = s.sb.blocks.length
  arr : s.barr = none ↔ s.ids = []

/-- Numbers of blocks are used once, and no call fails. -/
structure HeapOK (h : Heap) : Prop where
  nodup : h.live.Nodup
  fresh : ∀ i ∈ h.live, i < h.next
  fails : h.fails = []

theorem calloc_eq {h : Heap} (hh : HeapOK h) : h.calloc = (some h.next, { live := h.next :: h.live, next := h.next + 1, fails := [] }) := by
  unfold Heap.calloc; rw [hh.fails]

theorem calloc_ok {h : Heap} (hh : HeapOK h) : HeapOK { live := h.next :: h.live, next := h.next + 1, fails := [] } := by
  refine ⟨List.nodup_cons.mpr ⟨fun hc => Nat.lt_irrefl _ (hh.fresh _ hc), hh.nodup⟩, ?_, rfl⟩
  intro i hi
  rcases List.mem_cons.mp hi with rfl | hi
  · exact Nat.lt_succ_self _
  · exact Nat.lt_succ_of_lt (hh.fresh i hi)

theorem mem_of_perm {h : Heap} {l r : List Nat} (hp : h.live.Perm (l ++ r)) {i : Nat} (hi : i ∈ l) : i ∈ h.live :=
  hp.mem_iff.mpr (List.mem_append_left _ hi)

theorem growArray_ok {h : Heap} (hh : HeapOK h) {a : Option Nat} {cnt : Nat} {rest : List Nat} (hp : h.live.Perm (a.toList ++ rest)) (ha : a = none ↔ cnt = 0) :
    ∃ j h', growArray h a cnt = .ok (some j, h') ∧ h'.live.Perm (j :: rest) ∧ HeapOK h' := by
  unfold growArray
  by_cases h0 : cnt = 0
  · rw [if_pos h0, calloc_eq hh]
    refine ⟨_, _, rfl, ?_, calloc_ok hh⟩
    rw [ha.mpr h0] at hp
    exact List.Perm.cons _ hp
  · rw [if_neg h0]
    obtain ⟨i, rfl⟩ : ∃ i, a = some i := by
      cases a with
      | none => exact absurd (ha.mp rfl) h0
      | some i => exact ⟨i, rfl⟩
    have hi : i ∈ h.live := mem_of_perm hp (by simp)
    have hre : ∃ j h', h.realloc (some i) = .ok (some j, h') ∧ h'.live.Perm (j :: rest) ∧ HeapOK h' := by
      simp only [Heap.realloc, if_pos hi, calloc_eq hh]
      have hne : h.next ≠ i := by have := hh.fresh i hi; omega
      have herase : (h.next :: h.live).erase i = h.next :: h.live.erase i := by
        rw [List.erase_cons_tail]; simpa using hne
      refine ⟨_, _, rfl, ?_, (calloc_ok hh).nodup.erase i, ?_, rfl⟩
      · simp only [herase]
        refine List.Perm.cons _ ?_
        have := hp.erase i
        simpa using this
      · intro k hk
        exact (calloc_ok hh).fresh k (List.mem_of_mem_erase hk)
    by_cases h2 : cnt = 2
    · rw [if_pos h2]; exact hre
    · rw [if_neg h2]
      by_cases h3 : cnt % 16 = 0
      · rw [if_pos h3]; exact hre
      · rw [if_neg h3]
        exact ⟨i, h, rfl, by simpa using hp, hh⟩

theorem see_ok {h : Heap} {i : Nat} (hi : i ∈ h.live) : h.see (some i) = .ok () := by
  simp [Heap.see, hi]

theorem seeAll_ok {h : Heap} : ∀ (ids : List (Option Nat)), (∀ a ∈ ids, a ≠ none) → (∀ i, some i ∈ ids → i ∈ h.live) → seeAll h ids = .ok ()
  | [], _, _ => rfl
  | none :: r, h1, _ => absurd rfl (h1 none (by simp))
  | some i :: r, h1, h2 => by
    simp only [seeAll, see_ok (h2 i (by simp)), Res.bind]
    exact seeAll_ok r (fun a ha => h1 a (List.mem_cons_of_mem _ ha)) (fun i hi => h2 i (List.mem_cons_of_mem _ hi))

theorem seeAll_inv {h : Heap} {s : HSB} (hs : SBok s) {rest : List Nat} (hp : h.live.Perm (sbIds s ++ rest)) : seeAll h s.ids = .ok () := by
  refine seeAll_ok _ hs.some (fun i hi => mem_of_perm hp ?_)
  unfold sbIds
  refine List.mem_append_left _ (List.mem_filterMap.mpr ⟨some i, hi, rfl⟩)

theorem alloc_blocks {sb sb2 : SB} {prev : UInt8} {x : List UInt8} {p : Ptr} (h : alloc sb prev x = .ok (sb2, p)) :
    sb2.blocks.length = if sb.blocks = [] ∨ sb.used + 1 + (x.length + 1) + sb.uds > blockSize then sb.blocks.length + 1 else sb.blocks.length := by
  unfold alloc at h
  have fin : ∀ sb1 : SB, (match sb1.blocks[sb1.blocks.length - 1]? with
      | none => (Res.ub : Res (SB × Ptr))
      | some blk => do
        let blk ← wr blk sb1.used prev
        let blk ← memcpy blk (sb1.used + sb1.uds + 1) (x ++ [0])
        .ok ({ sb1 with blocks := sb1.blocks.set (sb1.blocks.length - 1) blk, used := sb1.used + (sb1.uds + 1 + (x.length + 1)) }, (sb1.blocks.length - 1, sb1.used))) = .ok (sb2, p) →
      sb2.blocks.length = sb1.blocks.length := by
    intro sb1 h1
    split at h1
    · cases h1
    · rename_i blk _
      cases hw : wr blk sb1.used prev with
      | ub => rw [hw] at h1; cases h1
      | ok b1 =>
        rw [hw] at h1
        simp only [Res.ok_bind] at h1
        cases hm : memcpy b1 (sb1.used + sb1.uds + 1) (x ++ [0]) with
        | ub => rw [hm] at h1; cases h1
        | ok b2 =>
          rw [hm] at h1
          simp only [Res.ok_bind] at h1
          cases h1
          simp
  simp only at h
  split at h
  · rename_i hc
    rw [if_pos hc]
    unfold newBlock at h
    simp only at h
    split at h
    · simp only [Res.ok_bind] at h
      have h' := fin ⟨sb.uds, 0, sb.blocks ++ [List.replicate blockSize 0], grow sb.bcap sb.blocks.length⟩ h
      rw [h']
      simp
    · cases h
  · rename_i hc
    rw [if_neg hc]
    simp only [Res.ok_bind] at h
    exact fin sb h

theorem filterMap_id_map_some (l : List (Option Nat)) (i : Nat) : (l ++ [some i]).filterMap id = l.filterMap id ++ [i] := by simp

theorem halloc_ok {h : Heap} (hh : HeapOK h) {s : HSB} (hs : SBok s) {rest : List Nat} (hp : h.live.Perm (sbIds s ++ rest)) {prev : UInt8} {x : List UInt8} {sb2 : SB} {p : Ptr}
    (ha : alloc s.sb prev x = .ok (sb2, p)) :
    ∃ h' s', halloc h s prev x = .ok (h', s', some p) ∧ s'.sb = sb2 ∧ SBok s' ∧ h'.live.Perm (sbIds s' ++ rest) ∧ HeapOK h' := by
  have hl := alloc_blocks ha
  unfold halloc
  by_cases hc : s.sb.blocks = [] ∨ s.sb.used + 1 + (x.length + 1) + s.sb.uds > blockSize
  · rw [if_pos hc] at hl ⊢
    rw [calloc_eq hh]
    simp only
    have hp1 : (h.next :: h.live).Perm (s.barr.toList ++ (h.next :: (s.ids.filterMap id ++ rest))) := by
      rw [List.perm_iff_count] at hp ⊢
      intro k
      have := hp k
      simp only [sbIds, List.count_append, List.count_cons] at this ⊢
      omega
    obtain ⟨j, h', hg, hp', hh'⟩ := growArray_ok (calloc_ok hh) hp1 (cnt := s.sb.blocks.length) (by
      rw [hs.arr, ← hs.len]
      exact List.length_eq_zero_iff.symm)
    rw [hg]
    simp only [Res.bind, ha, Res.map]
    refine ⟨_, _, rfl, rfl, ?_, ?_, hh'⟩
    · have hids : (if s.barr.isNone then s.ids.map (fun _ => (none : Option Nat)) else s.ids) = s.ids := by
        cases hb : s.barr with
        | none => simp [hs.arr.mp hb]
        | some _ => rfl
      rw [hids]
      refine ⟨?_, ?_, ?_⟩
      · intro a ha'
        rcases List.mem_append.mp ha' with h1 | h1
        · exact hs.some a h1
        · simp only [List.mem_singleton] at h1; rw [h1]; exact fun e => by cases e
      · simp only [List.length_append, List.length_singleton, hl, hs.len]
      · simp
    · have hids : (if s.barr.isNone then s.ids.map (fun _ => (none : Option Nat)) else s.ids) = s.ids := by
        cases hb : s.barr with
        | none => simp [hs.arr.mp hb]
        | some _ => rfl
      rw [hids]
      rw [List.perm_iff_count] at hp' ⊢
      intro k
      have := hp' k
      simp only [sbIds, filterMap_id_map_some, List.count_append, List.count_cons, Option.toList, List.count_nil] at this ⊢
      omega
  · rw [if_neg hc] at hl ⊢
    rw [ha]
    simp only [Res.map]
    exact ⟨_, _, rfl, rfl, ⟨hs.some, by simp only [hl, hs.len], hs.arr⟩, hp, hh⟩

theorem idsL_count_set {ch : List HNode} {i : Nat} {n n2 : HNode} (h : ch[i]? = some n) (k : Nat) :
    (idsL (ch.set i n2)).count k + (nodeIds n).count k = (idsL ch).count k + (nodeIds n2).count k := by
  induction ch generalizing i with
  | nil => simp at h
  | cons c ch ih =>
    cases i with
    | zero =>
      simp only [List.getElem?_cons_zero, Option.some.injEq] at h
      subst h
      simp only [List.set_cons_zero, idsL, List.count_append]
      omega
    | succ i =>
      simp only [List.getElem?_cons_succ] at h
      have := ih h
      simp only [List.set_cons_succ, idsL, List.count_append]
      omega

theorem idsL_append (a b : List HNode) : idsL (a ++ b) = idsL a ++ idsL b := by simp [idsL_eq]

theorem eraseL_length (ch : List HNode) : (eraseL ch).length = ch.length := by simp [eraseL_eq]

theorem find_add_ok : ∀ (fuel : Nat) {h : Heap} {s : HSB} {n : HNode} {prev : UInt8} {x : List UInt8} {doadd : Bool} {rest : List Nat} {sb2 : SB} {n2' : Node} {r : Option Ptr},
    HeapOK h → SBok s → okN n → h.live.Perm (sbIds s ++ nodeIds n ++ rest) → internal_find_add fuel s.sb n.erase prev x doadd = .ok (sb2, n2', r) →
    ∃ h2 s2 n2, hfind_add fuel h s n prev x doadd = .ok (h2, s2, n2, r) ∧ s2.sb = sb2 ∧ n2.erase = n2' ∧ SBok s2 ∧ okN n2 ∧ h2.live.Perm (sbIds s2 ++ nodeIds n2 ++ rest) ∧ HeapOK h2 := by
  intro fuel
  induction fuel with
  | zero => intro h s n prev x doadd rest sb2 n2' r _ _ _ _ he; cases he
  | succ fuel ih =>
    intro h s n prev x doadd rest sb2 n2' r hh hs hn hp he
    obtain ⟨v, arr, cap, ch⟩ := n
    simp only [okN] at hn
    have hsee : seeNode h s arr ch = .ok () := by
      unfold seeNode
      cases ch with
      | nil => rfl
      | cons c ch =>
        cases arr with
        | none => have := hn.1.mp rfl; cases this
        | some a =>
          have ha : a ∈ h.live := hp.mem_iff.mpr (by simp [nodeIds])
          simp only [List.isEmpty_cons, see_ok ha, Res.bind, seeAll_inv hs (List.append_assoc _ _ _ ▸ hp)]
          rfl
    simp only [HNode.erase] at he
    rw [internal_find_add] at he
    rw [hfind_add, hsee]
    simp only [Res.bind]
    rw [eraseL_length] at he
    cases hb : bsearch s.sb (eraseL ch) prev x (ch.length + 1) 0 ch.length with
    | ub => rw [hb] at he; cases he
    | ok f =>
      rw [hb] at he
      simp only [Res.ok_bind] at he
      cases f with
      | hit p =>
        simp only at he ⊢
        cases he
        exact ⟨_, _, _, rfl, rfl, rfl, hs, hn, hp, hh⟩
      | miss b =>
        simp only at he ⊢
        cases hcb : commonBytes s.sb (eraseL ch) b x with
        | ub => rw [hcb] at he; cases he
        | ok common =>
          rw [hcb] at he
          simp only [Res.ok_bind] at he
          simp only
          by_cases h8 : common > 8
          · rw [if_pos h8] at he ⊢
            rw [eraseL_eq, List.getElem?_map] at he
            cases hc : ch[b - 1]? with
            | none => rw [hc] at he; cases he
            | some m =>
              rw [hc] at he
              simp only [Option.map_some] at he
              cases hi : internal_find_add fuel s.sb m.erase (prev + common) (x.drop common.toNat) doadd with
              | ub => rw [hi] at he; cases he
              | ok q =>
                obtain ⟨sb3, n3, r3⟩ := q
                rw [hi] at he
                simp only [Res.ok_bind] at he
                cases he
                have hm : okN m := (okL_iff ch).mp hn.2 m (List.mem_of_getElem? hc)
                have hset := fun n2 k => idsL_count_set (n2 := n2) hc k
                -- the rest of the tree
                have hcnt : ∀ k, (nodeIds m).count k ≤ (idsL ch).count k := by
                  intro k
                  have := hset (.mk (0, 0) none 0 []) k
                  simp only [nodeIds, idsL, Option.toList, List.append_nil, List.count_nil] at this
                  omega
                have hp2 : h.live.Perm (sbIds s ++ nodeIds m ++ (idsL (ch.set (b - 1) (.mk (0, 0) none 0 [])) ++ arr.toList ++ rest)) := by
                  rw [List.perm_iff_count] at hp ⊢
                  intro k
                  have h1 := hp k
                  have h2 := hset (.mk (0, 0) none 0 []) k
                  simp only [nodeIds, idsL, Option.toList, List.append_nil, List.count_nil, List.count_append] at h1 h2 ⊢
                  omega
                obtain ⟨h2, s2, n2, e1, e2, e3, e4, e5, e6, e7⟩ := ih hh hs hm hp2 hi
                refine ⟨h2, s2, .mk v arr cap (ch.set (b - 1) n2), ?_, e2, ?_, e4, ?_, ?_, e7⟩
                · simp only [e1, Res.map]
                · simp only [HNode.erase, eraseL_eq, List.map_set, e3]
                · simp only [okN]
                  refine ⟨?_, ?_⟩
                  · rw [hn.1]
                    simp [List.set_eq_nil_iff]
                  · rw [okL_iff]
                    intro c hc'
                    rcases List.mem_or_eq_of_mem_set hc' with h1 | h1
                    · exact (okL_iff ch).mp hn.2 c h1
                    · rw [h1]; exact e5
                · rw [List.perm_iff_count] at e6 ⊢
                  intro k
                  have h1 := e6 k
                  have h2 := hset (.mk (0, 0) none 0 []) k
                  have h3 := hset n2 k
                  simp only [nodeIds, idsL, Option.toList, List.append_nil, List.count_nil, List.count_append] at h1 h2 h3 ⊢
                  omega
          · rw [if_neg h8] at he ⊢
            cases doadd with
            | false =>
              simp only [if_true] at he ⊢
              cases he
              exact ⟨_, _, _, rfl, rfl, rfl, hs, hn, hp, hh⟩
            | true =>
              simp only [Bool.true_eq_false, if_false] at he ⊢
              have hp1 : h.live.Perm (arr.toList ++ (sbIds s ++ idsL ch ++ rest)) := by
                rw [List.perm_iff_count] at hp ⊢
                intro k
                have := hp k
                simp only [nodeIds, List.count_append] at this ⊢
                omega
              obtain ⟨a, h1, g1, g2, g3⟩ := growArray_ok hh hp1 (cnt := ch.length) (by rw [hn.1]; exact List.length_eq_zero_iff.symm)
              rw [g1]
              simp only
              by_cases hcap : ch.length < grow cap ch.length
              · rw [if_pos hcap] at he ⊢
                cases hal : alloc s.sb prev x with
                | ub => rw [hal] at he; cases he
                | ok q =>
                  obtain ⟨sb3, p⟩ := q
                  rw [hal] at he
                  simp only [Res.ok_bind] at he
                  cases he
                  have hp2 : h1.live.Perm (sbIds s ++ (a :: (idsL ch ++ rest))) := by
                    rw [List.perm_iff_count] at g2 ⊢
                    intro k
                    have := g2 k
                    simp only [List.count_append, List.count_cons] at this ⊢
                    omega
                  obtain ⟨h2, s2, f1, f2, f3, f4, f5⟩ := halloc_ok g3 hs hp2 hal
                  refine ⟨h2, s2, .mk v (some a) (grow cap ch.length) (ch.take b ++ .mk p none 0 [] :: ch.drop b), ?_, f2, ?_, f3, ?_, ?_, f5⟩
                  · rw [f1]; rfl
                  · simp only [HNode.erase, eraseL_eq, List.map_append, List.map_cons, List.map_take, List.map_drop, List.map_nil]
                  · simp only [okN]
                    refine ⟨by simp, ?_⟩
                    rw [okL_iff]
                    intro c hc
                    have hall := (okL_iff ch).mp hn.2
                    rcases List.mem_append.mp hc with h1 | h1
                    · exact hall c (List.mem_of_mem_take h1)
                    · rcases List.mem_cons.mp h1 with h1 | h1
                      · rw [h1]; simp [okN, okL]
                      · exact hall c (List.mem_of_mem_drop h1)
                  · rw [List.perm_iff_count] at f4 ⊢
                    intro k
                    have h1 := f4 k
                    have h2 : (idsL ch).count k = (idsL (ch.take b)).count k + (idsL (ch.drop b)).count k := by
                      rw [← List.count_append, ← idsL_append, List.take_append_drop]
                    simp only [nodeIds, idsL_append, idsL, Option.toList, List.append_nil, List.nil_append, List.count_nil, List.count_append, List.count_cons] at h1 h2 ⊢
                    omega
              · rw [if_neg hcap] at he; cases he

/-- A storage owns its blocks, and all others are as they were. -/
structure Inv (h : Heap) (base : List Nat) (st : HSt) : Prop where
  heap : HeapOK h
  sb : SBok st.s
  root : okN st.root
  perm : h.live.Perm (sbIds st.s ++ nodeIds st.root ++ base)

/-- The storage without the heap. -/
def HSt.erase (st : HSt) : St := ⟨st.s.sb, st.root.erase⟩

theorem hadd_ok {h : Heap} {base : List Nat} {st : HSt} (hi : Inv h base st) {x : List UInt8} {sb2 : SB} {n2 : Node} {r : Option Ptr}
    (he : string_storage_add st.s.sb st.root.erase x = .ok (sb2, n2, r)) : ∃ h2 st2, hadd h st x = .ok (h2, st2, r) ∧ st2.erase = ⟨sb2, n2⟩ ∧ Inv h2 base st2 := by
  unfold string_storage_add at he
  unfold hadd
  by_cases hl : x.length + 1 + st.s.sb.uds > blockSize
  · rw [if_pos hl] at he ⊢
    cases he
    exact ⟨h, st, rfl, rfl, hi⟩
  · rw [if_neg hl] at he ⊢
    obtain ⟨h2, s2, n2, e1, e2, e3, e4, e5, e6, e7⟩ := find_add_ok _ hi.heap hi.sb hi.root hi.perm he
    rw [e1]
    exact ⟨h2, ⟨s2, n2⟩, rfl, by simp only [HSt.erase, e2, e3], ⟨e7, e4, e5, e6⟩⟩

theorem hfind_ok {h : Heap} {base : List Nat} {st : HSt} (hi : Inv h base st) {x : List UInt8} {sb2 : SB} {n2 : Node} {r : Option Ptr}
    (he : string_storage_find st.s.sb st.root.erase x = .ok (sb2, n2, r)) : ∃ h2 st2, hfind h st x = .ok (h2, st2, r) ∧ st2.erase = ⟨sb2, n2⟩ ∧ Inv h2 base st2 := by
  unfold string_storage_find at he
  unfold hfind
  obtain ⟨h2, s2, n2, e1, e2, e3, e4, e5, e6, e7⟩ := find_add_ok _ hi.heap hi.sb hi.root hi.perm he
  rw [e1]
  exact ⟨h2, ⟨s2, n2⟩, rfl, by simp only [HSt.erase, e2, e3], ⟨e7, e4, e5, e6⟩⟩

theorem userWrite_length {sb sb2 : SB} {p : Ptr} {d : List UInt8} (h : userWrite sb p d = .ok sb2) : sb2.blocks.length = sb.blocks.length := by
  unfold userWrite at h
  split at h
  · cases h
  · rename_i blk _
    cases hm : memcpy blk p.2 d with
    | ub => rw [hm] at h; cases h
    | ok b =>
      rw [hm] at h
      simp only [Res.ok_bind] at h
      cases h
      simp

theorem hstep_ok {h : Heap} {base : List Nat} {st : HSt} (hi : Inv h base st) {o : Op} {st2' : St} {r : Out} (he : step st.erase o = .ok (st2', r)) :
    ∃ h2 st2, hstep h st o = .ok (h2, st2, r) ∧ st2.erase = st2' ∧ Inv h2 base st2 := by
  cases o with
  | add x =>
    simp only [step, HSt.erase] at he
    cases hx : string_storage_add st.s.sb st.root.erase x with
    | ub => rw [hx] at he; cases he
    | ok q =>
      obtain ⟨sb2, n2, p⟩ := q
      rw [hx] at he
      simp only [Res.ok_bind] at he
      cases he
      obtain ⟨h2, st2, e1, e2, e3⟩ := hadd_ok hi hx
      exact ⟨h2, st2, by simp only [hstep, e1, Res.map], e2, e3⟩
  | find x =>
    simp only [step, HSt.erase] at he
    cases hx : string_storage_find st.s.sb st.root.erase x with
    | ub => rw [hx] at he; cases he
    | ok q =>
      obtain ⟨sb2, n2, p⟩ := q
      rw [hx] at he
      simp only [Res.ok_bind] at he
      cases he
      obtain ⟨h2, st2, e1, e2, e3⟩ := hfind_ok hi hx
      exact ⟨h2, st2, by simp only [hstep, e1, Res.map], e2, e3⟩
  | put x d =>
    simp only [step, HSt.erase] at he
    cases hx : string_storage_find st.s.sb st.root.erase x with
    | ub => rw [hx] at he; cases he
    | ok q =>
      obtain ⟨sb2, n2, p⟩ := q
      rw [hx] at he
      simp only [Res.ok_bind] at he
      obtain ⟨h2, st2, e1, e2, e3⟩ := hfind_ok hi hx
      cases p with
      | none =>
        simp only at he
        cases he
        exact ⟨h2, st2, by simp only [hstep, e1, Res.bind], e2, e3⟩
      | some p =>
        simp only at he
        have hsb : st2.s.sb = sb2 := congrArg St.sb e2
        have hroot : st2.root.erase = n2 := congrArg St.root e2
        cases hw : userWrite sb2 p d with
        | ub => rw [hw] at he; cases he
        | ok sb3 =>
          rw [hw] at he
          simp only [Res.ok_bind] at he
          cases he
          refine ⟨h2, { st2 with s := { st2.s with sb := sb3 } }, ?_, ?_, ⟨e3.heap, ⟨e3.sb.some, ?_, e3.sb.arr⟩, e3.root, e3.perm⟩⟩
          · simp only [hstep, e1, Res.bind, seeAll_inv e3.sb (List.append_assoc _ _ _ ▸ e3.perm), hsb, hw, Res.map]
          · simp only [HSt.erase, hroot]
          · rw [e3.sb.len, hsb, userWrite_length hw]
  | get x =>
    simp only [step, HSt.erase] at he
    cases hx : string_storage_find st.s.sb st.root.erase x with
    | ub => rw [hx] at he; cases he
    | ok q =>
      obtain ⟨sb2, n2, p⟩ := q
      rw [hx] at he
      simp only [Res.ok_bind] at he
      obtain ⟨h2, st2, e1, e2, e3⟩ := hfind_ok hi hx
      cases p with
      | none =>
        simp only at he
        cases he
        exact ⟨h2, st2, by simp only [hstep, e1, Res.bind], e2, e3⟩
      | some p =>
        simp only at he
        have hsb : st2.s.sb = sb2 := congrArg St.sb e2
        cases hw : userRead sb2 p with
        | ub => rw [hw] at he; cases he
        | ok d =>
          rw [hw] at he
          simp only [Res.ok_bind] at he
          cases he
          refine ⟨h2, st2, ?_, e2, e3⟩
          simp only [hstep, e1, Res.bind, seeAll_inv e3.sb (List.append_assoc _ _ _ ▸ e3.perm), hsb, hw, Res.map]

theorem hrun_ok : ∀ (ops : List Op) {h : Heap} {base : List Nat} {st : HSt} {st2' : St} {outs : List Out}, Inv h base st → run st.erase ops = .ok (st2', outs) →
    ∃ h2 st2, hrun h st ops = .ok (h2, st2, outs) ∧ st2.erase = st2' ∧ Inv h2 base st2
  | [], h, base, st, st2', outs, hi, he => by cases he; exact ⟨h, st, rfl, rfl, hi⟩
  | o :: os, h, base, st, st2', outs, hi, he => by
    simp only [run] at he
    cases hx : step st.erase o with
    | ub => rw [hx] at he; cases he
    | ok q =>
      obtain ⟨st1', r⟩ := q
      rw [hx] at he
      simp only [Res.ok_bind] at he
      obtain ⟨h1, st1, e1, e2, e3⟩ := hstep_ok hi hx
      cases hy : run st1' os with
      | ub => rw [hy] at he; cases he
      | ok q =>
        obtain ⟨st2'', rs⟩ := q
        rw [hy] at he
        simp only [Res.ok_bind] at he
        cases he
        rw [← e2] at hy
        obtain ⟨h2, st2, f1, f2, f3⟩ := hrun_ok os e3 hy
        exact ⟨h2, st2, by simp only [hrun, e1, Res.bind, f1, Res.map], f2, f3⟩

theorem free_ok {h : Heap} {i : Nat} {rest : List Nat} (hp : h.live.Perm (i :: rest)) : ∃ h', h.free i = .ok h' ∧ h'.live.Perm rest := by
  have hi : i ∈ h.live := hp.mem_iff.mpr (by simp)
  refine ⟨{ h with live := h.live.erase i }, by simp only [Heap.free, if_pos hi], ?_⟩
  have := hp.erase i
  simpa using this

theorem freeOpt_ok {h : Heap} {a : Option Nat} {rest : List Nat} (hp : h.live.Perm (a.toList ++ rest)) : ∃ h', freeOpt h a = .ok h' ∧ h'.live.Perm rest := by
  cases a with
  | none => exact ⟨h, rfl, hp⟩
  | some i => exact free_ok hp

theorem freeBlocks_ok (b : Nat) : ∀ (ids : List (Option Nat)) {h : Heap} {rest : List Nat}, (∀ a ∈ ids, a ≠ none) → b ∈ rest → h.live.Perm (ids.filterMap id ++ rest) →
    ∃ h', freeBlocks (some b) h ids = .ok h' ∧ h'.live.Perm rest
  | [], h, rest, _, _, hp => ⟨h, rfl, hp⟩
  | none :: r, _, _, h1, _, _ => absurd rfl (h1 none (by simp))
  | some i :: r, h, rest, h1, hb, hp => by
    have hb' : b ∈ h.live := hp.mem_iff.mpr (List.mem_append_right _ hb)
    simp only [List.filterMap_cons, id, List.cons_append] at hp
    obtain ⟨h', e1, e2⟩ := free_ok hp
    obtain ⟨h'', f1, f2⟩ := freeBlocks_ok b r (fun a ha => h1 a (List.mem_cons_of_mem _ ha)) hb e2
    exact ⟨h'', by simp only [freeBlocks, see_ok hb', Res.bind, e1, f1], f2⟩

mutual
theorem freeNode_ok : ∀ (n : HNode) {h : Heap} {rest : List Nat}, okN n → h.live.Perm (nodeIds n ++ rest) → ∃ h', freeNode h n = .ok h' ∧ h'.live.Perm rest
  | .mk v arr cap ch, h, rest, hn, hp => by
    simp only [okN] at hn
    simp only [nodeIds, List.append_assoc] at hp
    obtain ⟨h1, e1, e2⟩ := freeList_ok ch (arr := arr) (rest := arr.toList ++ rest) hn.2 (fun hne => by
      cases arr with
      | none => exact absurd (hn.1.mp rfl) hne
      | some a => exact ⟨a, rfl, by simp⟩) hp
    obtain ⟨h2, f1, f2⟩ := freeOpt_ok e2
    exact ⟨h2, by simp only [freeNode, e1, Res.bind, f1], f2⟩
theorem freeList_ok : ∀ (ch : List HNode) {h : Heap} {arr : Option Nat} {rest : List Nat}, okL ch → (ch ≠ [] → ∃ a, arr = some a ∧ a ∈ rest) → h.live.Perm (idsL ch ++ rest) →
    ∃ h', freeList h arr ch = .ok h' ∧ h'.live.Perm rest
  | [], h, arr, rest, _, _, hp => ⟨h, by simp only [freeList], hp⟩
  | n :: ns, h, arr, rest, hn, ha, hp => by
    simp only [okL] at hn
    obtain ⟨a, rfl, har⟩ := ha (by simp)
    simp only [idsL, List.append_assoc] at hp
    have hsee : h.see (some a) = .ok () := see_ok (hp.mem_iff.mpr (List.mem_append_right _ (List.mem_append_right _ har)))
    obtain ⟨h1, e1, e2⟩ := freeNode_ok n hn.1 hp
    obtain ⟨h2, f1, f2⟩ := freeList_ok ns (arr := some a) hn.2 (fun _ => ⟨a, rfl, har⟩) e2
    exact ⟨h2, by simp only [freeList, hsee, Res.bind, e1, f1], f2⟩
end

theorem hfree_ok {h : Heap} {base : List Nat} {st : HSt} (hi : Inv h base st) : ∃ h', hfree h st = .ok h' ∧ h'.live.Perm base := by
  have hp := hi.perm
  simp only [sbIds, List.append_assoc] at hp
  have h1 : ∃ h1, freeBlocks st.s.barr h st.s.ids = .ok h1 ∧ h1.live.Perm (st.s.barr.toList ++ (nodeIds st.root ++ base)) := by
    cases hb : st.s.barr with
    | none =>
      rw [hb] at hp
      rw [hi.sb.arr.mp hb] at hp ⊢
      exact ⟨h, rfl, hp⟩
    | some b =>
      rw [hb] at hp
      exact freeBlocks_ok b st.s.ids hi.sb.some (by simp) hp
  obtain ⟨h1, e1, e2⟩ := h1
  obtain ⟨h2, f1, f2⟩ := freeOpt_ok e2
  obtain ⟨h3, g1, g2⟩ := freeNode_ok st.root hi.root f2
  exact ⟨h3, by simp only [hfree, e1, Res.bind, f1, g1], g2⟩

/-! After a free nothing of a storage that had a string is left -/

/-- The children of a node. -/
def kids : HNode → List HNode
  | .mk _ _ _ ch => ch

theorem kids_step {fuel : Nat} {h h2 : Heap} {s s2 : HSB} {n n2 : HNode} {prev : UInt8} {x : List UInt8} {doadd : Bool} {r : Option Ptr}
    (hk : kids n ≠ []) (he : hfind_add fuel h s n prev x doadd = .ok (h2, s2, n2, r)) : kids n2 ≠ [] := by
  obtain ⟨v, arr, cap, ch⟩ := n
  simp only [kids] at hk
  cases fuel with
  | zero => cases he
  | succ fuel =>
    rw [hfind_add] at he
    cases h1 : seeNode h s arr ch with
    | ub => rw [h1] at he; cases he
    | ok _ =>
      rw [h1] at he
      simp only [Res.bind] at he
      cases hb : bsearch s.sb (eraseL ch) prev x (ch.length + 1) 0 ch.length with
      | ub => rw [hb] at he; cases he
      | ok f =>
        rw [hb] at he
        cases f with
        | hit p => simp only at he; cases he; exact hk
        | miss b =>
          simp only at he
          cases hcb : commonBytes s.sb (eraseL ch) b x with
          | ub => rw [hcb] at he; cases he
          | ok common =>
            rw [hcb] at he
            simp only at he
            by_cases h8 : common > 8
            · rw [if_pos h8] at he
              cases hc : ch[b - 1]? with
              | none => rw [hc] at he; cases he
              | some m =>
                rw [hc] at he
                simp only at he
                cases hi : hfind_add fuel h s m (prev + common) (x.drop common.toNat) doadd with
                | ub => rw [hi] at he; cases he
                | ok q =>
                  obtain ⟨h3, s3, n3, r3⟩ := q
                  rw [hi] at he
                  simp only [Res.map] at he
                  cases he
                  simpa only [kids, ne_eq, List.set_eq_nil_iff] using hk
            · rw [if_neg h8] at he
              cases doadd with
              | false => simp only [if_true] at he; cases he; exact hk
              | true =>
                simp only [Bool.true_eq_false, if_false] at he
                cases hg : growArray h arr ch.length with
                | ub => rw [hg] at he; cases he
                | ok q =>
                  obtain ⟨a, h3⟩ := q
                  rw [hg] at he
                  cases a with
                  | none => simp only at he; cases he; exact hk
                  | some a =>
                    simp only at he
                    by_cases hcap : ch.length < grow cap ch.length
                    · rw [if_pos hcap] at he
                      cases ha : halloc h3 s prev x with
                      | ub => rw [ha] at he; cases he
                      | ok q =>
                        obtain ⟨h4, s4, p⟩ := q
                        rw [ha] at he
                        cases p with
                        | none =>
                          simp only [Res.map] at he
                          cases he
                          simp only [kids]
                          cases ch with
                          | nil => exact absurd rfl hk
                          | cons c cs => simp
                        | some p =>
                          simp only [Res.map] at he
                          cases he
                          simp [kids]
                    · rw [if_neg hcap] at he; cases he

theorem kids_hfind {h h2 : Heap} {st st2 : HSt} {x : List UInt8} {r : Option Ptr} (hk : kids st.root ≠ []) (he : hfind h st x = .ok (h2, st2, r)) : kids st2.root ≠ [] := by
  unfold hfind at he
  cases hi : hfind_add (x.length + 1) h st.s st.root 0 x false with
  | ub => rw [hi] at he; cases he
  | ok q =>
    rw [hi] at he
    simp only [Res.map] at he
    cases he
    exact kids_step hk hi

theorem kids_hadd {h h2 : Heap} {st st2 : HSt} {x : List UInt8} {r : Option Ptr} (hk : kids st.root ≠ []) (he : hadd h st x = .ok (h2, st2, r)) : kids st2.root ≠ [] := by
  unfold hadd at he
  split at he
  · cases he; exact hk
  · cases hi : hfind_add (x.length + 1) h st.s st.root 0 x true with
    | ub => rw [hi] at he; cases he
    | ok q =>
      rw [hi] at he
      simp only [Res.map] at he
      cases he
      exact kids_step hk hi

theorem kids_hstep {h h2 : Heap} {st st2 : HSt} {o : Op} {r : Out} (hk : kids st.root ≠ []) (he : hstep h st o = .ok (h2, st2, r)) : kids st2.root ≠ [] := by
  cases o with
  | add x =>
    simp only [hstep] at he
    cases hi : hadd h st x with
    | ub => rw [hi] at he; cases he
    | ok q => rw [hi] at he; simp only [Res.map] at he; cases he; exact kids_hadd hk hi
  | find x =>
    simp only [hstep] at he
    cases hi : hfind h st x with
    | ub => rw [hi] at he; cases he
    | ok q => rw [hi] at he; simp only [Res.map] at he; cases he; exact kids_hfind hk hi
  | put x d =>
    simp only [hstep] at he
    cases hi : hfind h st x with
    | ub => rw [hi] at he; cases he
    | ok q =>
      obtain ⟨h1, st1, p⟩ := q
      rw [hi] at he
      simp only [Res.bind] at he
      cases p with
      | none => cases he; exact kids_hfind hk hi
      | some p =>
        simp only at he
        cases hs : seeAll h1 st1.s.ids with
        | ub => rw [hs] at he; cases he
        | ok _ =>
          rw [hs] at he
          simp only at he
          cases hw : userWrite st1.s.sb p d with
          | ub => rw [hw] at he; cases he
          | ok sb =>
            have hk1 := kids_hfind hk hi
            rw [hw] at he; simp only [Res.map] at he; cases he; exact hk1
  | get x =>
    simp only [hstep] at he
    cases hi : hfind h st x with
    | ub => rw [hi] at he; cases he
    | ok q =>
      obtain ⟨h1, st1, p⟩ := q
      rw [hi] at he
      simp only [Res.bind] at he
      cases p with
      | none => cases he; exact kids_hfind hk hi
      | some p =>
        simp only at he
        cases hs : seeAll h1 st1.s.ids with
        | ub => rw [hs] at he; cases he
        | ok _ =>
          rw [hs] at he
          simp only at he
          cases hw : userRead st1.s.sb p with
          | ub => rw [hw] at he; cases he
          | ok sb => rw [hw] at he; simp only [Res.map] at he; cases he; exact kids_hfind hk hi

theorem kids_hrun : ∀ (ops : List Op) {h h2 : Heap} {st st2 : HSt} {outs : List Out}, kids st.root ≠ [] → hrun h st ops = .ok (h2, st2, outs) → kids st2.root ≠ []
  | [], _, _, _, _, _, hk, he => by cases he; exact hk
  | o :: os, h, h2, st, st2, outs, hk, he => by
    simp only [hrun] at he
    cases h1 : hstep h st o with
    | ub => rw [h1] at he; cases he
    | ok q =>
      obtain ⟨h3, st3, r⟩ := q
      rw [h1] at he
      simp only [Res.bind] at he
      cases h4 : hrun h3 st3 os with
      | ub => rw [h4] at he; cases he
      | ok q =>
        obtain ⟨h5, st5, rs⟩ := q
        rw [h4] at he
        simp only [Res.map] at he
        cases he
        exact kids_hrun os (kids_hstep hk h1) h4

/-- The first string of a storage. -/
theorem hadd_first (h : Heap) (uds : Nat) (x : List UInt8) (hl : x.length + 1 + uds ≤ blockSize) :
    hadd h (HSt.init uds) x = match h.calloc with
      | (none, h1) => .ok (h1, HSt.init uds, none)
      | (some a, h1) => (halloc h1 ⟨initSB uds, [], none⟩ 0 x).map fun
        | (h2, s2, none) => (h2, ⟨s2, .mk (0, 0) (some a) 2 []⟩, none)
        | (h2, s2, some p) => (h2, ⟨s2, .mk (0, 0) (some a) 2 [.mk p none 0 []]⟩, some (p.1, p.2 + 1)) := by
  unfold hadd
  rw [if_neg (by simp only [HSt.init, initSB]; omega)]
  simp only [HSt.init]
  rw [hfind_add]
  simp only [seeNode, List.isEmpty_nil, if_true, Res.bind, eraseL, List.length_nil, bsearch, commonBytes, Nat.lt_irrefl, if_false, ne_eq, not_true_eq_false]
  rw [if_neg (show ¬ ((0 : UInt8) > 8) by decide)]
  simp only [Bool.true_eq_false, if_false, growArray, if_true, grow, Nat.zero_lt_succ]
  rcases h.calloc with ⟨_ | a, h1⟩
  · rfl
  · simp only
    rcases halloc h1 ⟨initSB uds, [], none⟩ 0 x with ⟨h2, s2, _ | p⟩ | _ <;> rfl

theorem halloc_first (h : Heap) (uds : Nat) (x : List UInt8) :
    halloc h ⟨initSB uds, [], none⟩ 0 x =
      let (nb, h1) := h.calloc
      match h1.calloc with
      | (none, h2) => .ok (h2, ⟨initSB uds, [], none⟩, none)
      | (some a, h2) =>
        match nb with
        | none => .ub
        | some i => (alloc (initSB uds) 0 x).map fun (sb, p) => (h2, ⟨sb, [some i], some a⟩, some p) := by
  unfold halloc
  simp only [initSB, true_or, if_true, growArray, List.length_nil, Res.bind]
  rcases h.calloc with ⟨nb, h1⟩
  simp only
  rcases h1.calloc with ⟨_ | a, h2⟩
  · rfl
  · simp only
    cases nb with
    | none => rfl
    | some i => rfl

theorem kids_first {h h2 : Heap} {uds : Nat} {x : List UInt8} {st2 : HSt} {r : Option Ptr} (hh : HeapOK h) (hl : x.length + 1 + uds ≤ blockSize)
    (he : hadd h (HSt.init uds) x = .ok (h2, st2, r)) : kids st2.root ≠ [] := by
  rw [hadd_first h uds x hl, calloc_eq hh] at he
  simp only [halloc_first, calloc_eq (calloc_ok hh), calloc_eq (calloc_ok (calloc_ok hh))] at he
  generalize alloc _ _ _ = q at he
  cases q with
  | ub => cases he
  | ok q => simp only [Res.map] at he; cases he; simp [kids]

/-- Once the blocks of a storage with a string are free, every use of it is undefined. -/
theorem gone {h h' : Heap} {base : List Nat} {st : HSt} (hi : Inv h base st) (hk : kids st.root ≠ []) (hp : h'.live.Perm base) :
    hfree h' st = .ub ∧ (∀ x, hfind h' st x = .ub) ∧ ∀ x, x.length + 1 + st.s.sb.uds ≤ blockSize → hadd h' st x = .ub := by
  have hnd : (sbIds st.s ++ nodeIds st.root ++ base).Nodup := hi.perm.nodup_iff.mp hi.heap.nodup
  have hdis : ∀ i, i ∈ sbIds st.s ++ nodeIds st.root → i ∉ h'.live := by
    intro i h1 h2
    exact (List.nodup_append.mp hnd).2.2 i h1 i (hp.mem_iff.mp h2) rfl
  have hroot := hi.root
  have hsb := hi.sb
  obtain ⟨s, root⟩ := st
  obtain ⟨v, arr, cap, ch⟩ := root
  simp only [kids] at hk
  simp only [okN] at hroot
  cases arr with
  | none => exact absurd (hroot.1.mp rfl) hk
  | some a =>
    have ha : a ∉ h'.live := hdis a (by simp [nodeIds])
    have hsee : h'.see (some a) = .ub := by simp [Heap.see, ha]
    obtain ⟨c, cs, rfl⟩ := List.exists_cons_of_ne_nil hk
    have hfa : ∀ fuel x doadd, hfind_add fuel h' s (.mk v (some a) cap (c :: cs)) 0 x doadd = .ub := by
      intro fuel x doadd
      cases fuel with
      | zero => rfl
      | succ fuel =>
        rw [hfind_add]
        simp only [seeNode, List.isEmpty_cons, hsee, Res.bind]
        rfl
    refine ⟨?_, ?_, ?_⟩
    · unfold hfree
      simp only at hsb
      cases hb : s.barr with
      | none =>
        simp only [hsb.arr.mp hb, freeBlocks, Res.bind, freeOpt, freeNode, freeList, hsee]
      | some b =>
        have hb' : b ∉ h'.live := hdis b (by simp [sbIds, hb])
        cases hids : s.ids with
        | nil => rw [hsb.arr.mpr hids] at hb; cases hb
        | cons i r =>
          simp only [freeBlocks, Heap.see, hb', if_false, Res.bind]
    · intro x
      simp only [hfind, hfa, Res.map]
    · intro x hx
      simp only [hadd, hfa, Res.map]
      rw [if_neg (by simpa using hx)]

/-! Calls that allocate nothing do not notice that memory is short -/

/-- The same heap, with another future of calloc and realloc. -/
def withFails (h : Heap) (F : List Bool) : Heap := { h with fails := F }

theorem calloc_next {h : Heap} (hf : h.fails = []) : h.calloc.2.fails = [] ∧ h.next < h.calloc.2.next := by
  unfold Heap.calloc
  rw [hf]
  exact ⟨rfl, Nat.lt_succ_self _⟩

theorem realloc_next {h h1 : Heap} {a b : Option Nat} (hf : h.fails = []) (he : h.realloc a = .ok (b, h1)) : h1.fails = [] ∧ h.next < h1.next := by
  cases a with
  | none =>
    simp only [Heap.realloc] at he
    have := calloc_next hf
    generalize h.calloc = q at he this
    cases he
    exact this
  | some i =>
    simp only [Heap.realloc] at he
    split at he
    · have := calloc_next hf
      rcases hc : h.calloc with ⟨_ | j, h2⟩
      · rw [hc] at he this; cases he; exact this
      · rw [hc] at he this; cases he; exact this
    · cases he

theorem growArray_next {h h1 : Heap} {a b : Option Nat} {cnt : Nat} (hf : h.fails = []) (he : growArray h a cnt = .ok (b, h1)) :
    h1.fails = [] ∧ ((h1 = h ∧ ∀ F, growArray (withFails h F) a cnt = .ok (b, withFails h F)) ∨ h.next < h1.next) := by
  unfold growArray at he
  split at he
  · have := calloc_next hf
    generalize h.calloc = q at he this
    cases he
    exact ⟨this.1, Or.inr this.2⟩
  · split at he
    · have := realloc_next hf he
      exact ⟨this.1, Or.inr this.2⟩
    · split at he
      · have := realloc_next hf he
        exact ⟨this.1, Or.inr this.2⟩
      · rename_i h0 h2 h3
        cases he
        exact ⟨hf, Or.inl ⟨rfl, fun F => by rw [growArray, if_neg h0, if_neg h2, if_neg h3]⟩⟩

theorem seeAll_withFails (h : Heap) (F : List Bool) : ∀ ids, seeAll (withFails h F) ids = seeAll h ids
  | [] => rfl
  | a :: r => by
    simp only [seeAll, seeAll_withFails h F r]
    rfl

theorem seeNode_withFails (h : Heap) (F : List Bool) (s : HSB) (arr : Option Nat) (ch : List HNode) : seeNode (withFails h F) s arr ch = seeNode h s arr ch := by
  simp only [seeNode, seeAll_withFails]
  rfl

theorem halloc_next {h h2 : Heap} {s s2 : HSB} {prev : UInt8} {x : List UInt8} {p : Option Ptr} (hf : h.fails = []) (he : halloc h s prev x = .ok (h2, s2, p)) :
    h2.fails = [] ∧ ((h2 = h ∧ ∀ F, halloc (withFails h F) s prev x = .ok (withFails h F, s2, p)) ∨ h.next < h2.next) := by
  unfold halloc at he ⊢
  split at he
  · have hc := calloc_next hf
    rcases hcc : h.calloc with ⟨nb, h1⟩
    rw [hcc] at he hc
    simp only at he hc
    cases hg : growArray h1 s.barr s.sb.blocks.length with
    | ub => rw [hg] at he; cases he
    | ok q =>
      obtain ⟨a, h3⟩ := q
      rw [hg] at he
      have hg' := growArray_next hc.1 hg
      have hlt : h.next < h3.next := by
        rcases hg'.2 with ⟨e, _⟩ | e
        · rw [e]; exact hc.2
        · exact Nat.lt_trans hc.2 e
      simp only [Res.bind] at he
      cases a with
      | none => cases he; exact ⟨hg'.1, Or.inr hlt⟩
      | some a =>
        cases nb with
        | none => cases he
        | some i =>
          simp only at he
          cases ha : alloc s.sb prev x with
          | ub => rw [ha] at he; cases he
          | ok q => rw [ha] at he; cases he; exact ⟨hg'.1, Or.inr hlt⟩
  · rename_i hc
    cases ha : alloc s.sb prev x with
    | ub => rw [ha] at he; cases he
    | ok q =>
      rw [ha] at he
      cases he
      refine ⟨hf, Or.inl ⟨rfl, fun F => ?_⟩⟩
      rw [if_neg hc]
      rfl

theorem find_add_next : ∀ (fuel : Nat) {h h2 : Heap} {s s2 : HSB} {n n2 : HNode} {prev : UInt8} {x : List UInt8} {doadd : Bool} {r : Option Ptr}, h.fails = [] →
    hfind_add fuel h s n prev x doadd = .ok (h2, s2, n2, r) →
    h2.fails = [] ∧ (doadd = false → h2 = h ∧ s2 = s) ∧ ((h2 = h ∧ ∀ F, hfind_add fuel (withFails h F) s n prev x doadd = .ok (withFails h F, s2, n2, r)) ∨ h.next < h2.next) := by
  intro fuel
  induction fuel with
  | zero => intro h h2 s s2 n n2 prev x doadd r _ he; cases he
  | succ fuel ih =>
    intro h h2 s s2 n n2 prev x doadd r hf he
    obtain ⟨v, arr, cap, ch⟩ := n
    rw [hfind_add] at he
    simp only [hfind_add, seeNode_withFails]
    cases h1 : seeNode h s arr ch with
    | ub => rw [h1] at he; cases he
    | ok _ =>
      rw [h1] at he
      simp only [Res.bind] at he ⊢
      cases hb : bsearch s.sb (eraseL ch) prev x (ch.length + 1) 0 ch.length with
      | ub => rw [hb] at he; cases he
      | ok f =>
        rw [hb] at he
        cases f with
        | hit p =>
          simp only at he
          cases he
          exact ⟨hf, fun _ => ⟨rfl, rfl⟩, Or.inl ⟨rfl, fun F => rfl⟩⟩
        | miss b =>
          simp only at he ⊢
          cases hcb : commonBytes s.sb (eraseL ch) b x with
          | ub => rw [hcb] at he; cases he
          | ok common =>
            rw [hcb] at he
            simp only at he ⊢
            by_cases h8 : common > 8
            · rw [if_pos h8] at he
              simp only [if_pos h8]
              cases hc : ch[b - 1]? with
              | none => rw [hc] at he; cases he
              | some m =>
                rw [hc] at he
                simp only at he ⊢
                cases hi : hfind_add fuel h s m (prev + common) (x.drop common.toNat) doadd with
                | ub => rw [hi] at he; cases he
                | ok q =>
                  obtain ⟨h3, s3, n3, r3⟩ := q
                  rw [hi] at he
                  simp only [Res.map] at he
                  cases he
                  obtain ⟨e1, e2, e3⟩ := ih hf hi
                  refine ⟨e1, e2, ?_⟩
                  rcases e3 with ⟨e3, e4⟩ | e3
                  · exact Or.inl ⟨e3, fun F => by rw [e4 F]; rfl⟩
                  · exact Or.inr e3
            · rw [if_neg h8] at he
              simp only [if_neg h8]
              cases doadd with
              | false =>
                simp only [if_true] at he ⊢
                cases he
                exact ⟨hf, fun _ => ⟨rfl, rfl⟩, Or.inl ⟨rfl, fun F => rfl⟩⟩
              | true =>
                simp only [Bool.true_eq_false, if_false] at he ⊢
                cases hg : growArray h arr ch.length with
                | ub => rw [hg] at he; cases he
                | ok q =>
                  obtain ⟨a, h3⟩ := q
                  rw [hg] at he
                  obtain ⟨g1, g2⟩ := growArray_next hf hg
                  cases a with
                  | none =>
                    simp only at he
                    cases he
                    refine ⟨g1, (fun hc => hc.elim), ?_⟩
                    rcases g2 with ⟨g2, g3⟩ | g2
                    · exact Or.inl ⟨g2, fun F => by rw [g3 F]⟩
                    · exact Or.inr g2
                  | some a =>
                    simp only at he
                    by_cases hcap : ch.length < grow cap ch.length
                    · rw [if_pos hcap] at he
                      simp only [if_pos hcap]
                      cases ha : halloc h3 s prev x with
                      | ub => rw [ha] at he; cases he
                      | ok q =>
                        obtain ⟨h4, s4, p⟩ := q
                        rw [ha] at he
                        obtain ⟨k1, k2⟩ := halloc_next g1 ha
                        have hh : h4 = h2 ∧ s4 = s2 := by
                          cases p with
                          | none => simp only [Res.map] at he; cases he; exact ⟨rfl, rfl⟩
                          | some p => simp only [Res.map] at he; cases he; exact ⟨rfl, rfl⟩
                        obtain ⟨rfl, rfl⟩ := hh
                        refine ⟨k1, (fun hc => hc.elim), ?_⟩
                        rcases g2 with ⟨g2, g3⟩ | g2
                        · subst g2
                          rcases k2 with ⟨k2, k3⟩ | k2
                          · refine Or.inl ⟨k2, fun F => ?_⟩
                            rw [g3 F]
                            simp only [k3 F]
                            subst k2
                            cases p with
                            | none => simp only [Res.map] at he ⊢; cases he; rfl
                            | some p => simp only [Res.map] at he ⊢; cases he; rfl
                          · exact Or.inr k2
                        · rcases k2 with ⟨k2, _⟩ | k2
                          · rw [k2]; exact Or.inr g2
                          · exact Or.inr (Nat.lt_trans g2 k2)
                    · rw [if_neg hcap] at he; cases he

theorem hfind_next {h h2 : Heap} {st st2 : HSt} {x : List UInt8} {r : Option Ptr} (hf : h.fails = []) (he : hfind h st x = .ok (h2, st2, r)) :
    h2 = h ∧ ∀ F, hfind (withFails h F) st x = .ok (withFails h F, st2, r) := by
  unfold hfind at he ⊢
  cases hi : hfind_add (x.length + 1) h st.s st.root 0 x false with
  | ub => rw [hi] at he; cases he
  | ok q =>
    obtain ⟨h3, s3, n3, r3⟩ := q
    rw [hi] at he
    simp only [Res.map] at he
    cases he
    obtain ⟨_, e2, e3⟩ := find_add_next _ hf hi
    obtain ⟨e2, e2'⟩ := e2 rfl
    rcases e3 with ⟨_, e3⟩ | e3
    · exact ⟨e2, fun F => by rw [e3 F]; rfl⟩
    · rw [e2] at e3; exact absurd e3 (Nat.lt_irrefl _)

theorem hstep_next {h h2 : Heap} {st st2 : HSt} {o : Op} {r : Out} (hf : h.fails = []) (he : hstep h st o = .ok (h2, st2, r)) :
    h2.fails = [] ∧ ((∀ x, o ≠ .add x) → h2 = h) ∧ ((h2 = h ∧ ∀ F, hstep (withFails h F) st o = .ok (withFails h F, st2, r)) ∨ h.next < h2.next) := by
  cases o with
  | add x =>
    refine (fun (q : _ ∧ _) => ⟨q.1, fun hc => absurd rfl (hc x), q.2⟩) ?_
    simp only [hstep, hadd] at he ⊢
    split at he
    · rename_i hl
      simp only [Res.map] at he
      cases he
      exact ⟨hf, Or.inl ⟨rfl, fun F => by rw [if_pos hl]; rfl⟩⟩
    · rename_i hl
      cases hi : hfind_add (x.length + 1) h st.s st.root 0 x true with
      | ub => rw [hi] at he; cases he
      | ok q =>
        obtain ⟨h3, s3, n3, r3⟩ := q
        rw [hi] at he
        simp only [Res.map] at he
        cases he
        obtain ⟨e1, _, e3⟩ := find_add_next _ hf hi
        refine ⟨e1, ?_⟩
        rcases e3 with ⟨e3, e4⟩ | e3
        · exact Or.inl ⟨e3, fun F => by rw [if_neg hl, e4 F]; rfl⟩
        · exact Or.inr e3
  | find x =>
    simp only [hstep] at he ⊢
    cases hi : hfind h st x with
    | ub => rw [hi] at he; cases he
    | ok q =>
      obtain ⟨h1, st1, p⟩ := q
      rw [hi] at he
      simp only [Res.map] at he
      cases he
      obtain ⟨e1, e2⟩ := hfind_next hf hi
      exact ⟨e1 ▸ hf, fun _ => e1, Or.inl ⟨e1, fun F => by rw [e2 F]; rfl⟩⟩
  | put x d =>
    simp only [hstep] at he ⊢
    cases hi : hfind h st x with
    | ub => rw [hi] at he; cases he
    | ok q =>
      obtain ⟨h1, st1, p⟩ := q
      rw [hi] at he
      obtain ⟨e1, e2⟩ := hfind_next hf hi
      subst e1
      simp only [Res.bind] at he
      cases p with
      | none =>
        cases he
        exact ⟨hf, fun _ => rfl, Or.inl ⟨rfl, fun F => by rw [e2 F]; rfl⟩⟩
      | some p =>
        simp only at he
        cases hs : seeAll h1 st1.s.ids with
        | ub => rw [hs] at he; cases he
        | ok _ =>
          rw [hs] at he
          simp only at he
          cases hw : userWrite st1.s.sb p d with
          | ub => rw [hw] at he; cases he
          | ok sb =>
            rw [hw] at he
            simp only [Res.map] at he
            cases he
            exact ⟨hf, fun _ => rfl, Or.inl ⟨rfl, fun F => by rw [e2 F]; simp only [Res.bind, seeAll_withFails, hs, hw, Res.map]⟩⟩
  | get x =>
    simp only [hstep] at he ⊢
    cases hi : hfind h st x with
    | ub => rw [hi] at he; cases he
    | ok q =>
      obtain ⟨h1, st1, p⟩ := q
      rw [hi] at he
      obtain ⟨e1, e2⟩ := hfind_next hf hi
      subst e1
      simp only [Res.bind] at he
      cases p with
      | none =>
        cases he
        exact ⟨hf, fun _ => rfl, Or.inl ⟨rfl, fun F => by rw [e2 F]; rfl⟩⟩
      | some p =>
        simp only at he
        cases hs : seeAll h1 st1.s.ids with
        | ub => rw [hs] at he; cases he
        | ok _ =>
          rw [hs] at he
          simp only at he
          cases hw : userRead st1.s.sb p with
          | ub => rw [hw] at he; cases he
          | ok sb =>
            rw [hw] at he
            simp only [Res.map] at he
            cases he
            exact ⟨hf, fun _ => rfl, Or.inl ⟨rfl, fun F => by rw [e2 F]; simp only [Res.bind, seeAll_withFails, hs, hw, Res.map]⟩⟩

theorem hrun_next : ∀ (ops : List Op) {h h2 : Heap} {st st2 : HSt} {outs : List Out}, h.fails = [] → hrun h st ops = .ok (h2, st2, outs) →
    h2.fails = [] ∧ ((∀ x, .add x ∉ ops) → h2 = h) ∧ ((h2 = h ∧ ∀ F, hrun (withFails h F) st ops = .ok (withFails h F, st2, outs)) ∨ h.next < h2.next)
  | [], h, h2, st, st2, outs, hf, he => by cases he; exact ⟨hf, fun _ => rfl, Or.inl ⟨rfl, fun F => rfl⟩⟩
  | o :: os, h, h2, st, st2, outs, hf, he => by
    simp only [hrun] at he ⊢
    cases h1 : hstep h st o with
    | ub => rw [h1] at he; cases he
    | ok q =>
      obtain ⟨h3, st3, r⟩ := q
      rw [h1] at he
      simp only [Res.bind] at he
      cases h4 : hrun h3 st3 os with
      | ub => rw [h4] at he; cases he
      | ok q =>
        obtain ⟨h5, st5, rs⟩ := q
        rw [h4] at he
        simp only [Res.map] at he
        cases he
        obtain ⟨e1, e2, e3⟩ := hstep_next hf h1
        obtain ⟨f1, f2, f3⟩ := hrun_next os e1 h4
        refine ⟨f1, ?_, ?_⟩
        · intro hx
          rw [f2 (fun x hc => hx x (List.mem_cons_of_mem _ hc)), e2 (fun x hc => hx x (by rw [hc]; simp))]
        · rcases e3 with ⟨e3, e4⟩ | e3
          · subst e3
            rcases f3 with ⟨f3, f4⟩ | f3
            · exact Or.inl ⟨f3, fun F => by rw [e4 F]; simp only [Res.bind, f4 F, Res.map]⟩
            · exact Or.inr f3
          · rcases f3 with ⟨f3, _⟩ | f3
            · rw [f3]; exact Or.inr e3
            · exact Or.inr (Nat.lt_trans e3 f3)

theorem run_append_ok : ∀ (a b : List Op) {st st1 st2 : St} {o1 o2 : List Out}, run st a = .ok (st1, o1) → run st1 b = .ok (st2, o2) → run st (a ++ b) = .ok (st2, o1 ++ o2)
  | [], b, st, st1, st2, o1, o2, h1, h2 => by cases h1; exact h2
  | o :: os, b, st, st1, st2, o1, o2, h1, h2 => by
    simp only [run, List.cons_append] at h1 ⊢
    cases hs : step st o with
    | ub => rw [hs] at h1; cases h1
    | ok q =>
      obtain ⟨st3, r⟩ := q
      rw [hs] at h1
      simp only [Res.ok_bind] at h1 ⊢
      cases hr : run st3 os with
      | ub => rw [hr] at h1; cases h1
      | ok q =>
        obtain ⟨st4, rs⟩ := q
        rw [hr] at h1
        simp only [Res.ok_bind] at h1
        cases h1
        rw [run_append_ok os b hr h2]
        rfl

end Verif.StrHeap
