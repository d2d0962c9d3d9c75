import Verif.StrHeap.Lemmas
/-
  C131, C132: memory of the string storage.

  A heap `h0` is what the process has allocated when it calls string_storage_init; `live` are the blocks that are allocated.
-/
namespace Verif.StrHeap

open StrStore

/-- The history of additions, searches and accesses to user data of a storage, then string_storage_free: no block is used that is not allocated, no block is freed twice, and at the end exactly
the blocks are allocated that were allocated before; the answers are those of the storage with unlimited memory (C74, C75).  For strings of all lengths but one, see C75. -/
theorem C131_partial (uds : Nat) (h0 : Heap) (hn : h0.live.Nodup) (hl : ∀ i ∈ h0.live, i < h0.next) (hf : h0.fails = []) (ops : List Op)
    (hops : ∀ op ∈ ops, 0 ∉ op.str ∧ op.str.length + 1 + uds ≠ 4096 ∧ op.fits uds) :
    ∃ h st outs h', hrun h0 (HSt.init uds) ops = .ok (h, st, outs) ∧ run (St.init uds) ops = .ok (⟨st.s.sb, st.root.erase⟩, outs) ∧ h0.live ⊆ h.live ∧
      hfree h st = .ok h' ∧ h'.live.Perm h0.live := by
  obtain ⟨st', outs, _, h1, _⟩ := C75_partial uds ops hops
  have hi : Inv h0 h0.live (HSt.init uds) := ⟨⟨hn, hl, hf⟩, ⟨by simp [HSt.init], by simp [HSt.init, initSB], by simp [HSt.init]⟩, by simp [HSt.init, okN, okL], by simp [HSt.init, sbIds, nodeIds, idsL]⟩
  obtain ⟨h, st, e1, e2, e3⟩ := hrun_ok ops hi (by exact h1)
  obtain ⟨h', f1, f2⟩ := hfree_ok e3
  refine ⟨h, st, outs, h', e1, ?_, ?_, f1, f2⟩
  · rw [h1, ← e2]; rfl
  · intro i hi
    exact e3.perm.mem_iff.mpr (List.mem_append_right _ hi)

/-- A check of a run. -/
def chk {α : Type} (r : Res α) (f : α → Bool) : Bool :=
  match r with
  | .ok v => f v
  | .ub => false

theorem chk_ok {α : Type} {r : Res α} {f : α → Bool} (h : chk r f = true) : ∃ v, r = .ok v ∧ f v = true := by
  cases r with
  | ok v => exact ⟨v, rfl, h⟩
  | ub => cases h

def isUb {α : Type} : Res α → Bool
  | .ub => true
  | .ok _ => false

theorem isUb_ub {α : Type} {r : Res α} (h : isUb r = true) : r = .ub := by
  cases r with
  | ok v => cases h
  | ub => rfl

/-- Twenty strings: the arrays of children grow twice, and strings with a common beginning are below one another. -/
def many : List Op :=
  (List.range 20).map (fun i => .add [97 + i.toUInt8]) ++ [.add [1, 2, 3, 4, 5, 6, 7, 8, 9, 10], .add [1, 2, 3, 4, 5, 6, 7, 8, 9, 11, 12], .put [98] [7, 7], .get [98], .find [5]]

example : ∀ op ∈ many, 0 ∉ op.str ∧ op.str.length + 1 + 8 ≠ 4096 ∧ op.fits 8 := by
  have : many.all (fun op => !op.str.contains 0 && decide (op.str.length + 1 + 8 ≠ 4096) && (match op with | .put _ d => decide (d.length ≤ 8) | _ => true)) = true := by decide +kernel
  intro op ho
  have := List.all_eq_true.1 this op ho
  simp only [Bool.and_eq_true, Bool.not_eq_true', decide_eq_true_eq] at this
  refine ⟨by simpa using this.1.1, this.1.2, ?_⟩
  match op, this.2 with
  | .put _ d, h => exact of_decide_eq_true (p := d.length ≤ 8) h
  | .add _, _ => trivial
  | .find _, _ => trivial
  | .get _, _ => trivial

/-- In this history there are four blocks beside those of others: two arrays of children, the array of blocks and a block of strings. -/
example : chk (hrun ⟨[1, 0], 2, []⟩ (HSt.init 8) many) (fun (h, st, _) => decide (h.live.length = 6) && chk (hfree h st) (fun h' => decide (h'.live = [1, 0]))) = true := by
  decide +kernel

/-- string_storage_free does not empty the storage: whatever was done with it, if the first action added a string then freeing it again, searching in it and adding to it are undefined. -/
theorem C131_refuted_again (uds : Nat) (h0 : Heap) (hn : h0.live.Nodup) (hl : ∀ i ∈ h0.live, i < h0.next) (hf : h0.fails = []) (x : List UInt8) (hx : x.length + 1 + uds < 4096) (ops : List Op)
    (hops : ∀ op ∈ Op.add x :: ops, 0 ∉ op.str ∧ op.str.length + 1 + uds ≠ 4096 ∧ op.fits uds) :
    ∃ h st outs h', hrun h0 (HSt.init uds) (.add x :: ops) = .ok (h, st, outs) ∧ hfree h st = .ok h' ∧
      hfree h' st = .ub ∧ (∀ y, hfind h' st y = .ub) ∧ ∀ y, y.length + 1 + uds < 4096 → hadd h' st y = .ub := by
  obtain ⟨st', outs, h1, h2, h3⟩ := run_inv uds _ (St.init uds) (init_inv uds) rfl hops
  have hi : Inv h0 h0.live (HSt.init uds) := ⟨⟨hn, hl, hf⟩, ⟨by simp [HSt.init], by simp [HSt.init, initSB], by simp [HSt.init]⟩, by simp [HSt.init, okN, okL], by simp [HSt.init, sbIds, nodeIds, idsL]⟩
  obtain ⟨h, st, e1, e2, e3⟩ := hrun_ok _ hi (by exact h1)
  obtain ⟨h', f1, f2⟩ := hfree_ok e3
  have hk : kids st.root ≠ [] := by
    have he := e1
    simp only [hrun, hstep] at he
    cases hd : hadd h0 (HSt.init uds) x with
    | ub => rw [hd] at he; cases he
    | ok q =>
      obtain ⟨h5, st5, r5⟩ := q
      rw [hd] at he
      simp only [Res.map, Res.bind] at he
      have hk5 := kids_first hi.heap (show x.length + 1 + uds ≤ blockSize by unfold blockSize; omega) hd
      cases h6 : hrun h5 st5 ops with
      | ub => rw [h6] at he; cases he
      | ok q =>
        obtain ⟨h7, st7, r7⟩ := q
        rw [h6] at he
        simp only at he
        cases he
        exact kids_hrun ops hk5 h6
  obtain ⟨g1, g2, g3⟩ := gone e3 hk f2
  refine ⟨h, st, outs, h', e1, f1, g1, g2, fun y hy => g3 y ?_⟩
  have hu : st.s.sb.uds = uds := by
    have : st.erase.sb.uds = uds := by rw [e2]; first | exact h3 | exact h3.1
    exact this
  rw [hu]
  unfold blockSize
  omega

example : chk (hrun ⟨[1, 0], 2, []⟩ (HSt.init 8) [.add [97], .find [97]]) (fun (h, st, _) => chk (hfree h st) (fun h' => isUb (hfree h' st) && isUb (hfind h' st [97]))) = true := by decide +kernel

/-- Calls that allocate nothing while there is memory are the same when there is none: whatever calls of calloc and realloc will fail. -/
theorem C132_noalloc_partial (h : Heap) (hf : h.fails = []) (st st2 : HSt) (ops : List Op) (outs : List Out) (he : hrun h st ops = .ok (h, st2, outs)) (F : List Bool) :
    hrun { h with fails := F } st ops = .ok ({ h with fails := F }, st2, outs) := by
  obtain ⟨_, _, e⟩ := hrun_next ops hf he
  rcases e with ⟨_, e⟩ | e
  · exact e F
  · exact absurd e (Nat.lt_irrefl _)

/-- An addition that allocates nothing: the second string of a storage. -/
example : chk (hrun ⟨[], 0, []⟩ (HSt.init 8) [.add [98]]) (fun (h, st, _) => chk (hrun h st [.add [97], .find [98]]) (fun (h', _, outs) => decide (h' = h) && decide (outs = [.slot (some (0, 12)), .slot (some (0, 1))]))) = true := by
  decide +kernel

/-- Searches and accesses to user data never allocate: after every history with enough memory they go on as if there were enough. -/
theorem C132_find_partial (uds : Nat) (h0 : Heap) (hn : h0.live.Nodup) (hl : ∀ i ∈ h0.live, i < h0.next) (hf : h0.fails = []) (ops ops2 : List Op)
    (hops : ∀ op ∈ ops ++ ops2, 0 ∉ op.str ∧ op.str.length + 1 + uds ≠ 4096 ∧ op.fits uds) (hadd : ∀ x, Op.add x ∉ ops2) (F : List Bool) :
    ∃ h st outs st2 outs2, hrun h0 (HSt.init uds) ops = .ok (h, st, outs) ∧ hrun { h with fails := F } st ops2 = .ok ({ h with fails := F }, st2, outs2) ∧
      run (St.init uds) (ops ++ ops2) = .ok (⟨st2.s.sb, st2.root.erase⟩, outs ++ outs2) := by
  obtain ⟨st', outs, h1, h2, h3⟩ := run_inv uds ops (St.init uds) (init_inv uds) rfl (fun op ho => hops op (List.mem_append_left _ ho))
  have hi : Inv h0 h0.live (HSt.init uds) := ⟨⟨hn, hl, hf⟩, ⟨by simp [HSt.init], by simp [HSt.init, initSB], by simp [HSt.init]⟩, by simp [HSt.init, okN, okL], by simp [HSt.init, sbIds, nodeIds, idsL]⟩
  obtain ⟨h, st, e1, e2, e3⟩ := hrun_ok _ hi (by exact h1)
  obtain ⟨st2', outs2, k1, k2, k3⟩ := run_inv uds ops2 st' h2 (by first | exact h3 | exact h3.1) (fun op ho => hops op (List.mem_append_right _ ho))
  rw [← e2] at k1
  obtain ⟨h4, st2, f1, f2, f3⟩ := hrun_ok _ e3 k1
  obtain ⟨_, g1, g2⟩ := hrun_next ops2 e3.heap.fails f1
  have g1 := g1 hadd
  subst g1
  rcases g2 with ⟨_, g2⟩ | g2
  · refine ⟨_, st, outs, st2, outs2, e1, g2 F, ?_⟩
    rw [e2] at k1
    rw [run_append_ok ops ops2 h1 k1, ← f2]
    rfl
  · exact absurd g2 (Nat.lt_irrefl _)

/-- Without memory the first addition to a storage answers 0, and storage and heap stay as they were. -/
theorem C132_first_partial (uds : Nat) (h : Heap) (r : List Bool) (hf : h.fails = true :: r) (x : List UInt8) :
    hadd h (HSt.init uds) x = .ok (if x.length + 1 + uds > 4096 then h else { h with fails := r }, HSt.init uds, none) := by
  by_cases hl : x.length + 1 + uds ≤ 4096
  · rw [if_neg (by omega), hadd_first h uds x hl]
    have : h.calloc = (none, { h with fails := r }) := by unfold Heap.calloc; rw [hf]
    rw [this]
  · rw [if_pos (by omega), hadd, if_pos (by simp only [HSt.init, initSB, blockSize]; omega)]

example : hadd ⟨[1, 0], 2, [true]⟩ (HSt.init 8) [97] = .ok (⟨[1, 0], 2, []⟩, HSt.init 8, none) := C132_first_partial 8 _ [] rfl [97]

/-- If realloc fails in the third addition, it answers 0; but the array of children is lost, and to search for the first string, that is in the storage, is undefined, as is string_storage_free. -/
theorem C132_refuted_realloc : ∃ h st p q, hrun ⟨[], 0, [false, false, false, true]⟩ (HSt.init 8) [.add [97], .add [98], .add [99]] = .ok (h, st, [.slot (some p), .slot (some q), .slot none]) ∧
    hfind h st [97] = .ub ∧ hfree h st = .ub := by
  have := chk_ok (show chk (hrun ⟨[], 0, [false, false, false, true]⟩ (HSt.init 8) [.add [97], .add [98], .add [99]])
    (fun (h, st, outs) => decide (outs = [.slot (some (0, 1)), .slot (some (0, 12)), .slot none]) && isUb (hfind h st [97]) && isUb (hfree h st)) = true by decide +kernel)
  obtain ⟨⟨h, st, outs⟩, e1, e2⟩ := this
  simp only [Bool.and_eq_true, decide_eq_true_eq] at e2
  exact ⟨h, st, (0, 1), (0, 12), by rw [e1, e2.1.1], isUb_ub e2.1.2, isUb_ub e2.2⟩

theorem lcp_le_left : ∀ (a b : List UInt8), lcp a b ≤ a.length := by
  intro a
  induction a with
  | nil => intro b; simp [lcp]
  | cons x a ih =>
    intro b
    cases b with
    | nil => simp [lcp]
    | cons y b =>
      simp only [lcp]
      split
      · have := ih b
        simp only [List.length_cons]
        omega
      · exact Nat.zero_le _

theorem common_small {sb : SB} {ch : List Node} {b : Nat} {x : List UInt8} {c : UInt8} (hx : x.length ≤ 8) (h : commonBytes sb ch b x = .ok c) : ¬ c > 8 := by
  unfold commonBytes at h
  split at h
  · split at h
    · cases h
    · rename_i n _
      cases hs : strAt sb n.value with
      | ub => rw [hs] at h; cases h
      | ok str =>
        rw [hs] at h
        have h : Res.ok (UInt8.ofNat (lcp x str)) = Res.ok c := h
        cases h
        have := lcp_le_left x str
        rw [gt_iff_lt, UInt8.lt_iff_toNat_lt, UInt8.toNat_ofNat']
        show ¬ 8 < lcp x str % 256
        omega
  · cases h; decide

/-- **C132 is false for all storages with 2 or a multiple of 16 strings next to each other in the root**: if the realloc fails in the addition of a string of at most 8 bytes that is not in the storage,
the addition answers 0; after that to search for or to add anything is undefined, as is string_storage_free. -/
theorem C132_refuted_all (h : Heap) (s : HSB) (v : Ptr) (arr : Option Nat) (cap : Nat) (ch : List HNode) (r : List Bool) (x : List UInt8) (h1 : Heap) (st1 : HSt)
    (hx : x.length ≤ 8) (hfit : x.length + 1 + s.sb.uds ≤ 4096) (hc : ch.length = 2 ∨ ch.length % 16 = 0 ∧ ch.length ≠ 0) (hf : h.fails = true :: r)
    (e : hfind h ⟨s, .mk v arr cap ch⟩ x = .ok (h1, st1, none)) :
    ∃ h2 st2, hadd h ⟨s, .mk v arr cap ch⟩ x = .ok (h2, st2, none) ∧ h2.live = h.live ∧ (∀ y, hfind h2 st2 y = .ub) ∧ (∀ y, y.length + 1 + s.sb.uds ≤ 4096 → hadd h2 st2 y = .ub) ∧ hfree h2 st2 = .ub := by
  have hne : ch.isEmpty = false := by
    cases ch with
    | nil => simp at hc
    | cons _ _ => rfl
  refine ⟨{ h with fails := r }, ⟨s, .mk v none cap ch⟩, ?_, rfl, ?_, ?_, ?_⟩
  · unfold hfind at e
    unfold hadd
    rw [if_neg (by simp only [blockSize]; omega)]
    simp only [hfind_add] at e ⊢
    cases hsee : seeNode h s arr ch with
    | ub => rw [hsee] at e; cases e
    | ok _ =>
      rw [hsee] at e
      simp only [Res.bind] at e ⊢
      cases hb : bsearch s.sb (eraseL ch) 0 x (ch.length + 1) 0 ch.length with
      | ub => rw [hb] at e; cases e
      | ok o =>
        rw [hb] at e
        cases o with
        | hit p => simp only [Res.map, Res.ok.injEq, Prod.mk.injEq] at e; exact absurd e.2.2 (by simp)
        | miss b =>
          simp only at e ⊢
          cases hcb : commonBytes s.sb (eraseL ch) b x with
          | ub => rw [hcb] at e; cases e
          | ok c =>
            simp only
            rw [if_neg (common_small hx hcb), if_neg (by simp)]
            have hg : growArray h arr ch.length = .ok (none, { h with fails := r }) := by
              have hlive : ∃ i, arr = some i ∧ i ∈ h.live := by
                unfold seeNode at hsee
                rw [hne] at hsee
                simp only [Bool.false_eq_true, if_false] at hsee
                cases arr with
                | none => simp [Heap.see, Res.bind] at hsee
                | some i =>
                  refine ⟨i, rfl, ?_⟩
                  apply Classical.byContradiction
                  intro hn
                  simp [Heap.see, Res.bind, hn] at hsee
              obtain ⟨i, rfl, hi⟩ := hlive
              have hr : h.realloc (some i) = .ok (none, { h with fails := r }) := by
                simp only [Heap.realloc, hi, if_true, Heap.calloc, hf]
              unfold growArray
              rcases hc with g | ⟨g, g'⟩
              · rw [if_neg (by omega), if_pos g, hr]
              · rw [if_neg g']
                split
                · exact hr
                · exact hr
            rw [hg]
            rfl
  · intro y
    simp only [hfind, hfind_add, seeNode, hne, Bool.false_eq_true, if_false, Heap.see, Res.bind, Res.map]
  · intro y hy
    unfold hadd
    rw [if_neg (by simp only [blockSize]; omega)]
    simp only [hfind_add, seeNode, hne, Bool.false_eq_true, if_false, Heap.see, Res.bind, Res.map]
  · cases ch with
    | nil => simp at hne
    | cons n ns =>
      have hnode : ∀ g : Heap, freeNode g (.mk v none cap (n :: ns)) = .ub := fun g => by simp only [freeNode, freeList, Heap.see, Res.bind]
      simp only [hfree]
      cases freeBlocks s.barr { h with fails := r } s.ids with
      | ub => rfl
      | ok h3 =>
        simp only [Res.bind]
        cases freeOpt h3 s.barr with
        | ub => rfl
        | ok h4 => exact hnode h4

/-- The storage with the strings a and b, when the next allocation fails. -/
example : ∃ h s v arr cap ch h1 st1, ch.length = 2 ∧ h.fails = [true] ∧ s.sb.uds = 8 ∧ hfind h ⟨s, .mk v arr cap ch⟩ [99] = .ok (h1, st1, none) := by
  have := chk_ok (show chk (hrun ⟨[], 0, [false, false, false, true]⟩ (HSt.init 8) [.add [97], .add [98]])
    (fun (h, st, _) => (match st.root with | .mk _ _ _ ch => ch.length == 2) && decide (h.fails = [true]) && decide (st.s.sb.uds = 8) && chk (hfind h st [99]) (fun (_, _, o) => o.isNone)) = true by decide +kernel)
  obtain ⟨⟨h, ⟨s, ⟨v, arr, cap, ch⟩⟩, outs⟩, _, e2⟩ := this
  simp only [Bool.and_eq_true, decide_eq_true_eq, beq_iff_eq] at e2
  obtain ⟨⟨⟨g1, g2⟩, g3⟩, g4⟩ := e2
  obtain ⟨⟨h1, st1, o⟩, g5, g6⟩ := chk_ok g4
  cases o with
  | none => exact ⟨h, s, v, arr, cap, ch, h1, st1, g1, g2, g3, g5⟩
  | some _ => cases g6

/-- If the calloc of a block of strings fails in the first addition, the NULL pointer is written through. -/
theorem C132_refuted_null (uds : Nat) (h : Heap) (r : List Bool) (hf : h.fails = false :: true :: false :: r) (x : List UInt8) (hx : x.length + 1 + uds ≤ 4096) :
    hadd h (HSt.init uds) x = .ub := by
  rw [hadd_first h uds x hx]
  simp only [Heap.calloc, hf, halloc_first, Res.map]

example : hadd ⟨[1, 0], 2, [false, true, false]⟩ (HSt.init 8) [97] = .ub := C132_refuted_null 8 _ [] rfl [97] (by decide)

/-- If the calloc of the array of blocks fails in the first addition, it answers 0, but a block of the heap is lost: string_storage_free does not free it. -/
theorem C132_refuted_leak (uds : Nat) (h : Heap) (r : List Bool) (hf : h.fails = false :: false :: true :: r) (x : List UInt8) (hx : x.length + 1 + uds ≤ 4096) :
    ∃ h1 st h2, hadd h (HSt.init uds) x = .ok (h1, st, none) ∧ hfree h1 st = .ok h2 ∧ h2.live.length = h.live.length + 1 := by
  rw [hadd_first h uds x hx]
  simp only [Heap.calloc, hf, halloc_first, Res.map]
  refine ⟨_, _, { live := (h.next + 1) :: h.live, next := h.next + 1 + 1, fails := r }, rfl, ?_, by simp⟩
  simp only [hfree, freeBlocks, Res.bind, freeOpt, freeNode, freeList, Heap.free]
  rw [if_pos (by simp)]
  simp

example : ∃ h1 st h2, hadd ⟨[1, 0], 2, [false, false, true]⟩ (HSt.init 8) [97] = .ok (h1, st, none) ∧ hfree h1 st = .ok h2 ∧ h2.live.length = 3 :=
  C132_refuted_leak 8 _ [] rfl [97] (by decide)

/-- If the realloc of the array of blocks fails in the third addition, it answers 0; but a string that was in the storage is no longer there, and string_storage_free is undefined. -/
theorem C132_refuted_lost : ∃ h st p q, hrun ⟨[], 0, [false, false, false, false, false, false, true]⟩ (HSt.init 4000) [.add [98], .add [99], .add [97], .find [99]] =
      .ok (h, st, [.slot (some p), .slot (some q), .slot none, .slot none]) ∧ hfree h st = .ub := by
  have := chk_ok (show chk (hrun ⟨[], 0, [false, false, false, false, false, false, true]⟩ (HSt.init 4000) [.add [98], .add [99], .add [97], .find [99]])
    (fun (h, st, outs) => decide (outs = [.slot (some (0, 1)), .slot (some (1, 1)), .slot none, .slot none]) && isUb (hfree h st)) = true by decide +kernel)
  obtain ⟨⟨h, st, outs⟩, e1, e2⟩ := this
  simp only [Bool.and_eq_true, decide_eq_true_eq] at e2
  exact ⟨h, st, (0, 1), (1, 1), by rw [e1, e2.1], isUb_ub e2.2⟩

end Verif.StrHeap
