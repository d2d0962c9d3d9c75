import Verif.StrStore.Look
set_option linter.unusedSimpArgs false
set_option linter.unusedVariables false

namespace Verif.StrStore

/-! The memory of the storage -/

/-- Room in an array of `n` elements. -/
def capOK (cap n : Nat) : Prop := n = 0 ∨ (n ≤ 2 ∧ cap = 2) ∨ (3 ≤ n ∧ cap = 16 * ((n + 15) / 16))

theorem grow_ok {cap n : Nat} (h : capOK cap n) : n < grow cap n ∧ capOK (grow cap n) (n + 1) := by
  unfold capOK grow at *
  by_cases h0 : n = 0
  · rw [if_pos h0]; omega
  · rw [if_neg h0]
    by_cases h2 : n = 2
    · rw [if_pos h2]; omega
    · rw [if_neg h2]
      by_cases h16 : n % 16 = 0
      · rw [if_pos h16]; omega
      · rw [if_neg h16]; omega

/-- The end of the used part of block `i`. -/
def lim (sb : SB) (i : Nat) : Nat := if i + 1 = sb.blocks.length then sb.used else blockSize

/-- At `v` there are the byte `c`, the user data `data` and the string `str` with its NUL, inside the used part of a block. -/
def Cell (sb : SB) (v : Ptr) (c : UInt8) (str data : List UInt8) : Prop :=
  ∃ pre rest, sb.blocks[v.1]? = some (pre ++ c :: (data ++ (str ++ 0 :: rest))) ∧ pre.length = v.2 ∧ data.length = sb.uds ∧ 0 ∉ str ∧
    v.2 + 2 + sb.uds + str.length ≤ lim sb v.1

structure MemInv (sb : SB) : Prop where
  size : ∀ b ∈ sb.blocks, b.length = blockSize
  used : sb.used ≤ blockSize
  cap : capOK sb.bcap sb.blocks.length
  zero : ∀ b, sb.blocks[sb.blocks.length - 1]? = some b → b.drop sb.used = List.replicate (blockSize - sb.used) 0

theorem cstr_eq (s r : List UInt8) (h : 0 ∉ s) : cstr (s ++ 0 :: r) = .ok s := by
  induction s with
  | nil => simp [cstr]
  | cons a s ih =>
    have ha : a ≠ 0 := fun e => h (by simp [e])
    simp only [List.cons_append, cstr]
    rw [if_neg ha, ih (fun hm => h (by simp [hm]))]; rfl

theorem cell_byte {sb : SB} {v : Ptr} {c : UInt8} {str data : List UInt8} (h : Cell sb v c str data) : byteAt sb.blocks v = .ok c := by
  obtain ⟨pre, rest, hb, hp, _⟩ := h
  unfold byteAt deref
  rw [hb]
  simp only []
  rw [if_pos (by simp; omega), Res.ok_bind, List.drop_left' hp]; rfl

theorem cell_str {sb : SB} {v : Ptr} {c : UInt8} {str data : List UInt8} (h : Cell sb v c str data) : strAt sb v = .ok str := by
  obtain ⟨pre, rest, hb, hp, hd, h0, _⟩ := h
  unfold strAt deref
  simp only []
  rw [hb]
  simp only []
  rw [if_pos (by simp; omega), Res.ok_bind]
  have : pre ++ c :: (data ++ (str ++ 0 :: rest)) = (pre ++ [c] ++ data) ++ (str ++ 0 :: rest) := by simp
  rw [this, List.drop_left' (by simp; omega), cstr_eq _ _ h0]

theorem cell_data {sb : SB} {v : Ptr} {c : UInt8} {str data : List UInt8} (h : Cell sb v c str data) : userRead sb (v.1, v.2 + 1) = .ok data := by
  obtain ⟨pre, rest, hb, hp, hd, h0, _⟩ := h
  unfold userRead deref
  simp only []
  rw [hb]
  simp only []
  rw [if_pos (by simp; omega), Res.ok_bind]
  have : pre ++ c :: (data ++ (str ++ 0 :: rest)) = (pre ++ [c]) ++ (data ++ (str ++ 0 :: rest)) := by simp
  rw [this, List.drop_left' (by simp; omega), if_pos (by simp; omega), List.take_left' hd]

/-- Two cells with the same address agree. -/
theorem cell_fun {sb : SB} {v : Ptr} {c c' : UInt8} {s s' d d' : List UInt8} (h : Cell sb v c s d) (h' : Cell sb v c' s' d') : c = c' ∧ s = s' ∧ d = d' := by
  have a1 := cell_byte h; rw [cell_byte h'] at a1
  have a2 := cell_str h; rw [cell_str h'] at a2
  have a3 := cell_data h; rw [cell_data h'] at a3
  cases a1; cases a2; cases a3; exact ⟨rfl, rfl, rfl⟩

/-- The region of a cell with a string of length `n` at `w` is apart from the region of one with a string of length `m` at `v`. -/
def Apart (uds : Nat) (v : Ptr) (m : Nat) (w : Ptr) (n : Nat) : Prop :=
  v.1 ≠ w.1 ∨ v.2 + 2 + uds + m ≤ w.2 ∨ w.2 + 2 + uds + n ≤ v.2

theorem patch_at {pre mid post e : List UInt8} (h : e.length = mid.length) : patch (pre ++ mid ++ post) pre.length e = pre ++ e ++ post := by
  unfold patch
  have e1 : (pre ++ mid ++ post).take pre.length = pre := by rw [List.append_assoc]; exact List.take_left' rfl
  have e2 : (pre ++ mid ++ post).drop (pre.length + e.length) = post := List.drop_left' (by simp; omega)
  rw [e1, e2]

/-- A change of a block from position `o` on, over `n` bytes, leaves cells outside of this range alone. -/
theorem patch_cell {b : Buf} {o : Nat} {e pre rest : List UInt8} {mid : List UInt8} (hb : b = pre ++ mid ++ rest) (ho : o + e.length ≤ b.length)
    (h : pre.length + mid.length ≤ o ∨ o + e.length ≤ pre.length) :
    ∃ pre2 rest2, patch b o e = pre2 ++ mid ++ rest2 ∧ pre2.length = pre.length := by
  rcases h with h | h
  · refine ⟨pre, (patch b o e).drop (pre.length + mid.length), ?_, rfl⟩
    have : (patch b o e).take (pre.length + mid.length) = pre ++ mid := by
      unfold patch
      rw [List.append_assoc, List.take_append_of_le_length (by simp; omega), List.take_take, Nat.min_eq_left h, hb, List.take_left' (by simp)]
    rw [← this, List.take_append_drop]
  · refine ⟨(patch b o e).take pre.length, rest, ?_, ?_⟩
    · have : (patch b o e).drop pre.length = mid ++ rest := by
        unfold patch
        rw [List.drop_append]
        have h1 : (List.take o b ++ e).length = o + e.length := by simp; omega
        rw [h1, List.drop_drop, List.drop_of_length_le (l := List.take o b ++ e) (by omega), List.nil_append]
        rw [show o + e.length + (pre.length - (o + e.length)) = pre.length by omega, hb, List.append_assoc, List.drop_left' rfl]
      rw [List.append_assoc, ← this, List.take_append_drop]
    · rw [List.length_take, patch_length ho, Nat.min_eq_left]
      rw [hb]; simp

theorem cell_patch {sb : SB} {w : Ptr} {c : UInt8} {str data : List UInt8} (hc : Cell sb w c str data) (i : Nat) (b : Buf) (hb : sb.blocks[i]? = some b)
    (o : Nat) (e : List UInt8) (ho : o + e.length ≤ b.length) (used : Nat) (hu : sb.used ≤ used)
    (h : w.1 ≠ i ∨ w.2 + 2 + sb.uds + str.length ≤ o ∨ o + e.length ≤ w.2) :
    Cell { sb with blocks := sb.blocks.set i (patch b o e), used := used } w c str data := by
  obtain ⟨pre, rest, hw, hp, hd, h0, hl⟩ := hc
  have hlim : w.2 + 2 + sb.uds + str.length ≤ lim { sb with blocks := sb.blocks.set i (patch b o e), used := used } w.1 := by
    unfold lim at *
    simp only [List.length_set]
    by_cases hx : w.1 + 1 = sb.blocks.length
    · rw [if_pos hx] at hl ⊢; omega
    · rw [if_neg hx] at hl ⊢; exact hl
  by_cases hi : w.1 = i
  · have hbe : b = pre ++ (c :: (data ++ (str ++ [0]))) ++ rest := by
      rw [hi, hb] at hw; cases hw; simp
    have hlen : (c :: (data ++ (str ++ [0]))).length = 2 + sb.uds + str.length := by simp; omega
    obtain ⟨pre2, rest2, e2, hp2⟩ := patch_cell (mid := c :: (data ++ (str ++ [0]))) hbe ho (by
      rw [hlen]
      rcases h with h | h | h
      · exact absurd hi h
      · left; omega
      · right; omega)
    refine ⟨pre2, rest2, ?_, by omega, hd, h0, hlim⟩
    simp only []
    have hil : i < sb.blocks.length := by
      rw [List.getElem?_eq_some_iff] at hb; exact hb.1
    rw [hi, List.getElem?_set_self hil, e2]
    simp
  · refine ⟨pre, rest, ?_, hp, hd, h0, hlim⟩
    simp only []
    rw [List.getElem?_set_ne (fun e => hi e.symm)]; exact hw

/-- A block that is appended leaves the cells alone. -/
theorem cell_newBlock {sb : SB} {w : Ptr} {c : UInt8} {str data : List UInt8} (hm : MemInv sb) (hc : Cell sb w c str data) (blk : Buf) (bcap : Nat) :
    Cell { sb with blocks := sb.blocks ++ [blk], bcap := bcap, used := 0 } w c str data ∧ w.1 < sb.blocks.length := by
  obtain ⟨pre, rest, hw, hp, hd, h0, hl⟩ := hc
  have hil : w.1 < sb.blocks.length := by
    rw [List.getElem?_eq_some_iff] at hw; exact hw.1
  refine ⟨⟨pre, rest, ?_, hp, hd, h0, ?_⟩, hil⟩
  · simp only []; rw [List.getElem?_append_left hil]; exact hw
  · unfold lim at *
    simp only [List.length_append, List.length_singleton]
    rw [if_neg (by omega)]
    have := hm.used
    split at hl <;> omega

theorem newBlock_spec (sb : SB) (hm : MemInv sb) :
    ∃ sb', newBlock sb = .ok sb' ∧ MemInv sb' ∧ sb'.uds = sb.uds ∧ sb'.used = 0 ∧ sb'.blocks.length = sb.blocks.length + 1 ∧
      ∀ w c s d, Cell sb w c s d → Cell sb' w c s d ∧ w.1 < sb.blocks.length := by
  have hg := grow_ok hm.cap
  refine ⟨{ sb with blocks := sb.blocks ++ [List.replicate blockSize 0], bcap := grow sb.bcap sb.blocks.length, used := 0 }, ?_, ?_, rfl, rfl, by simp, ?_⟩
  · unfold newBlock; simp only []; rw [if_pos hg.1]
  · refine ⟨?_, by simp, by simpa using hg.2, ?_⟩
    · intro b hb
      simp only [List.mem_append, List.mem_singleton] at hb
      rcases hb with hb | hb
      · exact hm.size b hb
      · subst hb; simp
    · intro b hb
      simp at hb
      rw [← hb]; simp
  · intro w c s d hc
    exact cell_newBlock hm hc _ _

/-- The writing part of `alloc`. -/
theorem alloc_write (sb : SB) (hm : MemInv sb) (hne : sb.blocks ≠ []) (c : UInt8) (s : List UInt8) (h0 : 0 ∉ s)
    (hfit : sb.used + 1 + (s.length + 1) + sb.uds ≤ blockSize) :
    ∃ blk blk1 blk2, sb.blocks[sb.blocks.length - 1]? = some blk ∧ wr blk sb.used c = .ok blk1 ∧
      memcpy blk1 (sb.used + sb.uds + 1) (s ++ [0]) = .ok blk2 ∧
      MemInv { sb with blocks := sb.blocks.set (sb.blocks.length - 1) blk2, used := sb.used + (sb.uds + 1 + (s.length + 1)) } ∧
      Cell { sb with blocks := sb.blocks.set (sb.blocks.length - 1) blk2, used := sb.used + (sb.uds + 1 + (s.length + 1)) }
        (sb.blocks.length - 1, sb.used) c s (List.replicate sb.uds 0) ∧
      (∀ w c' s' d', Cell sb w c' s' d' →
        Cell { sb with blocks := sb.blocks.set (sb.blocks.length - 1) blk2, used := sb.used + (sb.uds + 1 + (s.length + 1)) } w c' s' d' ∧
        Apart sb.uds w s'.length (sb.blocks.length - 1, sb.used) s.length) := by
  have hpos : 0 < sb.blocks.length := List.length_pos_iff.2 hne
  obtain ⟨blk, hblk⟩ : ∃ blk, sb.blocks[sb.blocks.length - 1]? = some blk := ⟨sb.blocks[sb.blocks.length - 1]'(by omega), by simp⟩
  have hmem : blk ∈ sb.blocks := List.mem_of_getElem? hblk
  have hlen := hm.size blk hmem
  have hz := hm.zero blk hblk
  -- the block: used part, then zeros
  have hbe : blk = blk.take sb.used ++ List.replicate (blockSize - sb.used) 0 := by rw [← hz, List.take_append_drop]
  have htl : (blk.take sb.used).length = sb.used := by simp; omega
  have hrep : List.replicate (blockSize - sb.used) (0 : UInt8) =
      [0] ++ List.replicate sb.uds 0 ++ (List.replicate (s.length + 1) 0 ++ List.replicate (blockSize - (sb.used + (sb.uds + 1 + (s.length + 1)))) 0) := by
    rw [List.replicate_append_replicate, List.append_assoc, List.replicate_append_replicate]
    rw [show blockSize - sb.used = (sb.uds + (s.length + 1 + (blockSize - (sb.used + (sb.uds + 1 + (s.length + 1)))))) + 1 by omega, List.replicate_succ]
    rfl
  have e0 : blk = blk.take sb.used ++ [0] ++ (List.replicate sb.uds 0 ++ (List.replicate (s.length + 1) 0 ++
      List.replicate (blockSize - (sb.used + (sb.uds + 1 + (s.length + 1)))) 0)) := by
    rw [hrep] at hbe
    calc blk = _ := hbe
      _ = _ := by simp
  have e1 : wr blk sb.used c = .ok (patch blk sb.used [c]) := wr_eq (by omega)
  have e1' : patch blk sb.used [c] = blk.take sb.used ++ [c] ++ (List.replicate sb.uds 0 ++ (List.replicate (s.length + 1) 0 ++
      List.replicate (blockSize - (sb.used + (sb.uds + 1 + (s.length + 1)))) 0)) := by
    have := patch_at (pre := blk.take sb.used) (mid := [0]) (post := List.replicate sb.uds 0 ++ (List.replicate (s.length + 1) 0 ++
      List.replicate (blockSize - (sb.used + (sb.uds + 1 + (s.length + 1)))) 0)) (e := [c]) rfl
    rw [htl, ← e0] at this; exact this
  have e2 : patch (patch blk sb.used [c]) (sb.used + sb.uds + 1) (s ++ [0]) = blk.take sb.used ++ [c] ++ List.replicate sb.uds 0 ++ (s ++ [0]) ++
      List.replicate (blockSize - (sb.used + (sb.uds + 1 + (s.length + 1)))) 0 := by
    have := patch_at (pre := blk.take sb.used ++ [c] ++ List.replicate sb.uds 0) (mid := List.replicate (s.length + 1) 0)
      (post := List.replicate (blockSize - (sb.used + (sb.uds + 1 + (s.length + 1)))) 0) (e := s ++ [0]) (by simp)
    have hl : (blk.take sb.used ++ [c] ++ List.replicate sb.uds 0).length = sb.used + sb.uds + 1 := by simp; omega
    rw [hl] at this
    rw [e1', ← this]
    simp only [List.append_assoc]
  have hlen1 : (patch blk sb.used [c]).length = blockSize := by rw [patch_length (by simp; omega)]; exact hlen
  have hlen2 : (patch (patch blk sb.used [c]) (sb.used + sb.uds + 1) (s ++ [0])).length = blockSize := by
    rw [patch_length (by simp; omega)]; exact hlen1
  refine ⟨blk, _, patch (patch blk sb.used [c]) (sb.used + sb.uds + 1) (s ++ [0]), hblk, e1, ?_, ?_, ?_, ?_⟩
  · unfold memcpy; rw [if_pos (by simp; omega)]
  · refine ⟨?_, ?_, ?_, ?_⟩
    · intro b hb
      rcases List.mem_or_eq_of_mem_set hb with hb | hb
      · exact hm.size b hb
      · rw [hb]; exact hlen2
    · simp only []; omega
    · simp only [List.length_set]; exact hm.cap
    · intro b hb
      simp only [List.length_set] at hb
      rw [List.getElem?_set_self (by omega)] at hb
      cases hb
      rw [e2]
      simp only []
      rw [List.drop_left' (by simp; omega)]
  · refine ⟨blk.take sb.used, List.replicate (blockSize - (sb.used + (sb.uds + 1 + (s.length + 1)))) 0, ?_, htl, by simp, h0, ?_⟩
    · simp only []
      rw [List.getElem?_set_self (by omega), e2]; simp
    · unfold lim
      simp only [List.length_set]
      rw [if_pos (by omega)]; omega
  · intro w c' s' d' hc
    have hap : Apart sb.uds w s'.length (sb.blocks.length - 1, sb.used) s.length := by
      obtain ⟨pre, rest, hw, hp, hd, h0, hl⟩ := hc
      have hil : w.1 < sb.blocks.length := by
        rw [List.getElem?_eq_some_iff] at hw; exact hw.1
      unfold lim at hl
      unfold Apart
      by_cases hx : w.1 + 1 = sb.blocks.length
      · rw [if_pos hx] at hl; right; left; simpa using hl
      · left; simp; omega
    refine ⟨?_, hap⟩
    have hcond : w.1 ≠ sb.blocks.length - 1 ∨ w.2 + 2 + sb.uds + s'.length ≤ sb.used := by
      obtain ⟨pre, rest, hw, hp, hd, h0, hl⟩ := hc
      unfold lim at hl
      by_cases hx : w.1 = sb.blocks.length - 1
      · rw [if_pos (by omega)] at hl; exact .inr hl
      · exact .inl hx
    have c1 := cell_patch hc (sb.blocks.length - 1) blk hblk sb.used [c] (by simp; omega) sb.used (Nat.le_refl _) (by
      rcases hcond with h | h
      · exact .inl h
      · exact .inr (.inl h))
    have c2 := cell_patch c1 (sb.blocks.length - 1) (patch blk sb.used [c]) (by simp only []; rw [List.getElem?_set_self (by omega)])
      (sb.used + sb.uds + 1) (s ++ [0]) (by simp; omega) (sb.used + (sb.uds + 1 + (s.length + 1))) (by simp only []; omega) (by
      rcases hcond with h | h
      · exact .inl h
      · exact .inr (.inl (by simp only []; omega)))
    simp only [List.set_set] at c2
    exact c2

/-- Memory is found for every string that fits into a block; nothing else changes. -/
theorem alloc_spec (sb : SB) (hm : MemInv sb) (c : UInt8) (s : List UInt8) (h0 : 0 ∉ s) (hfit : s.length + 2 + sb.uds ≤ blockSize) :
    ∃ sb' v, alloc sb c s = .ok (sb', v) ∧ MemInv sb' ∧ sb'.uds = sb.uds ∧ Cell sb' v c s (List.replicate sb.uds 0) ∧
      ∀ w c' s' d', Cell sb w c' s' d' → Cell sb' w c' s' d' ∧ Apart sb.uds w s'.length v s.length := by
  by_cases hb : sb.blocks = [] ∨ sb.used + 1 + (s.length + 1) + sb.uds > blockSize
  · obtain ⟨sb1, e1, m1, u1, us1, l1, f1⟩ := newBlock_spec sb hm
    have hne : sb1.blocks ≠ [] := by intro e; rw [e] at l1; simp at l1
    obtain ⟨blk, blk1, blk2, a1, a2, a3, a4, a5, a6⟩ := alloc_write sb1 m1 hne c s h0 (by rw [us1, u1]; omega)
    refine ⟨_, _, ?_, a4, u1, by rw [← u1]; exact a5, ?_⟩
    · unfold alloc
      simp only []
      rw [if_pos hb, e1]
      simp only [Res.ok_bind]
      rw [a1]
      simp only []
      rw [a2]
      simp only [Res.ok_bind]
      rw [a3]; rfl
    · intro w c' s' d' hc
      have h1 := f1 w c' s' d' hc
      have h2 := a6 w c' s' d' h1.1
      exact ⟨h2.1, u1 ▸ h2.2⟩
  · have hne : sb.blocks ≠ [] := fun e => hb (.inl e)
    obtain ⟨blk, blk1, blk2, a1, a2, a3, a4, a5, a6⟩ := alloc_write sb hm hne c s h0 (by
      have : ¬ sb.used + 1 + (s.length + 1) + sb.uds > blockSize := fun e => hb (.inr e)
      omega)
    refine ⟨_, _, ?_, a4, rfl, a5, a6⟩
    unfold alloc
    simp only []
    rw [if_neg hb]
    simp only [Res.ok_bind]
    rw [a1]
    simp only []
    rw [a2]
    simp only [Res.ok_bind]
    rw [a3]; rfl

/-- The user writes into a slot: only its data change. -/
theorem userWrite_spec (sb : SB) (hm : MemInv sb) (v : Ptr) (c : UInt8) (s data d : List UInt8) (hc : Cell sb v c s data) (hd : d.length ≤ sb.uds) :
    ∃ sb', userWrite sb (v.1, v.2 + 1) d = .ok sb' ∧ MemInv sb' ∧ sb'.uds = sb.uds ∧ Cell sb' v c s (d ++ data.drop d.length) ∧
      ∀ w c' s' d', Cell sb w c' s' d' → Apart sb.uds w s'.length v s.length → Cell sb' w c' s' d' := by
  have hc' := hc
  obtain ⟨pre, rest, hb, hp, hdl, h0, hl⟩ := hc'
  generalize hblk : pre ++ c :: (data ++ (s ++ 0 :: rest)) = blk at hb
  have hil : v.1 < sb.blocks.length := by
    rw [List.getElem?_eq_some_iff] at hb; exact hb.1
  have hlen := hm.size blk (List.mem_of_getElem? hb)
  have hbl : pre.length + 2 + data.length + s.length + rest.length = blockSize := by rw [← hlen, ← hblk]; simp; omega
  have hpl : (patch blk (v.2 + 1) d).length = blockSize := by rw [patch_length (by omega)]; exact hlen
  have hpe : patch blk (v.2 + 1) d = pre ++ c :: ((d ++ data.drop d.length) ++ (s ++ 0 :: rest)) := by
    have := patch_at (pre := pre ++ [c]) (mid := data.take d.length) (post := data.drop d.length ++ (s ++ 0 :: rest)) (e := d) (by simp; omega)
    have hl2 : (pre ++ [c]).length = v.2 + 1 := by simp; omega
    rw [hl2] at this
    rw [← hblk]
    have e : pre ++ c :: (data ++ (s ++ 0 :: rest)) = pre ++ [c] ++ data.take d.length ++ (data.drop d.length ++ (s ++ 0 :: rest)) := by
      conv => lhs; rw [← List.take_append_drop d.length data]
      simp only [List.append_assoc, List.cons_append, List.nil_append]
    rw [e, this]; simp
  have hsb : ({ sb with blocks := sb.blocks.set v.1 (patch blk (v.2 + 1) d) } : SB) =
      { sb with blocks := sb.blocks.set v.1 (patch blk (v.2 + 1) d), used := sb.used } := rfl
  refine ⟨{ sb with blocks := sb.blocks.set v.1 (patch blk (v.2 + 1) d) }, ?_, ?_, rfl, ?_, ?_⟩
  · unfold userWrite
    simp only []
    rw [hb]
    simp only []
    unfold memcpy
    rw [if_pos (by omega)]; rfl
  · refine ⟨?_, hm.used, by simp only [List.length_set]; exact hm.cap, ?_⟩
    · intro b hb2
      rcases List.mem_or_eq_of_mem_set hb2 with hb2 | hb2
      · exact hm.size b hb2
      · rw [hb2]; exact hpl
    · intro b hb2
      simp only [List.length_set] at hb2
      by_cases hx : v.1 = sb.blocks.length - 1
      · rw [← hx, List.getElem?_set_self hil] at hb2
        cases hb2
        simp only []
        have hz := hm.zero blk (by rw [← hx]; exact hb)
        unfold lim at hl
        rw [if_pos (by omega)] at hl
        have hle : (d ++ data.drop d.length).length = data.length := by simp; omega
        -- the part from `used` on is not touched
        have : (patch blk (v.2 + 1) d).drop sb.used = blk.drop sb.used := by
          unfold patch
          rw [List.drop_append, List.drop_of_length_le (by simp; omega), List.nil_append, List.drop_drop]
          congr 1
          simp; omega
        rw [this, hz]
      · rw [List.getElem?_set_ne hx] at hb2
        exact hm.zero b hb2
  · refine ⟨pre, rest, ?_, hp, by simp; omega, h0, ?_⟩
    · simp only []; rw [List.getElem?_set_self hil, hpe]
    · unfold lim at *; simp only [List.length_set]; exact hl
  · intro w c' s' d' hw hap
    rw [hsb]
    refine cell_patch hw v.1 blk hb (v.2 + 1) d (by omega) sb.used (Nat.le_refl _) ?_
    unfold Apart at hap
    rcases hap with h | h | h
    · exact .inl h
    · exact .inr (.inl (by omega))
    · exact .inr (.inr (by omega))

end Verif.StrStore
