/-
  Helper lemmas about the memory of coda/base58.c.
-/
import Verif.Base58.Lemmas
import Verif.Base58.Props
import Verif.Base58Mem.Model

namespace Verif.Base58Mem
open Verif.Base58 Verif.Base58.Spec


theorem alloc_none {h : Heap} (hf : h.fails h.next = true) : h.alloc = ({ h with next := h.next + 1 }, none) := by
  unfold Heap.alloc; rw [if_pos hf]

theorem alloc_some {h : Heap} (hf : h.fails h.next = false) :
    h.alloc = ({ h with live := h.next :: h.live, next := h.next + 1 }, some h.next) := by
  unfold Heap.alloc; rw [if_neg (by simp [hf])]

theorem free_mem {h : Heap} {b : Nat} (hb : b ∈ h.live) : h.free b = .ok { h with live := h.live.erase b } := by
  unfold Heap.free; rw [if_pos hb]

theorem free_top {l : List Nat} {n b : Nat} {f : Nat → Bool} : (Heap.mk (b :: l) n f).free b = .ok ⟨l, n, f⟩ := by
  rw [free_mem (by simp)]; simp

theorem scr_mono' {a b k : Nat} (h : a ≤ b) (hb : b * 733 / 1000 + 1 < k) : a * 733 / 1000 + 1 < k :=
  Nat.lt_of_le_of_lt (Nat.add_le_add_right (Nat.div_le_div_right (Nat.mul_le_mul_right 733 h)) 1) hb

/-- The loop over the digits ends without a carry. -/
theorem decMain_done (z : Nat) (ds : List Nat) (tail : Buf) (hd : ∀ d ∈ ds, d < 58) (htail : Stop tail)
    (hsz : (ds.length + tail.length) * 733 / 1000 + 1 < 2 ^ 31) :
    ∃ buf, decMain (List.replicate z 49 ++ (ds.map chr58 ++ tail)) z (ds.length + tail.length)
      (List.replicate ((ds.length + tail.length) * 733 / 1000 + 1) 0) ((ds.length + tail.length) * 733 / 1000 + 1)
        = .ok (.done buf tail.length) := by
  have hlt : ofDigits 58 ds < 256 ^ ((ds.length + tail.length) * 733 / 1000 + 1) := by
    have a1 := ofDigits_lt hd
    have a2 := pow_bound_dec ds.length
    have a3 : 256 ^ (ds.length * 733 / 1000 + 1) ≤ 256 ^ ((ds.length + tail.length) * 733 / 1000 + 1) :=
      Nat.pow_le_pow_right (by omega) (by omega)
    omega
  obtain ⟨buf, g1, _⟩ := decMain_spec ((ds.length + tail.length) * 733 / 1000 + 1) (by omega) tail htail ds
    (List.replicate z 49) (List.replicate ((ds.length + tail.length) * 733 / 1000 + 1) 0) hd (by simp)
    (by rw [bval_replicate_zero]; simpa using hlt)
  rw [List.length_replicate] at g1
  exact ⟨buf, g1⟩

theorem decOnes_split (z : Nat) (ds : List Nat) (tail out : Buf) (hd : ∀ d ∈ ds, d < 58) (hl : ds.head? ≠ some 0)
    (htail : Stop tail) (ho : z ≤ out.length) :
    decOnes (List.replicate z 49 ++ (ds.map chr58 ++ tail)) 0 (z + (ds.length + tail.length)) out 0
      = .ok (z, ds.length + tail.length, patch out 0 (List.replicate z 0), z) := by
  have tw := ones_split (z := z) hd hl htail
  have h1 := decOnes_spec (List.replicate z 49 ++ (ds.map chr58 ++ tail)) [] [] out 0 (by
    rw [tw]; simp; omega)
  simpa only [List.nil_append, List.append_nil, List.length_nil, tw, List.length_replicate, Nat.zero_add,
    List.length_append, List.length_map, Nat.add_sub_cancel_left] using h1

theorem decode_null (h : Heap) (z : Nat) (ds : List Nat) (tail out : Buf) (hd : ∀ d ∈ ds, d < 58) (hl : ds.head? ≠ some 0)
    (htail : Stop tail) (ho : z ≤ out.length) (hf : h.fails h.next = true) :
    decode h (List.replicate z 49 ++ (ds.map chr58 ++ tail)) (z + (ds.length + tail.length)) out
      = .ok ({ h with next := h.next + 1 }, ⟨-(z : Int), patch out 0 (List.replicate z 0)⟩) := by
  unfold decode
  rw [decOnes_split z ds tail out hd hl htail ho]
  simp only [Res.ok_bind, alloc_none hf]
  congr 3
  omega

theorem decode_good (h : Heap) (z : Nat) (ds : List Nat) (tail out : Buf) (hd : ∀ d ∈ ds, d < 58) (hl : ds.head? ≠ some 0)
    (htail : Stop tail) (hsz : (ds.length + tail.length) * 733 / 1000 + 1 < 2 ^ 31) (ho : z ≤ out.length)
    (hf : h.fails h.next = false) {d : Dec}
    (hdec : coda_base58_decode true (List.replicate z 49 ++ (ds.map chr58 ++ tail)) (z + (ds.length + tail.length)) out = .ok d) :
    decode h (List.replicate z 49 ++ (ds.map chr58 ++ tail)) (z + (ds.length + tail.length)) out
      = .ok ({ h with next := h.next + 1 }, d) := by
  obtain ⟨buf, hm⟩ := decMain_done z ds tail hd htail hsz
  unfold coda_base58_decode at hdec
  unfold decode
  rw [decOnes_split z ds tail out hd hl htail ho] at hdec ⊢
  simp only [Res.ok_bind, alloc_some hf, b256Len_eq hsz, hm, Bool.true_eq_false, if_false] at hdec ⊢
  unfold decodeEnd
  simp only
  by_cases ht : tail.length = 0
  · rw [if_neg (by simp [ht])] at hdec ⊢
    cases hs : skipZeros buf 0 ((ds.length + tail.length) * 733 / 1000 + 1) with
    | ub => rw [hs] at hdec; simp at hdec
    | ok q =>
      rw [hs] at hdec
      simp only [Res.ok_bind] at hdec ⊢
      cases hw : decWrite buf q.1 q.2 (patch out 0 (List.replicate z 0)) z with
      | ub => rw [hw] at hdec; simp at hdec
      | ok o' =>
        rw [hw] at hdec
        simp only [Res.ok_bind, Res.ok.injEq] at hdec ⊢
        rw [free_top, ← hdec]; rfl
  · rw [if_pos ht] at hdec ⊢
    simp only [Res.ok.injEq] at hdec
    rw [free_top, ← hdec]; rfl

/-- Every text: what decoding does, whether calloc fails or not. -/
theorem decode_cases (h : Heap) (z : Nat) (ds : List Nat) (tail out : Buf) (hd : ∀ d ∈ ds, d < 58) (hl : ds.head? ≠ some 0)
    (htail : Stop tail) (hsz : (ds.length + tail.length) * 733 / 1000 + 1 < 2 ^ 31) (body : List UInt8)
    (hbody : Numeral 256 (body.map UInt8.toNat) (ofDigits 58 ds))
    (ho : z + (if tail = [] then body.length else 0) ≤ out.length) :
    decode h (List.replicate z 49 ++ (ds.map chr58 ++ tail)) (z + (ds.length + tail.length)) out
      = .ok ({ h with next := h.next + 1 },
          if h.fails h.next = true then ⟨-(z : Int), patch out 0 (List.replicate z 0)⟩
          else if tail = [] then ⟨(z + body.length : Nat), patch out 0 (List.replicate z 0 ++ body)⟩
          else ⟨-((z + ds.length : Nat) : Int), patch out 0 (List.replicate z 0)⟩) := by
  by_cases hf : h.fails h.next = true
  · rw [decode_null h z ds tail out hd hl htail (by omega) hf, if_pos hf]
  · rw [if_neg hf]
    exact decode_good h z ds tail out hd hl htail hsz (by omega) (by simpa using hf)
      (decode_spec z ds tail out hd hl htail hsz body hbody ho)

/-- A scratch buffer whose length does not fit in `int` makes the digit loop empty. -/
theorem decMain_long (t : Buf) (n L : Nat) (buf : Buf) (hL : 2147483648 < L) (c : UInt8) (hc : t[0]? = some c) (ha : Alpha c)
    (h1 : c ≠ 49) (hn : n ≠ 0) : decMain t 0 n buf L = .ok (.carry n) := by
  obtain ⟨k, hk, rfl⟩ := ha
  have h0 : k ≠ 0 := by rintro rfl; exact h1 (by decide)
  obtain ⟨m, rfl⟩ := Nat.exists_eq_succ_of_ne_zero hn
  have ht := tab_chr k hk
  have hr : rd t 0 = .ok (chr58 k) := by simp [rd, hc]
  rw [Nat.succ_eq_add_one, decMain, hr]
  simp only [Res.ok_bind, coda_isbase58, ht.1]
  rw [if_neg (by simp)]
  simp only [Res.ok_bind, startIdx, if_neg (Nat.not_le.mpr hL), decInner]
  rw [if_pos (by simpa using h0)]

end Verif.Base58Mem
