/-
  Property theorems C156 about the memory of coda/base58.c: no block is lost, and what a caller sees when an allocation fails.
  `Text data t` (Verif/Base58/Spec.lean) says that `t` is the base58 text of `data`.
-/
import Verif.Base58Mem.Lemmas
import Verif.Base58Mem.Spec

namespace Verif.Base58Mem
open Verif.Base58 Verif.Base58.Spec

theorem text_split {data t : List UInt8} (ht : Text data t) (z : Nat) (ds : List Nat) (tail : List UInt8)
    (ht' : t = List.replicate z 49 ++ (ds.map chr58 ++ tail)) (h1 : ∀ d ∈ ds, d < 58) (h2 : ds.head? ≠ some 0) (h3 : Stop tail)
    (body : List UInt8) (hb : Numeral 256 (body.map UInt8.toNat) (ofDigits 58 ds)) :
    tail = [] ∧ data = List.replicate z 0 ++ body := by
  have htail : tail = [] := by
    cases tail with
    | nil => rfl
    | cons c tail =>
      exfalso
      obtain ⟨z', body', ds', _, _, rfl, hn⟩ := ht
      have hc : c ∈ List.replicate z' (UInt8.ofNat '1'.toNat) ++ ds'.map chr58 := by rw [ht']; simp
      apply h3 c rfl
      simp only [List.mem_append, List.mem_replicate, List.mem_map] at hc
      rcases hc with ⟨_, rfl⟩ | ⟨d, hd, rfl⟩
      · exact ⟨0, by decide, by decide⟩
      · exact ⟨d, hn.digits d hd, rfl⟩
  subst htail
  refine ⟨rfl, C13_text_injective _ _ t ht ?_⟩
  exact ⟨z, body, ds, rfl, numeral_head hb, by rw [ht']; simp, ⟨h1, h2, hb.value.symm⟩⟩

/-- **C156 (a)** `coda_base58_decode`, for every text and every heap: no undefined behaviour, and the memory in use is afterwards as
before. If calloc succeeds, the text of `data` gives `data`; if it fails, the result is minus the number of leading '1's. -/
theorem C156_decode (h : Heap) (t out : Buf) (hsz : t.length * 733 / 1000 + 1 < 2 ^ 31) (ho : t.length ≤ out.length) :
    ∃ h' d, decode h t t.length out = .ok (h', d) ∧ h'.live = h.live ∧
      (h.fails h.next = false → ∀ data, Text data t → d = ⟨data.length, data ++ out.drop data.length⟩) ∧
      (h.fails h.next = true → d.ret = -((t.takeWhile (· == 49)).length : Int)) := by
  obtain ⟨z, ds, tail, rfl, h1, h2, h3⟩ := decompose t
  obtain ⟨body, hb⟩ := exists_bytes (ofDigits 58 ds)
  have hbl := bytes_length h1 hb
  have hbl' : body.length ≤ ds.length := by
    cases ds with
    | nil =>
      cases body with
      | nil => simp
      | cons a l =>
        exfalso
        have hl := numeral_lower (b := 256) (ds := l.map UInt8.toNat) (d := a.toNat) (by have := hb.lead; simpa using this)
        have hv := hb.value
        rw [List.map_cons] at hv
        rw [hv] at hl
        have : 0 < 256 ^ (l.map UInt8.toNat).length := Nat.pow_pos (by omega)
        simp [ofDigits] at hl
    | cons d ds => simp only [List.length_cons] at hbl ⊢; omega
  simp only [List.length_append, List.length_replicate, List.length_map] at hsz ho ⊢
  have := decode_cases h z ds tail out h1 h2 h3 (scr_mono' (by omega) hsz) body hb (by split <;> omega)
  refine ⟨_, _, this, rfl, ?_, ?_⟩
  · intro hf data ht
    obtain ⟨rfl, rfl⟩ := text_split ht z ds tail rfl h1 h2 h3 body hb
    rw [if_neg (by simp [hf]), if_pos rfl]
    simp [patch]
  · intro hf
    rw [if_pos hf, ones_split h1 h2 h3, List.length_replicate]

example : (decode ⟨[3], 5, fun _ => false⟩ [49, 122, 122] 3 [7, 7, 7]).map (fun x => (x.1.live, x.2)) = .ok ([3], ⟨3, [0, 13, 35]⟩) := by
  decide +kernel
example : (decode ⟨[3], 5, fun _ => true⟩ [49, 122, 122] 3 [7, 7, 7]).map (fun x => (x.1.live, x.2)) = .ok ([3], ⟨-1, [0, 7, 7]⟩) := by
  decide +kernel

/-- What the caller of `coda_base58_decode_alloc` sees: it makes at most two requests, the second one only if the first succeeds. -/
def seen (h : Heap) (r : DecRes) : Spec.Call :=
  ⟨h.live, h.fails h.next || h.fails (h.next + 1), r.heap.live, r.ret, r.out.map Prod.fst⟩

theorem countLead_split (z : Nat) (ds : List Nat) (tail : Buf) (h1 : ∀ d ∈ ds, d < 58) (h2 : ds.head? ≠ some 0) (h3 : Stop tail) :
    countLead 49 (List.replicate z 49 ++ (ds.map chr58 ++ tail)) 0 (z + (ds.length + tail.length))
      = .ok (z, ds.length + tail.length) := by
  have tw := ones_split (z := z) h1 h2 h3
  have hc := countLead_spec 49 (List.replicate z 49 ++ (ds.map chr58 ++ tail)) []
  have hsum : ∀ l : Buf, (l.dropWhile (· == 49)).length = l.length - (l.takeWhile (· == 49)).length := by
    intro l
    have := congrArg List.length (List.takeWhile_append_dropWhile (p := (· == (49 : UInt8))) (l := l))
    rw [List.length_append] at this; omega
  rw [hsum, tw] at hc
  simpa only [List.nil_append, List.length_nil, Nat.zero_add, List.length_append, List.length_replicate,
    List.length_map, Nat.add_sub_cancel_left] using hc

/-- **C156 (b)** `coda_base58_decode_alloc`, for every text, every heap and whichever allocations fail: no undefined behaviour; no
memory is lost. If no allocation fails, the text of `data` gives a block that begins with `data`, and its length. If malloc fails,
or if the text begins with '1', a failed allocation is told by the pointer. Missing: the other texts, and the number
(`C156_refuted_number`, `C156_refuted_pointer`). -/
theorem C156_decode_alloc_partial (fill : Nat → Buf) (h : Heap) (t : Buf) (hw : ∀ b ∈ h.live, b < h.next)
    (hfill : ∀ n, (fill n).length = n) (hsz : t.length * 733 / 1000 + 1 < 2 ^ 31) :
    ∃ r, decodeAlloc fill h t t.length = .ok r ∧ (seen h r).NoLeak ∧
      ((seen h r).failed = false → ∀ data, Text data t →
        r.ret = data.length ∧ ∃ b rest, r.out = some (b, data ++ rest)) ∧
      (h.fails h.next = true ∨ t.head? = some 49 → (seen h r).ToldByPointer) := by
  obtain ⟨z, ds, tail, rfl, h1, h2, h3⟩ := decompose t
  obtain ⟨body, hb⟩ := exists_bytes (ofDigits 58 ds)
  have hbl := bytes_length h1 hb
  have hc := countLead_split z ds tail h1 h2 h3
  have hnew : h.next ∉ h.live := fun hm => absurd (hw _ hm) (Nat.lt_irrefl _)
  simp only [List.length_append, List.length_replicate, List.length_map] at hsz ⊢
  unfold decodeAlloc
  rw [hc]
  simp only [Res.ok_bind]
  by_cases hf : h.fails h.next = true
  · rw [alloc_none hf]
    refine ⟨_, rfl, ⟨fun _ => rfl, fun b hb => by simp [seen] at hb⟩, ?_, fun _ _ => rfl⟩
    intro hff
    simp [seen, hf] at hff
  · simp only [Bool.not_eq_true] at hf
    rw [alloc_some hf]
    simp only
    have := decode_cases { h with live := h.next :: h.live, next := h.next + 1 } z ds tail
      (fill (z + (ds.length + tail.length) * 733 / 1000 + 1)) h1 h2 h3 (scr_mono' (by omega) hsz) body hb
      (by rw [hfill]; split <;> omega)
    rw [this, Res.ok_bind]
    simp only
    by_cases hf2 : h.fails (h.next + 1) = true
    · simp only [hf2, if_true]
      by_cases hz : z = 0
      · subst hz
        rw [if_neg (by simp)]
        refine ⟨_, rfl, ⟨fun hn => by simp [seen] at hn, ?_⟩, ?_, ?_⟩
        · intro b hb
          simp only [seen, Option.map_some, Option.some.injEq] at hb
          subst hb
          exact ⟨hnew, rfl⟩
        · intro hff
          simp [seen, hf2] at hff
        · rintro (h' | h')
          · simp [hf] at h'
          · exfalso
            have tw := ones_split (z := 0) h1 h2 h3
            simp only [List.replicate_zero, List.nil_append] at tw h'
            cases hq : ds.map chr58 ++ tail with
            | nil => rw [hq] at h'; simp at h'
            | cons c l =>
              rw [hq] at h' tw
              simp only [List.head?_cons, Option.some.injEq] at h'
              subst h'
              simp at tw
      · rw [if_pos (by simp; omega), free_top]
        exact ⟨_, rfl, ⟨fun _ => rfl, fun b hb => by simp [seen] at hb⟩, fun hff => by simp [seen, hf2] at hff, fun _ _ => rfl⟩
    · simp only [hf2, Bool.false_eq_true, if_false]
      by_cases ht : tail = []
      · subst ht
        simp only [if_true]
        rw [if_neg (by simp; omega)]
        refine ⟨_, rfl, ⟨fun hn => by simp [seen] at hn, ?_⟩, ?_, ?_⟩
        · intro b hb
          simp only [seen, Option.map_some, Option.some.injEq] at hb
          subst hb
          exact ⟨hnew, rfl⟩
        · intro _ data hT
          obtain ⟨_, rfl⟩ := text_split hT z ds [] rfl h1 h2 h3 body hb
          exact ⟨by simp, _, _, by simp [patch]; exact ⟨rfl, rfl⟩⟩
        · intro _ hff
          simp [seen, hf, hf2] at hff
      · simp only [ht, if_false]
        by_cases hz : z + ds.length = 0
        · rw [if_neg (by simp [hz])]
          refine ⟨_, rfl, ⟨fun hn => by simp [seen] at hn, ?_⟩, ?_, ?_⟩
          · intro b hb
            simp only [seen, Option.map_some, Option.some.injEq] at hb
            subst hb
            exact ⟨hnew, rfl⟩
          · intro _ data hT
            exact absurd (text_split hT z ds tail rfl h1 h2 h3 body hb).1 ht
          · intro _ hff
            simp [seen, hf, hf2] at hff
        · rw [if_pos (by simp; omega), free_top]
          refine ⟨_, rfl, ⟨fun _ => rfl, fun b hb => by simp [seen] at hb⟩, ?_, fun _ _ => rfl⟩
          intro _ data hT
          exact absurd (text_split hT z ds tail rfl h1 h2 h3 body hb).1 ht

/-- The hypotheses are met: heap with one block in use, all allocations succeed, a text with a leading '1'. -/
example : (decodeAlloc (fun n => List.replicate n 7) ⟨[3], 5, fun _ => false⟩ [49, 122, 122] 3).map
    (fun r => (r.heap.live, r.ret, r.out)) = .ok ([5, 3], 3, some (5, [0, 13, 35])) := by decide +kernel
/-- … an invalid text, and the same text with a failing calloc. -/
example : (decodeAlloc (fun n => List.replicate n 7) ⟨[3], 5, fun _ => false⟩ [49, 122, 48] 3).map
    (fun r => (r.heap.live, r.ret, r.out)) = .ok ([3], -2, none) := by decide +kernel
example : (decodeAlloc (fun n => List.replicate n 7) ⟨[3], 5, fun n => n == 6⟩ [49, 122, 122] 3).map
    (fun r => (r.heap.live, r.ret, r.out)) = .ok ([3], -1, none) := by decide +kernel

/-- **C156 refuted (a)** If malloc fails, `coda_base58_decode_alloc` returns 1 for every text: the number says that one byte was
decoded, and the pointer is NULL. -/
theorem C156_refuted_number (fill : Nat → Buf) (h : Heap) (t : Buf) (hf : h.fails h.next = true) :
    ∃ r, decodeAlloc fill h t t.length = .ok r ∧ r.ret = 1 ∧ r.out = none ∧ ¬ (seen h r).ToldByNumber := by
  have hc := countLead_spec 49 t []
  simp only [List.nil_append, List.length_nil] at hc
  unfold decodeAlloc
  rw [hc]
  simp only [Res.ok_bind]
  rw [alloc_none hf]
  exact ⟨_, rfl, rfl, rfl, fun hn => absurd (hn (by simp [seen, hf])) (by simp [seen])⟩

example : (⟨[], 0, fun _ => true⟩ : Heap).fails 0 = true := rfl

/-- **C156 refuted (b)** If malloc succeeds and calloc fails, every text that does not begin with '1' is "decoded" to nothing: the
result is 0 and `*out` points to a block, as for an empty text. -/
theorem C156_refuted_pointer (fill : Nat → Buf) (h : Heap) (t : Buf) (hf : h.fails h.next = false) (hf2 : h.fails (h.next + 1) = true)
    (ht : t.head? ≠ some 49) :
    ∃ r, decodeAlloc fill h t t.length = .ok r ∧ r.ret = 0 ∧ r.out.isSome = true ∧
      ¬ (seen h r).ToldByPointer ∧ ¬ (seen h r).ToldByNumber := by
  have hc := countLead_spec 49 t []
  have tw : t.takeWhile (· == 49) = [] := by
    cases t with
    | nil => rfl
    | cons c t => rw [List.takeWhile_cons_of_neg]; simpa using ht
  simp only [List.nil_append, List.length_nil] at hc
  unfold decodeAlloc
  rw [hc]
  simp only [Res.ok_bind]
  rw [alloc_some hf]
  simp only
  have ho : ∀ out : Buf, decOnes t 0 t.length out 0 = .ok (0, t.length, out, 0) := by
    intro out
    have := decOnes_spec t [] [] out 0 (by rw [tw]; simp)
    simpa [tw, patch] using this
  unfold decode
  rw [ho]
  simp only [Res.ok_bind]
  rw [alloc_none (by simpa using hf2)]
  simp only [Res.ok_bind]
  rw [if_neg (by simp; omega)]
  refine ⟨_, rfl, by simp; omega, rfl, ?_, ?_⟩
  · intro hn
    have := hn (by simp [seen, hf2])
    simp [seen] at this
  · intro hn
    have := hn (by simp [seen, hf2])
    simp only [seen] at this
    omega

/-- A text of 24 bits that is lost. -/
example : (decodeAlloc (fun n => List.replicate n 7) ⟨[3], 5, fun n => n == 6⟩ [122, 122, 122, 122] 4).map
    (fun r => (r.heap.live, r.ret, r.out)) = .ok ([5, 3], 0, some (5, [7, 7, 7])) := by decide +kernel

/-- **C156 refuted (c)** If calloc fails, `coda_base58_encode` uses the null pointer: for every input and every output buffer. -/
theorem C156_refuted_encode (h : Heap) (data out : Buf) (outlen : Nat) (hf : h.fails h.next = true) (ho : outlen ≤ out.length) :
    encode h data data.length out outlen = .ub := by
  have h1 := encZeros_spec data [] [] out 0 outlen (by omega)
  simp only [List.nil_append, List.append_nil, List.length_nil] at h1
  unfold encode
  rw [h1]
  simp only [Res.ok_bind, alloc_none hf]

example : (⟨[], 0, fun _ => true⟩ : Heap).fails 0 = true ∧ 3 ≤ ([7, 7, 7] : Buf).length := ⟨rfl, by decide⟩

/-- **C156 (c)** `coda_base58_encode`, when calloc succeeds: the scratch memory is freed and the result is that of C11 and C15. -/
theorem C156_encode_partial (h : Heap) (data out : Buf) (outlen : Nat) (hf : h.fails h.next = false)
    (hsz : data.length * 138 / 100 + 1 < 2 ^ 31) (ho : outlen ≤ out.length) :
    ∃ t h' out', Text data t ∧ encode h data data.length out outlen = .ok (h', out') ∧ h'.live = h.live ∧
      out' = if outlen ≤ t.length then t.take outlen ++ out.drop outlen else t ++ [0] ++ out.drop (t.length + 1) := by
  obtain ⟨t, ht, he⟩ := C15_base58_encode_buffer data out outlen hsz ho
  have h1 := encZeros_spec data [] [] out 0 outlen (by omega)
  simp only [List.nil_append, List.append_nil, List.length_nil] at h1
  refine ⟨t, { h with next := h.next + 1 }, _, ht, ?_, rfl, rfl⟩
  unfold coda_base58_encode at he
  unfold encode
  rw [h1] at he ⊢
  simp only [Res.ok_bind, alloc_some hf, Bool.true_eq_false, if_false] at he ⊢
  generalize encMain data _ _ _ _ = m at he ⊢
  cases m with
  | ub => simp at he
  | ok buf =>
    simp only [Res.ok_bind] at he ⊢
    generalize skipZeros buf 0 _ = k at he ⊢
    cases k with
    | ub => simp at he
    | ok q =>
      simp only [Res.ok_bind] at he ⊢
      generalize encWrite buf q.1 q.2 _ _ _ = w at he ⊢
      cases w with
      | ub => simp at he
      | ok w =>
        simp only [Res.ok_bind] at he ⊢
        by_cases hz : w.2.2 ≠ 0
        · rw [if_pos hz] at he ⊢
          rw [he]
          simp only [Res.ok_bind, free_top]
        · rw [if_neg hz] at he ⊢
          simp only [Res.ok.injEq] at he
          simp only [Res.ok_bind, free_top, he]

example : (encode ⟨[3], 5, fun _ => false⟩ [0, 1, 0] 3 (List.replicate 5 7) 5).map (fun x => (x.1.live, x.2))
    = .ok ([3], [49, 53, 82, 0, 7]) := by decide +kernel

/-- **C156 (d)** `coda_base58_encode_alloc`: if malloc fails, the pointer is NULL and no memory is lost; if both allocations succeed,
one new block remains and it begins with the NUL terminated text. Missing: a failing calloc (`C156_refuted_encode`). -/
theorem C156_encode_alloc_partial (fill : Nat → Buf) (h : Heap) (data : Buf) (hw : ∀ b ∈ h.live, b < h.next)
    (hfill : ∀ n, (fill n).length = n) (hsz : data.length * 138 / 100 + 1 < 2 ^ 31)
    (hf2 : h.fails h.next = true ∨ h.fails (h.next + 1) = false) :
    ∃ r, encodeAlloc fill h data data.length = .ok r ∧
      (h.fails h.next = true → r.out = none ∧ r.heap.live = h.live) ∧
      (h.fails h.next = false → ∃ t b rest, Text data t ∧ r.out = some (b, t ++ [0] ++ rest) ∧ b ∉ h.live ∧
        r.heap.live = b :: h.live) := by
  have hc := countLead_spec 0 data []
  simp only [List.nil_append, List.length_nil, Nat.zero_add] at hc
  unfold encodeAlloc
  rw [hc]
  simp only [Res.ok_bind]
  by_cases hf : h.fails h.next = true
  · rw [alloc_none hf]
    exact ⟨_, rfl, fun _ => ⟨rfl, rfl⟩, fun hn => by simp [hf] at hn⟩
  · simp only [Bool.not_eq_true] at hf
    rw [alloc_some hf]
    simp only
    obtain ⟨t, h', out', ht, he, hl, ho⟩ := C156_encode_partial { h with live := h.next :: h.live, next := h.next + 1 } data
      (fill ((data.takeWhile (· == 0)).length + (data.dropWhile (· == 0)).length * 138 / 100 + 2))
      ((data.takeWhile (· == 0)).length + (data.dropWhile (· == 0)).length * 138 / 100 + 2)
      (by rcases hf2 with h' | h'
          · simp [hf] at h'
          · exact h') hsz (by rw [hfill]; exact Nat.le_refl _)
    rw [he]
    have hlen := text_length ht
    rw [if_neg (by omega)] at ho
    refine ⟨_, rfl, fun hn => by simp [hf] at hn, fun _ => ⟨t, h.next, (fill ((data.takeWhile (· == 0)).length + (data.dropWhile (· == 0)).length * 138 / 100 + 2)).drop (t.length + 1), ht, ?_, fun hm => absurd (hw _ hm) (Nat.lt_irrefl _), hl⟩⟩
    simp only [ho]

example : (encodeAlloc (fun n => List.replicate n 7) ⟨[3], 5, fun _ => false⟩ [0, 1, 0] 3).map
    (fun r => (r.heap.live, r.ret, r.out)) = .ok ([5, 3], 4, some (5, [49, 53, 82, 0, 7])) := by decide +kernel

/-- **C156 refuted (d)** A text so long that the length of the scratch buffer does not fit in `int` is not decoded, whatever it is: if
it begins with a character of the alphabet other than '1', the result is 0 and the scratch buffer is lost. -/
theorem C156_refuted_leak (h : Heap) (t out : Buf) (c : UInt8) (hc : t.head? = some c) (ha : Alpha c) (h1 : c ≠ 49)
    (hsz : 2 ^ 31 ≤ t.length * 733 / 1000) (hsz' : t.length * 733 / 1000 + 1 < 2 ^ 32) (hf : h.fails h.next = false) :
    ∃ h' d, decode h t t.length out = .ok (h', d) ∧ d.ret = 0 ∧ d.out = out ∧ h'.live = h.next :: h.live := by
  have hlen : t.length ≠ 0 := by cases t with
    | nil => simp at hc
    | cons => simp
  have hL : b256Len t.length = t.length * 733 / 1000 + 1 := by
    unfold b256Len
    rw [Nat.mod_eq_of_lt (a := t.length * 733) (by omega), Nat.mod_eq_of_lt (by omega)]
  have tw : t.takeWhile (· == 49) = [] := by
    cases t with
    | nil => rfl
    | cons d t =>
      simp only [List.head?_cons, Option.some.injEq] at hc
      subst hc
      rw [List.takeWhile_cons_of_neg]; simpa using h1
  have ho := decOnes_spec t [] [] out 0 (by rw [tw]; simp)
  simp only [List.nil_append, List.append_nil, List.length_nil, tw, Nat.add_zero, Nat.sub_zero, List.replicate_zero] at ho
  have hp : patch out 0 [] = out := by simp [patch]
  rw [hp] at ho
  unfold decode
  rw [ho]
  simp only [Res.ok_bind]
  rw [alloc_some hf]
  simp only
  rw [decMain_long t t.length _ _ (by rw [hL]; omega) c (by rw [← List.head?_eq_getElem?]; exact hc) ha h1 hlen]
  simp only [Res.ok_bind, decodeEnd]
  exact ⟨_, _, rfl, by simp; omega, rfl, rfl⟩

/-- Three thousand million times the character '2'. -/
example : ∃ t : Buf, t.head? = some 50 ∧ Alpha 50 ∧ 2 ^ 31 ≤ t.length * 733 / 1000 ∧ t.length * 733 / 1000 + 1 < 2 ^ 32 := by
  obtain ⟨n, hn⟩ : ∃ n, n = 3000000000 := ⟨_, rfl⟩
  refine ⟨List.replicate n 50, ?_, ⟨1, by decide, by decide⟩, ?_, ?_⟩
  · rw [List.head?_replicate, if_neg (by omega)]
  · rw [List.length_replicate]; omega
  · rw [List.length_replicate]; omega

end Verif.Base58Mem
