/-
  Property theorems C11–C16 about coda/base58.c.
  `Spec.Text data t` says that `t` is the base58 text of `data`.
  The scratch-buffer length must fit in `int` (inputs below about 1.5 GB); this
  is the hypothesis `… < 2 ^ 31`.  `true` as first argument: calloc succeeded.
-/
import Verif.Base58.Lemmas

namespace Verif.Base58
open Spec

private theorem scr_mono {a b k : Nat} (h : a ≤ b) (hb : b * 733 / 1000 + 1 < k) : a * 733 / 1000 + 1 < k := by
  exact Nat.lt_of_le_of_lt (Nat.add_le_add_right (Nat.div_le_div_right (Nat.mul_le_mul_right 733 h)) 1) hb

/-- **C11** For every input, encoding is free of undefined behaviour (in
particular the carry loop stays inside the scratch buffer) and writes the
NUL terminated base58 text. -/
theorem C11_base58_encode_text (data out : Buf) (outlen : Nat)
    (hsz : data.length * 138 / 100 + 1 < 2 ^ 31) (ho : outlen ≤ out.length) :
    ∃ t, Text data t ∧ (t.length < outlen →
      coda_base58_encode true data data.length out outlen = .ok (t ++ [0] ++ out.drop (t.length + 1))) := by
  obtain ⟨t, ht⟩ := exists_text data
  refine ⟨t, ht, fun h => ?_⟩
  rw [encode_spec data t out outlen ht hsz ho, if_neg (by omega)]

-- two leading zero bytes: 00 00 01 00 -> "115R"
example : coda_base58_encode true [0, 0, 1, 0] 4 (List.replicate 6 7) 6 = .ok [49, 49, 53, 82, 0, 7] := by
  decide +kernel
example : Text [0, 0, 1, 0] [49, 49, 53, 82] :=
  ⟨2, [1, 0], [4, 24], rfl, by decide, by decide, ⟨by decide, by decide, by decide⟩⟩

/-- The text of a byte string is unique, so C11 determines the output. -/
theorem C11_text_unique (data t t' : List UInt8) (h : Text data t) (h' : Text data t') : t = t' :=
  text_unique h h'

/-- **C12** Decoding the text written by the encoder (any buffer it fits in)
returns the original length and the original bytes. -/
theorem C12_base58_decode_encode (data out buf : Buf) (hsz : data.length * 138 / 100 + 1 < 2 ^ 31)
    (ho : data.length * 138 / 100 + 2 ≤ out.length) (hbuf : data.length ≤ buf.length) :
    ∃ enc len, coda_base58_encode true data data.length out out.length = .ok enc ∧
      enc[len]? = some 0 ∧ (∀ i, i < len → enc[i]? ≠ some 0) ∧
      coda_base58_decode true (enc.take len) len buf = .ok ⟨data.length, data ++ buf.drop data.length⟩ := by
  obtain ⟨t, ht⟩ := exists_text data
  have hlen := text_length ht
  have hdl : (data.takeWhile (· == 0)).length + (data.dropWhile (· == 0)).length = data.length := by
    rw [← List.length_append, List.takeWhile_append_dropWhile]
  have he := encode_spec data t out out.length ht hsz (Nat.le_refl _)
  rw [if_neg (by omega)] at he
  refine ⟨_, t.length, he, by simp, ?_, ?_⟩
  · intro i hi h
    rw [List.append_assoc, List.getElem?_append_left hi] at h
    have hm : (0 : UInt8) ∈ t := List.mem_of_getElem? h
    obtain ⟨z, body, ds, _, _, rfl, hn⟩ := ht
    have hz : ∀ n, n < 58 → chr58 n ≠ 0 := by decide
    simp only [List.mem_append, List.mem_replicate, List.mem_map] at hm
    rcases hm with ⟨_, h⟩ | ⟨d, hd, h⟩
    · exact absurd h (by decide)
    · exact hz d (hn.digits d hd) h
  · obtain ⟨z, body, ds, rfl, hbody, rfl, hn⟩ := ht
    have htk : ∀ (a b c : Buf), (a ++ b ++ c).take a.length = a := by intro a b c; simp
    rw [htk]
    have hbn : Numeral 256 (body.map UInt8.toNat) (ofDigits 58 ds) := by
      refine ⟨?_, ?_, hn.value.symm⟩
      · intro d h; obtain ⟨a, _, rfl⟩ := List.mem_map.mp h; exact a.toNat_lt
      · cases body with
        | nil => simp
        | cons a l =>
          have : a ≠ 0 := by simpa using hbody
          simpa [← UInt8.toNat_inj] using this
    obtain ⟨tw, dw⟩ := takeWhile_replicate_append (n := z) hbody
    rw [tw, dw] at hlen
    simp only [List.length_append, List.length_replicate, List.length_map] at *
    have := decode_spec z ds [] buf hn.digits hn.lead (by simp [Stop]) (by simp; omega) body hbn (by simpa using hbuf)
    simp only [List.append_nil, List.length_nil, Nat.add_zero, if_true] at this
    rw [show UInt8.ofNat '1'.toNat = 49 by rfl, this]
    simp [patch]

example : coda_base58_decode true [49, 49, 53, 82] 4 [9, 9, 9, 9, 9] = .ok ⟨4, [0, 0, 1, 0, 9]⟩ := by decide +kernel

/-- **C13** Every string over the alphabet decodes successfully to some bytes, and the
base58 text of these bytes is that string (so encoding inverts decoding). -/
theorem C13_base58_encode_decode (t buf : Buf) (ha : ∀ c ∈ t, Alpha c)
    (hsz : t.length * 138 / 100 + 200 < 2 ^ 31) (hbuf : t.length + 1 ≤ buf.length) :
    ∃ data, coda_base58_decode true t t.length buf = .ok ⟨data.length, data ++ buf.drop data.length⟩ ∧
      Text data t ∧
      ∀ out : Buf, t.length < out.length →
        coda_base58_encode true data data.length out out.length = .ok (t ++ [0] ++ out.drop (t.length + 1)) := by
  obtain ⟨z, ds, tail, rfl, h1, h2, h3⟩ := decompose t
  have htail : tail = [] := by
    cases tail with
    | nil => rfl
    | cons c tail => exact absurd (ha c (by simp)) (h3 c rfl)
  subst htail
  obtain ⟨body, hb⟩ := exists_bytes (ofDigits 58 ds)
  have hbl := bytes_length h1 hb
  have hbh := numeral_head hb
  simp only [List.append_nil, List.length_append, List.length_replicate, List.length_map] at hsz hbuf
  have hT : Text (List.replicate z 0 ++ body) (List.replicate z 49 ++ (ds.map chr58 ++ [])) :=
    ⟨z, body, ds, rfl, hbh, by simp, ⟨h1, h2, hb.value.symm⟩⟩
  refine ⟨List.replicate z 0 ++ body, ?_, hT, ?_⟩
  · have := decode_spec z ds [] buf h1 h2 h3 (by simp; omega) body hb (by simp; omega)
    simp only [List.length_append, List.length_replicate, List.length_map, List.length_nil, Nat.add_zero, if_true] at *
    rw [this]
    simp [patch]
  · intro out ho
    rw [encode_spec _ _ out out.length hT (by simp; omega) (Nat.le_refl _), if_neg (by omega)]

example : ∀ c ∈ ([50, 103] : Buf), Alpha c := by
  intro c hc
  simp at hc
  rcases hc with rfl | rfl
  · exact ⟨1, by decide, by decide⟩
  · exact ⟨39, by decide, by decide⟩
example : coda_base58_decode true [50, 103] 2 [7, 7, 7] = .ok ⟨1, [97, 7, 7]⟩ := by decide +kernel

/-- Distinct byte strings have distinct texts. -/
theorem C13_text_injective (x y t : List UInt8) (hx : Text x t) (hy : Text y t) : x = y := by
  obtain ⟨z, body, ds, rfl, hbody, rfl, hn⟩ := hx
  obtain ⟨z', body', ds', rfl, hbody', heq, hn'⟩ := hy
  have s1 := ones_split (z := z) (tail := []) hn.digits hn.lead (by simp [Stop])
  have s2 := ones_split (z := z') (tail := []) hn'.digits hn'.lead (by simp [Stop])
  rw [show UInt8.ofNat '1'.toNat = 49 by rfl] at heq
  rw [List.append_nil] at s1 s2
  rw [heq, s2] at s1
  have hz : z' = z := by have := congrArg List.length s1; simpa using this
  subst hz
  have hm := List.append_cancel_left heq
  have hds : ds = ds' := by
    have l1 := hn.digits
    have l2 := hn'.digits
    clear hn hn' heq s1 s2
    induction ds generalizing ds' with
    | nil => cases ds' with
      | nil => rfl
      | cons => simp at hm
    | cons d ds ih =>
      cases ds' with
      | nil => simp at hm
      | cons e ds' =>
        simp only [List.map_cons, List.cons.injEq] at hm
        rw [chr58_inj d (l1 d (by simp)) e (l2 e (by simp)) hm.1,
          ih ds' hm.2 (fun x hx => l1 x (by simp [hx])) (fun x hx => l2 x (by simp [hx]))]
  subst hds
  have hv : ofDigits 256 (body.map UInt8.toNat) = ofDigits 256 (body'.map UInt8.toNat) := by
    rw [← hn.value, ← hn'.value]
  have mk : ∀ b : List UInt8, b.head? ≠ some 0 → Numeral 256 (b.map UInt8.toNat) (ofDigits 256 (b.map UInt8.toNat)) := by
    intro b hb
    refine ⟨?_, ?_, rfl⟩
    · intro d h; obtain ⟨a, _, rfl⟩ := List.mem_map.mp h; exact a.toNat_lt
    · cases b with
      | nil => simp
      | cons a l =>
        have : a ≠ 0 := by simpa using hb
        simpa [← UInt8.toNat_inj] using this
  have := numeral_unique (b := 256) (by omega) (hv ▸ mk body hbody) (mk body' hbody')
  rw [(List.map_inj_right (fun a b => UInt8.toNat_inj.mp)).mp this]

/-- **C14 (partial)** For a text whose first invalid character is at position `v.length`, the
return value is `-v.length`; hence it is negative as soon as at least one valid
character precedes the invalid one.  Missing: an invalid *first* character, see
`C14_refuted`. -/
theorem C14_base58_decode_reject_partial (v rest buf : Buf) (c : UInt8) (hv : ∀ x ∈ v, Alpha x) (hc : ¬ Alpha c)
    (hsz : (v.length + 1 + rest.length) * 733 / 1000 + 1 < 2 ^ 31) (hbuf : v.length ≤ buf.length) :
    ∃ d, coda_base58_decode true (v ++ c :: rest) (v ++ c :: rest).length buf = .ok d ∧
      d.ret = -(v.length : Int) ∧ (v ≠ [] → d.ret < 0) := by
  obtain ⟨z, ds, tail, rfl, h1, h2, h3⟩ := decompose v
  have htail : tail = [] := by
    cases tail with
    | nil => rfl
    | cons c tail => exact absurd (hv c (by simp)) (h3 c rfl)
  subst htail
  obtain ⟨body, hb⟩ := exists_bytes (ofDigits 58 ds)
  simp only [List.append_nil, List.length_append, List.length_replicate, List.length_map] at *
  have := decode_spec z ds (c :: rest) buf h1 h2 (by intro x hx; simp at hx; exact hx ▸ hc)
    (scr_mono (by rw [List.length_cons]; omega) hsz) body hb (by rw [if_neg (by simp)]; omega)
  simp only [List.length_cons] at *
  rw [List.append_assoc, Nat.add_assoc, this]
  refine ⟨_, rfl, by simp, ?_⟩
  intro hne
  have : z + ds.length ≠ 0 := by
    intro h
    apply hne
    have h1 : z = 0 := by omega
    have h2 : ds = [] := List.eq_nil_of_length_eq_zero (by omega)
    simp [h1, h2]
  simp
  omega

/-- **C14 refuted in general**: an invalid first character gives 0, the same
answer as the successful decoding of an empty text. -/
theorem C14_refuted : ∃ (t buf : Buf), (∃ c ∈ t, ¬ Alpha c) ∧
    coda_base58_decode true t t.length buf = .ok ⟨0, buf⟩ ∧
    coda_base58_decode true [] 0 buf = .ok ⟨0, buf⟩ := by
  refine ⟨[48, 49], [7], ⟨48, by simp, ?_⟩, by decide +kernel, by decide +kernel⟩
  rintro ⟨n, hn, h⟩
  revert h
  revert n
  decide

/-- **C14 refuted** for all texts whose first character is invalid: the answer is 0 and the buffer is left as it is, as for an empty text. -/
theorem C14_refuted_all (c : UInt8) (rest buf : Buf) (hc : ¬ Alpha c) (hsz : (1 + rest.length) * 733 / 1000 + 1 < 2 ^ 31) :
    coda_base58_decode true (c :: rest) (c :: rest).length buf = .ok ⟨0, buf⟩ := by
  have := decode_spec 0 [] (c :: rest) buf (by simp) (by simp) (by intro x hx; simp at hx; exact hx ▸ hc)
    (scr_mono (by rw [List.length_cons, List.length_nil]; omega) hsz) [] ⟨by simp, by simp, rfl⟩ (by simp)
  simpa [patch] using this

/-- A valid text never gives a negative result: together with
`C14_base58_decode_reject_partial` every text is covered. -/
theorem C14_base58_decode_accept (t buf : Buf) (ha : ∀ c ∈ t, Alpha c)
    (hsz : t.length * 138 / 100 + 200 < 2 ^ 31) (hbuf : t.length + 1 ≤ buf.length) :
    ∃ d, coda_base58_decode true t t.length buf = .ok d ∧ 0 ≤ d.ret := by
  obtain ⟨data, h, _⟩ := C13_base58_encode_decode t buf ha hsz hbuf
  exact ⟨_, h, by simp⟩

example : coda_base58_decode true [49, 50, 48] 3 [7] = .ok ⟨-2, [0]⟩ := by decide +kernel

/-- **C15a** A caller-supplied `outlen` is respected: prefix of the text, NUL iff
there is room, rest untouched, for every `outlen`. -/
theorem C15_base58_encode_buffer (data out : Buf) (outlen : Nat)
    (hsz : data.length * 138 / 100 + 1 < 2 ^ 31) (ho : outlen ≤ out.length) :
    ∃ t, Text data t ∧ coda_base58_encode true data data.length out outlen
      = .ok (if outlen ≤ t.length then t.take outlen ++ out.drop outlen
             else t ++ [0] ++ out.drop (t.length + 1)) := by
  obtain ⟨t, ht⟩ := exists_text data
  exact ⟨t, ht, encode_spec data t out outlen ht hsz ho⟩

example : coda_base58_encode true [0, 0, 1, 0] 4 (List.replicate 6 7) 3 = .ok [49, 49, 53, 7, 7, 7] := by
  decide +kernel

/-- **C15b** `coda_base58_encode_alloc`: the block is always large enough; it starts with
the complete NUL terminated text. -/
theorem C15_base58_encode_alloc (malloc : Nat → Option Buf) (data : Buf)
    (hm : ∀ n b, malloc n = some b → b.length = n) (hsz : data.length * 138 / 100 + 1 < 2 ^ 31) :
    ∃ t n, Text data t ∧ t.length < n ∧
      (malloc n = none → coda_base58_encode_alloc malloc true data data.length = .ok ⟨n, none⟩) ∧
      (∀ blk, malloc n = some blk →
        coda_base58_encode_alloc malloc true data data.length
          = .ok ⟨n - 1, some (t ++ [0] ++ blk.drop (t.length + 1))⟩) := by
  obtain ⟨t, ht⟩ := exists_text data
  have hlen := text_length ht
  have hc := countLead_spec 0 data []
  simp only [List.nil_append, List.length_nil, Nat.zero_add] at hc
  refine ⟨t, (data.takeWhile (· == 0)).length + (data.dropWhile (· == 0)).length * 138 / 100 + 2, ht, by omega, ?_, ?_⟩
  · intro h
    simp [coda_base58_encode_alloc, hc, h]
  · intro blk h
    have hb := hm _ _ h
    simp only [coda_base58_encode_alloc, hc, h, Res.ok_bind]
    rw [encode_spec data t blk _ ht hsz (by omega), if_neg (by omega)]
    rfl

example : coda_base58_encode_alloc (fun n => some (List.replicate n 7)) true [0, 1, 0] 3
    = .ok ⟨4, some [49, 53, 82, 0, 7]⟩ := by decide +kernel

/-- **C15c** `coda_base58_decode_alloc` never writes outside the block it allocated, for
every text, valid or not. -/
theorem C15_base58_decode_alloc (malloc : Nat → Option Buf) (t : Buf)
    (hm : ∀ n b, malloc n = some b → b.length = n) (hsz : t.length * 733 / 1000 + 1 < 2 ^ 31) :
    ∃ d, coda_base58_decode_alloc malloc true t t.length = .ok d := by
  obtain ⟨z, ds, tail, rfl, h1, h2, h3⟩ := decompose t
  have tw := ones_split (z := z) h1 h2 h3
  have hc := countLead_spec 49 (List.replicate z 49 ++ (ds.map chr58 ++ tail)) []
  have hsum : ∀ l : Buf, (l.dropWhile (· == 49)).length = l.length - (l.takeWhile (· == 49)).length := by
    intro l
    have := congrArg List.length (List.takeWhile_append_dropWhile (p := (· == (49 : UInt8))) (l := l))
    rw [List.length_append] at this; omega
  rw [hsum, tw] at hc
  simp only [List.nil_append, List.length_nil, Nat.zero_add, List.length_append, List.length_replicate,
    List.length_map, Nat.add_sub_cancel_left] at hc hsz
  obtain ⟨body, hb⟩ := exists_bytes (ofDigits 58 ds)
  have hbl := bytes_length h1 hb
  unfold coda_base58_decode_alloc
  simp only [List.length_append, List.length_replicate, List.length_map]
  rw [hc]
  simp only [Res.ok_bind]
  cases hmm : malloc (z + (ds.length + tail.length) * 733 / 1000 + 1) with
  | none => exact ⟨_, rfl⟩
  | some blk =>
    have hbk := hm _ _ hmm
    have := decode_spec z ds tail blk h1 h2 h3 (scr_mono (by omega) hsz) body hb (by split <;> omega)
    dsimp only
    rw [this, Res.ok_bind]
    (repeat' split) <;> exact ⟨_, rfl⟩

example : coda_base58_decode_alloc (fun n => some (List.replicate n 7)) true [49, 122, 122] 3
    = .ok ⟨3, some [0, 13, 35]⟩ := by decide +kernel

/-- **C15d** For a valid text the allocated block starts with the bytes it denotes, and the result is
their number. -/
theorem C15_base58_decode_alloc_valid (malloc : Nat → Option Buf) (t : Buf) (ha : ∀ c ∈ t, Alpha c)
    (hm : ∀ n b, malloc n = some b → b.length = n) (hsz : t.length * 733 / 1000 + 1 < 2 ^ 31) :
    ∃ data n, Text data t ∧ data.length ≤ n ∧ ∀ blk, malloc n = some blk →
      coda_base58_decode_alloc malloc true t t.length
        = .ok ⟨data.length, some (data ++ blk.drop data.length)⟩ := by
  obtain ⟨z, ds, tail, rfl, h1, h2, h3⟩ := decompose t
  have htail : tail = [] := by
    cases tail with
    | nil => rfl
    | cons c tail => exact absurd (ha c (by simp)) (h3 c rfl)
  subst htail
  have tw := ones_split (z := z) h1 h2 h3
  have hc := countLead_spec 49 (List.replicate z 49 ++ (ds.map chr58 ++ [])) []
  have hsum : ∀ l : Buf, (l.dropWhile (· == 49)).length = l.length - (l.takeWhile (· == 49)).length := by
    intro l
    have := congrArg List.length (List.takeWhile_append_dropWhile (p := (· == (49 : UInt8))) (l := l))
    rw [List.length_append] at this; omega
  rw [hsum, tw] at hc
  simp only [List.nil_append, List.length_nil, Nat.zero_add, List.length_append, List.length_replicate,
    List.length_map, Nat.add_sub_cancel_left, Nat.add_zero] at hc hsz
  obtain ⟨body, hb⟩ := exists_bytes (ofDigits 58 ds)
  have hbl := bytes_length h1 hb
  have hT : Text (List.replicate z 0 ++ body) (List.replicate z 49 ++ (ds.map chr58 ++ [])) :=
    ⟨z, body, ds, rfl, numeral_head hb, by simp, ⟨h1, h2, hb.value.symm⟩⟩
  refine ⟨_, z + ds.length * 733 / 1000 + 1, hT, by simp; omega, ?_⟩
  intro blk hmm
  have hbk := hm _ _ hmm
  unfold coda_base58_decode_alloc
  simp only [List.length_append, List.length_replicate, List.length_map, List.length_nil, Nat.add_zero]
  rw [hc]
  simp only [Res.ok_bind, hmm]
  have := decode_spec z ds [] blk h1 h2 h3 (scr_mono (by simp) hsz) body hb (by simp; omega)
  simp only [List.length_nil, Nat.add_zero, if_true] at this
  rw [this, Res.ok_bind, if_neg (by simp; omega)]
  simp [patch]

/-- **C16 refuted**: the return value of `coda_base58_encode_alloc` is not the
length of the text: encoding the single byte 1 gives "2" but returns 2. -/
theorem C16_refuted : coda_base58_encode_alloc (fun n => some (List.replicate n 0)) true [1] 1
    = .ok ⟨2, some [50, 0, 0]⟩ := by decide +kernel

/-- **C16 (partial)**: the return value is only an upper bound of the text length. -/
theorem C16_base58_encode_alloc_ret_partial (malloc : Nat → Option Buf) (data : Buf)
    (hm : ∀ n b, malloc n = some b → b.length = n) (hsz : data.length * 138 / 100 + 1 < 2 ^ 31)
    (r : EncAlloc) (hr : coda_base58_encode_alloc malloc true data data.length = .ok r)
    (t : List UInt8) (ht : Text data t) : t.length ≤ r.ret := by
  obtain ⟨t', n, ht', hlt, h1, h2⟩ := C15_base58_encode_alloc malloc data hm hsz
  rw [text_unique ht ht']
  cases hmm : malloc n with
  | none => rw [h1 hmm] at hr; cases hr; simp; omega
  | some blk => rw [h2 blk hmm] at hr; cases hr; simp; omega

/-- 58 digits to the 1.38 of the bytes are more than enough from 70 bytes on. -/
theorem pow_gap (n : Nat) (h : 70 ≤ n) : 256 ^ n ≤ 58 ^ (n * 138 / 100) := by
  have h50 : (256 : Nat) ^ 50 ≤ 58 ^ 69 := by decide +kernel
  have hr : ∀ r, r < 50 → 256 ^ (70 + r) ≤ 58 ^ ((70 + r) * 138 / 100) := by decide +kernel
  obtain ⟨q, r, hq, hr'⟩ : ∃ q r, n = 70 + r + 50 * q ∧ r < 50 := ⟨(n - 70) / 50, (n - 70) % 50, by omega, by omega⟩
  subst hq
  have e : (70 + r + 50 * q) * 138 / 100 = (70 + r) * 138 / 100 + 69 * q := by omega
  rw [e, Nat.pow_add 256 (70 + r), Nat.pow_add 58, Nat.pow_mul, Nat.pow_mul]
  exact Nat.mul_le_mul (hr r hr') (Nat.pow_le_pow_left h50 q)

/-- **C16 refuted** for all data that are zero bytes only (or empty), and for all data with 70 bytes or more behind the leading zero bytes: the return value is never the length of the text. -/
theorem C16_refuted_all (malloc : Nat → Option Buf) (z : Nat) (body t : Buf)
    (h0 : body.head? ≠ some 0) (hb : body = [] ∨ 70 ≤ body.length)
    (ht : Text (List.replicate z 0 ++ body) t) (r : EncAlloc)
    (hr : coda_base58_encode_alloc malloc true (List.replicate z 0 ++ body) (List.replicate z 0 ++ body).length = .ok r) : t.length < r.ret := by
  have hz : ∀ a ∈ List.replicate z (0 : UInt8), (a == 0) = true := by intro a ha; rw [List.eq_of_mem_replicate ha]; rfl
  have htw : (List.replicate z 0 ++ body).takeWhile (· == 0) = List.replicate z 0 ∧ (List.replicate z 0 ++ body).dropWhile (· == 0) = body := by
    rw [List.takeWhile_append_of_pos hz, List.dropWhile_append_of_pos hz]
    cases body with
    | nil => simp
    | cons b body =>
      have : (b == 0) = false := by
        rw [beq_eq_false_iff_ne]
        rintro rfl
        exact h0 rfl
      rw [List.takeWhile_cons_of_neg (by simp [this]), List.dropWhile_cons_of_neg (by simp [this])]
      simp
  have hlen : t.length < z + body.length * 138 / 100 + 1 := by
    obtain ⟨z', body', ds, h1, h2, h3, h4⟩ := ht
    have hz' : ∀ a ∈ List.replicate z' (0 : UInt8), (a == 0) = true := by intro a ha; rw [List.eq_of_mem_replicate ha]; rfl
    have e1 : body = body' := by
      have := htw.2
      rw [h1, List.dropWhile_append_of_pos hz'] at this
      rw [← this]
      cases body' with
      | nil => rfl
      | cons b l =>
        have : (b == 0) = false := by
          rw [beq_eq_false_iff_ne]
          rintro rfl
          exact h2 rfl
        rw [List.dropWhile_cons_of_neg (by simp [this])]
    subst e1
    have e2 : z = z' := by
      have := congrArg List.length h1
      simp at this
      exact this
    subst e2
    rw [h3, List.length_append, List.length_replicate, List.length_map]
    cases ds with
    | nil => simp only [List.length_nil]; omega
    | cons d ds =>
      have hd : d ≠ 0 := fun h => h4.lead (by rw [h]; rfl)
      have hlow := numeral_lower (b := 58) (ds := ds) hd
      rw [h4.value] at hlow
      have hup := ofDigits_lt (b := 256) (ds := body.map UInt8.toNat) (by
        intro x hx
        obtain ⟨y, -, rfl⟩ := List.mem_map.mp hx
        exact y.toNat_lt)
      rw [List.length_map] at hup
      rcases hb with rfl | hb
      · simp at hlow hup
      · have hg := pow_gap body.length hb
        have : ds.length < body.length * 138 / 100 := (Nat.pow_lt_pow_iff_right (by omega : 1 < 58)).mp (by omega)
        simp only [List.length_cons]
        omega
  have hc := countLead_spec 0 (List.replicate z 0 ++ body) []
  simp only [List.nil_append, List.length_nil, Nat.zero_add] at hc
  rw [htw.1] at hc
  rw [htw.2, List.length_replicate] at hc
  unfold coda_base58_encode_alloc at hr
  simp only [hc, Res.ok_bind] at hr
  split at hr
  · injection hr with hr
    rw [← hr]
    dsimp only
    omega
  · cases he : coda_base58_encode true (List.replicate z 0 ++ body) (List.replicate z 0 ++ body).length _ (z + body.length * 138 / 100 + 2) with
    | ub => rw [he] at hr; cases hr
    | ok b =>
      rw [he] at hr
      injection hr with hr
      rw [← hr]
      dsimp only
      omega

-- 70 bytes: 96 characters, returned 97
example : (List.replicate 70 (255 : UInt8)).head? ≠ some 0 ∧ 70 ≤ (List.replicate 70 (255 : UInt8)).length := by decide

end Verif.Base58
