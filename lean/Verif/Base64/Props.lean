/-
  Property theorems C01–C10 about coda/base64.c and coda/web64.c.
  Vocabulary: `Spec.text` (RFC 4648 text of a byte string), `Spec.Denotes`
  (well-formed text and the bytes it denotes), `Spec.textLen`.
-/
import Verif.Base64.Lemmas

namespace Verif.Base64
open Spec

/-- **C01** Encoding any bytes into a large enough buffer and decoding the text
(its length is `textLen`, i.e. CODA_BASE64_LENGTH) into a large enough buffer
succeeds, reports the original length and yields the original bytes. -/
theorem C01_base64_roundtrip (data out buf : Buf) (outlen cap : Nat)
    (ho : outlen ≤ out.length) (hfit : textLen data.length ≤ outlen)
    (hc : cap ≤ buf.length) (hcap : data.length ≤ cap) :
    ∃ enc d, coda_base64_encode data data.length out outlen = .ok enc ∧
      coda_base64_decode enc (textLen data.length) buf cap = .ok d ∧
      d.ret = true ∧ d.outlen = data.length ∧ d.out.take data.length = data :=
  roundtrip codec64 data out buf outlen cap ho hfit hc hcap

-- "Hi!x" into a 9 byte buffer, back into a 4 byte buffer
example : let data : Buf := [72, 105, 33, 120]
    textLen data.length ≤ 9 ∧ 9 ≤ (List.replicate 9 0 : Buf).length ∧ data.length ≤ 4 := by decide
example : coda_base64_encode [72, 105, 33, 120] 4 (List.replicate 9 1) 9
    = .ok [83, 71, 107, 104, 101, 65, 61, 61, 0] := by decide +kernel

/-- **C02** With a buffer of at least the text length, the characters written
are exactly the RFC 4648 text. -/
theorem C02_base64_encode_rfc4648 (data out : Buf) (outlen : Nat)
    (ho : outlen ≤ out.length) (hfit : textLen data.length ≤ outlen) :
    ∃ enc, coda_base64_encode data data.length out outlen = .ok enc ∧
      enc.take (textLen data.length) = text base64Char base64Pad data := by
  obtain ⟨enc, h1, _, h2⟩ := encode_rfc codec64 data out outlen ho hfit
  exact ⟨enc, h1, h2⟩

-- RFC 4648 section 10 vectors "foob" and "foobar"
example : text base64Char base64Pad [102, 111, 111, 98] = [90, 109, 57, 118, 89, 103, 61, 61] := by decide +kernel
example : text base64Char base64Pad [102, 111, 111, 98, 97, 114] = [90, 109, 57, 118, 89, 109, 70, 121] := by
  decide +kernel

/-- **C03** Complete description of the output object for any input object
(`inb`, of which the first `inlen` bytes are encoded) and any output object: a
prefix of the text, a NUL iff `outlen` exceeds the text length, and the untouched
rest.  No undefined behaviour, so no access outside `in[0..inlen)`/`out[0..outlen)`
(the objects may have exactly these sizes). -/
theorem C03_base64_encode_buffer (inb out : Buf) (inlen outlen : Nat)
    (hi : inlen ≤ inb.length) (ho : outlen ≤ out.length) :
    ∃ enc, coda_base64_encode inb inlen out outlen = .ok enc ∧
      enc.length = out.length ∧
      (outlen ≤ textLen inlen →
        enc = (text base64Char base64Pad (inb.take inlen)).take outlen ++ out.drop outlen) ∧
      (textLen inlen < outlen →
        enc = text base64Char base64Pad (inb.take inlen) ++ [0] ++ out.drop (textLen inlen + 1)) :=
  encode_buffer codec64 inb out inlen outlen hi ho

example : coda_base64_encode [102, 111, 111] 3 [7, 7, 7, 7, 7, 7] 3 = .ok [90, 109, 57, 7, 7, 7] := by decide +kernel
example : coda_base64_encode [102, 111, 111] 3 [7, 7, 7, 7] 4 = .ok [90, 109, 57, 118] := by decide +kernel

/-- **C04** `coda_base64_encode_alloc` for every 64-bit length: 0/NULL exactly when
the text plus NUL does not fit in `size_t`; otherwise the text length and the NUL
terminated text, or text length + 1 and NULL if malloc fails. -/
theorem C04_base64_encode_alloc (malloc : Nat → Option Buf) (inb : Buf)
    (h64 : inb.length < 2 ^ 64) (hm : ∀ n b, malloc n = some b → b.length = n) :
    coda_base64_encode_alloc malloc inb inb.length = .ok (
      if textLen inb.length + 1 ≥ 2 ^ 64 then ⟨0, none⟩
      else match malloc (textLen inb.length + 1) with
        | none => ⟨textLen inb.length + 1, none⟩
        | some _ => ⟨textLen inb.length, some (text base64Char base64Pad inb ++ [0])⟩) := by
  unfold coda_base64_encode_alloc base64Length szMod
  generalize hn : inb.length = n at *
  by_cases hov : textLen n + 1 ≥ 2 ^ 64
  · have hq : n > (1 + (n + 2) % 18446744073709551616 / 3 * 4 % 18446744073709551616) % 18446744073709551616 := by
      unfold textLen at hov
      rcases Nat.lt_or_ge (n + 2) 18446744073709551616 with h | h
      · rw [Nat.mod_eq_of_lt h]; omega
      · rw [Nat.mod_eq_sub_mod h, Nat.mod_eq_of_lt (a := n + 2 - 18446744073709551616) (by omega)]
        omega
    rw [if_pos hq, if_pos hov]
  · have he : (1 + (n + 2) % 18446744073709551616 / 3 * 4 % 18446744073709551616) % 18446744073709551616
        = textLen n + 1 := by
      unfold textLen at *
      rw [Nat.mod_eq_of_lt (a := n + 2) (by omega), Nat.mod_eq_of_lt (a := (n + 2) / 3 * 4) (by omega),
        Nat.mod_eq_of_lt (by omega)]
      omega
    have hq : ¬ n > textLen n + 1 := by unfold textLen; omega
    simp only [he, hq, hov, if_false]
    cases hmm : malloc (textLen n + 1) with
    | none => rfl
    | some blk =>
      obtain ⟨enc, h1, h2, h3, h4⟩ := C03_base64_encode_buffer inb blk n (textLen n + 1) (by omega)
        (by rw [hm _ _ hmm]; exact Nat.le_refl _)
      simp only [h1, Res.ok_bind]
      rw [h4 (by omega)]
      have : List.drop (textLen n + 1) blk = [] := by
        apply List.drop_of_length_le; rw [hm _ _ hmm]; exact Nat.le_refl _
      rw [this, List.take_of_length_le (by omega)]
      have : (textLen n + 1 + 18446744073709551616 - 1) % 18446744073709551616 = textLen n := by omega
      rw [this, List.append_nil]

-- both regimes of the overflow test are inhabited by 64-bit lengths
example : textLen 10 + 1 < 2 ^ 64 ∧ textLen (2 ^ 64 - 1) + 1 ≥ 2 ^ 64 ∧ 2 ^ 64 - 1 < 2 ^ 64 := by decide
example : coda_base64_encode_alloc (fun n => some (List.replicate n 9)) [102, 111] 2
    = .ok ⟨4, some [90, 109, 56, 61, 0]⟩ := by decide +kernel

/-- **C05** The decoder returns true iff the text is well formed, and then (with
enough room) the output is what the text denotes. -/
theorem C05_base64_decode_language (t out : Buf) (cap : Nat) (hc : cap ≤ out.length) :
    ∃ d, coda_base64_decode t t.length out cap = .ok d ∧
      (d.ret = true ↔ ∃ b, Denotes base64Char base64Pad t b) ∧
      (∀ b, Denotes base64Char base64Pad t b → b.length ≤ cap →
        d.outlen = b.length ∧ d.out.take b.length = b) :=
  decode_language codec64 t out cap hc

-- "Zm9=" (non-canonical but accepted), "Zm9v" and a rejected text
example : Denotes base64Char base64Pad [90, 109, 57, 61] [102, 111] :=
  .pad1 25 38 61 (by decide) (by decide) (by decide)
example : coda_base64_decode [90, 109, 61, 118] 4 [0, 0, 0] 3 = .ok ⟨false, [102, 0, 0], 1⟩ := by decide +kernel

/-- A well-formed text has a length divisible by four. -/
theorem C05_language_length (t b : List UInt8) (h : Denotes base64Char base64Pad t b) : t.length % 4 = 0 := by
  induction h with
  | nil => rfl
  | quad p q r s t b _ _ _ _ _ ih => simp only [List.length_cons]; omega
  | pad1 => simp
  | pad2 => simp

/-- The text determines the bytes it denotes. -/
theorem C05_language_functional (t b b' : List UInt8) (h : Denotes base64Char base64Pad t b)
    (h' : Denotes base64Char base64Pad t b') : b = b' := by
  have h1 := decOut_of_denotes codec64 h
  have h2 := decOut_of_denotes codec64 h'
  rw [h1] at h2
  exact (Prod.mk.inj h2).1

/-- **C06** For every text and every capacity the decoder is free of undefined
behaviour; there is one byte string `full` and one result, depending only on the
text, such that for every capacity the first `*outlen = min cap |full|` bytes of
the buffer are the prefix of `full` and the rest of the buffer is untouched. -/
theorem C06_base64_decode_buffer (inb : Buf) (inlen : Nat) (hi : inlen ≤ inb.length) :
    ∃ (full : List UInt8) (r : Bool), ∀ (out : Buf) (cap : Nat), cap ≤ out.length →
      coda_base64_decode inb inlen out cap
        = .ok ⟨r, full.take cap ++ out.drop (min cap full.length), min cap full.length⟩ :=
  ⟨(decOut (val b64) 61 (inb.take inlen)).1, (decOut (val b64) 61 (inb.take inlen)).2,
    fun out cap hc => decode_spec _ codec64.len inb out inlen cap hi hc⟩

example : coda_base64_decode [90, 109, 57, 118] 4 [7, 7, 7, 7] 2 = .ok ⟨true, [102, 111, 7, 7], 2⟩ := by decide +kernel

/-- **C07** With a successful malloc, `coda_base64_decode_alloc` accepts exactly the
well-formed texts, returns the complete bytes they denote (never truncated), and
on rejection sets `*out` to NULL and frees the block; with a failing malloc it
returns true with `*out` NULL. -/
theorem C07_base64_decode_alloc (malloc : Nat → Option Buf) (t : Buf)
    (hm : ∀ n b, malloc n = some b → b.length = n) :
    ∃ r, coda_base64_decode_alloc malloc t t.length = .ok r ∧
      (malloc (3 * (t.length / 4) + 2) = none → r.ret = true ∧ r.out = none) ∧
      (malloc (3 * (t.length / 4) + 2) ≠ none →
        (∀ b, Denotes base64Char base64Pad t b →
          r.ret = true ∧ r.outlen = some b.length ∧ ∃ rest, r.out = some (b ++ rest)) ∧
        ((¬ ∃ b, Denotes base64Char base64Pad t b) → r.ret = false ∧ r.out = none ∧ r.freed = 1)) := by
  simp only [coda_base64_decode_alloc]
  cases hmm : malloc (3 * (t.length / 4) + 2) with
  | none => exact ⟨_, rfl, by simp, by simp⟩
  | some blk =>
    have hb := hm _ _ hmm
    obtain ⟨d, h1, h2, h3⟩ := C05_base64_decode_language t blk (3 * (t.length / 4) + 2) (by omega)
    simp only [h1, Res.ok_bind]
    by_cases hd : ∃ b, Denotes base64Char base64Pad t b
    · have hr := h2.mpr hd
      refine ⟨_, by rw [if_neg (by simp [hr])], by simp, ?_⟩
      intro _
      refine ⟨?_, fun h => absurd hd h⟩
      intro b hbn
      have := denotes_length hbn
      obtain ⟨h5, h6⟩ := h3 b hbn (by omega)
      refine ⟨rfl, by rw [h5], d.out.drop b.length, ?_⟩
      rw [← h6, List.length_take]
      have hle : b.length ≤ d.out.length := by
        have := congrArg List.length h6; simp at this; omega
      rw [Nat.min_eq_left hle, List.take_append_drop]
    · have hr : d.ret = false := by
        cases h : d.ret with
        | false => rfl
        | true => exact absurd (h2.mp h) hd
      refine ⟨_, by rw [if_pos hr], by simp, ?_⟩
      intro _
      refine ⟨fun b hb => absurd ⟨b, hb⟩ hd, fun _ => ⟨rfl, rfl, rfl⟩⟩

example : coda_base64_decode_alloc (fun n => some (List.replicate n 9)) [90, 109, 57, 61] 4
    = .ok ⟨true, some [102, 111, 9, 9, 9], some 2, 0⟩ := by decide +kernel

/-- **C08a** The encoding is injective. -/
theorem C08_base64_injective (x y : List UInt8)
    (h : text base64Char base64Pad x = text base64Char base64Pad y) : x = y :=
  C05_language_functional _ x y (denotes_text x) (h ▸ denotes_text y)

/-- The same about the code: two inputs whose complete encodings (in buffers of
exactly the text length plus one) agree are equal. -/
theorem C08_base64_encode_injective (x y out out' enc : Buf)
    (hx : out.length = textLen x.length + 1) (hy : out'.length = textLen y.length + 1)
    (h1 : coda_base64_encode x x.length out out.length = .ok enc)
    (h2 : coda_base64_encode y y.length out' out'.length = .ok enc) : x = y := by
  obtain ⟨e1, h3, l1, _, h4⟩ := C03_base64_encode_buffer x out x.length out.length (Nat.le_refl _) (Nat.le_refl _)
  obtain ⟨e2, h5, l2, _, h6⟩ := C03_base64_encode_buffer y out' y.length out'.length (Nat.le_refl _) (Nat.le_refl _)
  rw [h1] at h3; rw [h2] at h5
  cases h3; cases h5
  have h4 := h4 (by omega)
  have h6 := h6 (by omega)
  rw [List.drop_of_length_le (by omega)] at h4 h6
  rw [h4] at h6
  simp only [List.take_length, List.append_nil] at h6
  exact C08_base64_injective x y (List.append_cancel_right h6)

example : coda_base64_encode [102] 1 [0, 0, 0, 0, 0] 5 = .ok [90, 103, 61, 61, 0] ∧ textLen 1 + 1 = 5 := by
  decide +kernel

/-- **C08b** Decoding a well-formed text and encoding the result gives the text back
exactly when the text is canonical (unused bits zero).  The decode buffer and the
encode buffer are both exactly as large as needed. -/
theorem C08_base64_reencode (t b buf out : Buf) (h : Denotes base64Char base64Pad t b)
    (hbuf : buf.length = b.length) (hout : out.length = t.length) :
    ∃ d enc, coda_base64_decode t t.length buf buf.length = .ok d ∧ d.ret = true ∧
      coda_base64_encode d.out d.outlen out out.length = .ok enc ∧
      (enc = t ↔ Canonical base64Char base64Pad t) := by
  have hlen : textLen b.length = t.length := by
    induction h generalizing buf out with
    | nil => rfl
    | quad p q r s t b _ _ _ _ hd ih =>
      have := ih (List.replicate b.length 0) (List.replicate t.length 0) (by simp) (by simp)
      simp only [List.length_cons, textLen] at *; omega
    | pad1 => simp [textLen]
    | pad2 => simp [textLen]
  have h1 : coda_base64_decode t t.length buf buf.length = .ok ⟨true, b, b.length⟩ := by
    have := decode_spec (tbl := b64) 61 codec64.len t buf t.length buf.length (Nat.le_refl _) (Nat.le_refl _)
    have h2 : decOut (val b64) 61 t = (b, true) := decOut_of_denotes codec64 h
    unfold coda_base64_decode
    rw [this]
    simp [h2, hbuf]
  obtain ⟨enc, h2, _, h3, _⟩ := C03_base64_encode_buffer b out b.length out.length (Nat.le_refl _) (Nat.le_refl _)
  refine ⟨_, enc, h1, rfl, h2, ?_⟩
  rw [h3 (by omega), ← reencode codec64 h]
  rw [List.drop_of_length_le (Nat.le_refl _), List.take_length,
    List.take_of_length_le (by rw [text_length]; omega), List.append_nil]

example : Canonical base64Char base64Pad [90, 109, 56, 61] ∧ ¬ Canonical base64Char base64Pad [90, 109, 57, 61] := by
  constructor
  · intro p q r s h hs
    simp at h
    obtain ⟨rfl, rfl, rfl, rfl⟩ := h
    exact ⟨by decide, fun _ => ⟨15, by decide, by decide⟩⟩
  · intro h
    obtain ⟨j, hj, h⟩ := (h 90 109 57 61 rfl rfl).2 (by decide)
    revert h
    revert j
    decide

/-- Characters that need no escaping in a URL: letters, digits, `-`, `_`, `.`. -/
def UrlSafe (c : UInt8) : Prop :=
  (65 ≤ c.toNat ∧ c.toNat ≤ 90) ∨ (97 ≤ c.toNat ∧ c.toNat ≤ 122) ∨ (48 ≤ c.toNat ∧ c.toNat ≤ 57) ∨
    c.toNat = 45 ∨ c.toNat = 95 ∨ c.toNat = 46

/-- **C09** web64 round trip, and every emitted character is URL safe. -/
theorem C09_web64_roundtrip (data out buf : Buf) (outlen cap : Nat)
    (ho : outlen ≤ out.length) (hfit : textLen data.length ≤ outlen)
    (hc : cap ≤ buf.length) (hcap : data.length ≤ cap) :
    ∃ enc d, web64_encode data data.length out outlen = .ok enc ∧
      web64_decode enc (textLen data.length) buf cap = .ok d ∧
      d.ret = true ∧ d.outlen = data.length ∧ d.out.take data.length = data :=
  roundtrip codecW data out buf outlen cap ho hfit hc hcap

theorem C09_web64_url_safe (data out : Buf) (outlen : Nat)
    (ho : outlen ≤ out.length) (hfit : textLen data.length ≤ outlen) :
    ∃ enc, web64_encode data data.length out outlen = .ok enc ∧
      ∀ c ∈ enc.take (textLen data.length), UrlSafe c := by
  obtain ⟨enc, h1, _, h2⟩ := encode_rfc codecW data out outlen ho hfit
  refine ⟨enc, h1, ?_⟩
  rw [h2]
  intro c hc
  have hd : ∀ n, n < 64 → UrlSafe (web64Char n) := by unfold UrlSafe; decide
  rcases text_mem data c hc with rfl | ⟨n, hn, rfl⟩
  · unfold UrlSafe; decide
  · exact hd n hn

-- bytes whose base64 text is "+/==" become "-_.."
example : web64_encode [251, 240] 2 (List.replicate 5 1) 5 = .ok [45, 95, 65, 46, 0] := by decide +kernel

/-- **C10** Buffer discipline and language of the web64 pair. -/
theorem C10_web64_encode_buffer (inb out : Buf) (inlen outlen : Nat)
    (hi : inlen ≤ inb.length) (ho : outlen ≤ out.length) :
    ∃ enc, web64_encode inb inlen out outlen = .ok enc ∧
      enc.length = out.length ∧
      (outlen ≤ textLen inlen →
        enc = (text web64Char web64Pad (inb.take inlen)).take outlen ++ out.drop outlen) ∧
      (textLen inlen < outlen →
        enc = text web64Char web64Pad (inb.take inlen) ++ [0] ++ out.drop (textLen inlen + 1)) :=
  encode_buffer codecW inb out inlen outlen hi ho

theorem C10_web64_decode_language (t out : Buf) (cap : Nat) (hc : cap ≤ out.length) :
    ∃ d, web64_decode t t.length out cap = .ok d ∧
      (d.ret = true ↔ ∃ b, Denotes web64Char web64Pad t b) ∧
      (∀ b, Denotes web64Char web64Pad t b → b.length ≤ cap →
        d.outlen = b.length ∧ d.out.take b.length = b) :=
  decode_language codecW t out cap hc

theorem C10_web64_decode_buffer (inb : Buf) (inlen : Nat) (hi : inlen ≤ inb.length) :
    ∃ (full : List UInt8) (r : Bool), ∀ (out : Buf) (cap : Nat), cap ≤ out.length →
      web64_decode inb inlen out cap
        = .ok ⟨r, full.take cap ++ out.drop (min cap full.length), min cap full.length⟩ :=
  ⟨(decOut (val web64) 46 (inb.take inlen)).1, (decOut (val web64) 46 (inb.take inlen)).2,
    fun out cap hc => decode_spec _ codecW.len inb out inlen cap hi hc⟩

example : web64_decode [45, 95, 65, 46] 4 [0, 0] 2 = .ok ⟨true, [251, 240], 2⟩ := by decide +kernel

end Verif.Base64
