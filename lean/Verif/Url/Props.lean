/-
  Property theorems C17–C24 about URL coding, coda/url.cpp:70-399.
  `data ++ rest` is the source object and `data` its first `sz_src` bytes.
-/
import Verif.Url.EscLemmas

namespace Verif.Url
open Spec

/-- **C18** `coda_urlenc` encodes byte by byte as specified by `Spec.enc`. -/
theorem C18_urlenc (data rest : Buf) :
    coda_urlenc (data ++ rest) data.length = .ok (data.flatMap enc) := by
  simpa [coda_urlenc] using urlencLoop_spec rest data []

/-- **C18** `coda_urlenc_noplus`: the blank becomes "%20". -/
theorem C18_urlenc_noplus (data rest : Buf) :
    coda_urlenc_noplus (data ++ rest) data.length = .ok (data.flatMap encNoplus) := by
  simpa [coda_urlenc_noplus] using urlencNoplusLoop_spec rest data []

-- "a b/\xff~" -> "a+b%2F%FF~"
example : coda_urlenc [97, 32, 98, 47, 255, 126] 6 = .ok [97, 43, 98, 37, 50, 70, 37, 70, 70, 126] := by decide +kernel
example : coda_urlenc_noplus [97, 32, 98] 3 = .ok [97, 37, 50, 48, 98] := by decide +kernel

/-- **C21** `coda_urldec` computes the decoding relation `Spec.Dec`, for every text. -/
theorem C21_urldec (data rest : Buf) :
    ∃ t, Dec data t ∧ coda_urldec (data ++ rest) data.length = .ok t := by
  obtain ⟨t, ht⟩ := exists_dec _ data (Nat.le_refl _)
  exact ⟨t, ht, by simpa [coda_urldec] using urldecLoop_spec rest ht []⟩

/-- **C21** The decoding relation is deterministic, so `C21_urldec` determines the result. -/
theorem C21_dec_unique (s t t' : List UInt8) (h : Dec s t) (h' : Dec s t') : t = t' := dec_unique h h'

/-- **C21** Text without '%' and '+' is unchanged. -/
theorem C21_urldec_plain (data rest : Buf) (h : ∀ c ∈ data, c ≠ 37 ∧ c ≠ 43) :
    coda_urldec (data ++ rest) data.length = .ok data := by
  have hd : Dec data data := by
    clear rest
    induction data with
    | nil => exact .nil
    | cons c data ih =>
      exact .other (h c (by simp)).1 (h c (by simp)).2 (ih (fun x hx => h x (by simp [hx])))
  simpa [coda_urldec] using urldecLoop_spec rest hd []

-- "%4A+%zz%4" -> "J \0%4"
example : coda_urldec [37, 52, 65, 43, 37, 122, 122, 37, 52] 9 = .ok [74, 32, 0, 37, 52] := by decide +kernel
example : Dec [37, 52, 65, 43, 37, 52] [74, 32, 37, 52] :=
  .pct (.plus (.short (by decide) (.other (by decide) (by decide) .nil)))

/-- **C17** Decoding inverts encoding. -/
theorem C17_url_roundtrip (data rest rest' : Buf) :
    ∃ t, coda_urlenc (data ++ rest) data.length = .ok t ∧
      coda_urldec (t ++ rest') t.length = .ok data := by
  refine ⟨_, C18_urlenc data rest, ?_⟩
  simpa [coda_urldec] using urldecLoop_spec rest' (dec_enc data) []

/-- **C17** Decoding inverts the encoding without '+'. -/
theorem C17_url_noplus_roundtrip (data rest rest' : Buf) :
    ∃ t, coda_urlenc_noplus (data ++ rest) data.length = .ok t ∧
      coda_urldec (t ++ rest') t.length = .ok data := by
  refine ⟨_, C18_urlenc_noplus data rest, ?_⟩
  simpa [coda_urldec] using urldecLoop_spec rest' (dec_encNoplus data) []

example : coda_urldec [97, 43, 98, 37, 50, 70, 37, 70, 70, 126] 10 = .ok [97, 32, 98, 47, 255, 126] := by decide +kernel

/-- **C19** The `char *` encoder needs at most `3 * sz + 1` bytes; text, NUL, return value. -/
theorem C19_urlenc_buf (data rest out : Buf) (ho : 3 * data.length + 1 ≤ out.length) :
    ∃ t, coda_urlenc (data ++ rest) data.length = .ok t ∧ t.length ≤ 3 * data.length ∧
      coda_urlenc_buf out (data ++ rest) data.length = .ok (t ++ [0] ++ out.drop (t.length + 1), t.length) := by
  have hl := flatMap_enc_length data
  refine ⟨_, C18_urlenc data rest, hl, ?_⟩
  unfold coda_urlenc_buf
  rw [urlencBufLoop_spec rest data out 0 (by omega)]
  simp only [Res.ok_bind]
  rw [wr_patch rfl (by omega), Res.ok_bind]
  simp [patch]

/-- **C19** The `char *` decoder needs at most `sz + 1` bytes; text, NUL, return value. -/
theorem C19_urldec_buf (data rest out : Buf) (ho : data.length + 1 ≤ out.length) :
    ∃ t, coda_urldec (data ++ rest) data.length = .ok t ∧ t.length ≤ data.length ∧
      coda_urldec_buf out (data ++ rest) data.length = .ok (t ++ [0] ++ out.drop (t.length + 1), t.length) := by
  obtain ⟨t, ht, he⟩ := C21_urldec data rest
  have hl := dec_length ht
  refine ⟨t, he, hl, ?_⟩
  unfold coda_urldec_buf
  rw [urldecBufLoop_spec rest ht out 0 (by omega)]
  simp only [Res.ok_bind]
  rw [wr_patch rfl (by omega), Res.ok_bind]
  simp [patch]

example : coda_urlenc_buf [7, 7, 7, 7, 7] [47, 255] 1 = .ok ([37, 50, 70, 0, 7], 3) := by decide +kernel
example : coda_urldec_buf [7, 7, 7, 7] [37, 50, 70] 3 = .ok ([47, 0, 7, 7], 1) := by decide +kernel

/-- **C20** Decoding in place gives the same text and return value as with disjoint buffers. -/
theorem C20_urldec_in_place (data rest out : Buf) (hr : rest ≠ []) (ho : data.length + 1 ≤ out.length) :
    ∃ t o', coda_urldec_alias (data ++ rest) data.length
        = .ok (t ++ [0] ++ (data ++ rest).drop (t.length + 1), t.length) ∧
      coda_urldec_buf out data data.length = .ok (o', t.length) ∧ o'.take (t.length + 1) = t ++ [0] := by
  obtain ⟨t, ht⟩ := exists_dec _ data (Nat.le_refl _)
  have hl := dec_length ht
  have hr' : 0 < rest.length := List.length_pos_iff.mpr hr
  have h19 := C19_urldec_buf data [] out ho
  simp only [List.append_nil] at h19
  obtain ⟨t', h1, _, h3⟩ := h19
  have : t' = t := by
    obtain ⟨t'', h4, h5⟩ := C21_urldec data []
    rw [List.append_nil] at h5
    rw [h5] at h1
    cases h1
    exact dec_unique h4 ht
  subst this
  refine ⟨t', _, ?_, h3, by
    rw [List.take_append_of_le_length (by simp), List.take_of_length_le (by simp)]⟩
  unfold coda_urldec_alias
  rw [urldecAliasLoop_spec ht (data ++ rest) rest 0 0 (by simp) (by simp) (by omega)]
  simp only [Res.ok_bind]
  rw [wr_patch rfl (by simp; omega), Res.ok_bind]
  simp [patch]

example : coda_urldec_alias [37, 50, 70, 43, 97, 9, 9] 5 = .ok ([47, 32, 97, 0, 97, 9, 9], 3) := by decide +kernel

/-- **C22 (partial)** For ASCII text which fits, escape followed by unescape is the identity, both
without undefined behaviour.  Missing: bytes ≥ 0x80 (`C22_refuted_high`) and `sz < 3`
(`C22_refuted_small`). -/
theorem C22_escape_unescape_partial (s cs d1 d2 : Buf) (sz1 sz2 : Nat)
    (hs : CString s cs) (hascii : ∀ c ∈ cs, c < 128)
    (h1 : d1.length = sz1) (h2 : d2.length = sz2) (hsz1 : sz1 < 2 ^ 64)
    (fit1 : (cs.flatMap enc).length + 4 ≤ sz1) (fit2 : cs.length + 2 ≤ sz2) :
    ∃ t r, coda_url_escape s d1 sz1 = .ok t ∧ t.length = sz1 ∧
      coda_url_unescape t d2 sz2 = .ok r ∧ r.length = sz2 ∧ CString (r ++ [0]) cs ∧ r[cs.length]? = some 0 := by
  obtain ⟨hnz, rest, rfl⟩ := hs
  have e1 : coda_url_escape (cs ++ 0 :: rest) d1 sz1
      = .ok (patch (List.replicate sz1 0) 0 (cs.flatMap enc)) := by
    unfold coda_url_escape
    rw [wrs_spec _ _ _ (by simp; omega), Res.ok_bind, patch_all (e := List.replicate sz1 0) (by simp [h1]), subZ_eq (by omega)]
    have := escLoop_fits rest sz1 hsz1 cs [] (fun c hc => ⟨hnz c hc, hascii c hc⟩) (by simp only [List.length_nil]; omega)
    simpa using this
  refine ⟨_, patch (List.replicate sz2 0) 0 cs, e1, ?_, ?_, ?_, ?_, ?_⟩
  · rw [patch_length (by simp only [List.length_replicate]; omega)]; simp
  · unfold coda_url_unescape
    rw [wrs_spec _ _ _ (by simp; omega), Res.ok_bind, patch_all (e := List.replicate sz2 0) (by simp [h2]), subZ_eq (by omega)]
    have ep : patch (List.replicate sz1 0) 0 (cs.flatMap enc)
        = cs.flatMap enc ++ 0 :: List.replicate (sz1 - (cs.flatMap enc).length - 1) 0 := by
      unfold patch
      simp only [List.take_zero, List.nil_append, Nat.zero_add, List.drop_replicate]
      rw [← List.replicate_succ]
      congr 2
      omega
    have hlen : cs.length ≤ (cs.flatMap enc).length := by
      clear e1 ep fit1 fit2 hascii hnz
      induction cs with
      | nil => simp
      | cons c cs ih => have := enc_length c; simp only [List.flatMap_cons, List.length_append, List.length_cons]; omega
    rw [ep, unescLoop_enc _ (sz2 - 2) cs _ _ 0 hnz (by simp only [List.length_append, List.length_cons]; omega) (by omega)
      (by simp; omega)]
    simp only [Res.ok_bind, Nat.zero_add]
    rw [wr_patch (by simp) (by simp; omega), patch_zero_zero (by omega)]
  · rw [patch_length (by simp only [List.length_replicate]; omega)]; simp
  · refine ⟨hnz, List.replicate (sz2 - cs.length) 0, ?_⟩
    have : (0 : UInt8) :: List.replicate (sz2 - cs.length) 0 = List.replicate (sz2 - cs.length) 0 ++ [0] := by
      rw [← List.replicate_succ, List.replicate_succ']
    rw [this]
    simp [patch]
  · unfold patch
    simp only [List.take_zero, List.nil_append, Nat.zero_add, List.drop_replicate]
    rw [List.getElem?_append_right (by omega), Nat.sub_self, List.getElem?_replicate, if_pos (by omega)]

/-- **C22 (partial)** `coda_url_escape` on any ASCII string with any `sz ≥ 3` (truncating or not) stays
inside the buffer and leaves it NUL terminated. -/
theorem C22_escape_bounds_partial (s cs dest : Buf) (sz : Nat) (hs : CString s cs)
    (hascii : ∀ c ∈ cs, c < 128) (hd : dest.length = sz) (hsz : 3 ≤ sz) (hsz' : sz < 2 ^ 64) :
    ∃ d, coda_url_escape s dest sz = .ok d ∧ d.length = sz ∧ d[sz - 1]? = some 0 := by
  obtain ⟨hnz, rest, rfl⟩ := hs
  unfold coda_url_escape
  rw [wrs_spec _ _ _ (by simp; omega), Res.ok_bind, patch_all (e := List.replicate sz 0) (by simp [hd]), subZ_eq (by omega)]
  exact escLoop_safe rest sz hsz' hsz cs _ 0 (fun c hc => ⟨hnz c hc, hascii c hc⟩) (by simp)
    (by rw [List.getElem?_replicate, if_pos (by omega)])

/-- **C22 refuted** for a byte ≥ 0x80: negative table index. -/
theorem C22_refuted_high : coda_url_escape [0xd0, 0] (List.replicate 16 0) 16 = .ub := by decide +kernel

/-- **C22 refuted** for `sz < 3`: the limit wraps around and the output overruns the buffer. -/
theorem C22_refuted_small : coda_url_escape [97, 98, 99, 0] [0, 0] 2 = .ub := by decide +kernel

-- "a b%" escaped into 12 bytes, and back
example : coda_url_escape [97, 32, 98, 37, 0] (List.replicate 12 7) 12
    = .ok [97, 43, 98, 37, 50, 53, 0, 0, 0, 0, 0, 0] := by decide +kernel
example : coda_url_unescape [97, 43, 98, 37, 50, 53, 0] (List.replicate 7 7) 7
    = .ok [97, 32, 98, 37, 0, 0, 0] := by decide +kernel

/-- **C23 (partial)** For `sz ≥ 2`, every string, every escape kind (`%XX`, `%uXXXX`, `\xXX`): no access
outside source and destination, and the result is NUL terminated.  Missing: `sz < 2`,
see `C23_refuted`. -/
theorem C23_unescape_bounds_partial (s cs dest : Buf) (sz : Nat) (hs : CString s cs) (hd : dest.length = sz)
    (hsz : 2 ≤ sz) :
    ∃ d p, coda_url_unescape s dest sz = .ok d ∧ d.length = sz ∧ p < sz ∧ d[p]? = some 0 := by
  obtain ⟨hnz, rest, rfl⟩ := hs
  unfold coda_url_unescape
  rw [wrs_spec _ _ _ (by simp; omega), Res.ok_bind, patch_all (e := List.replicate sz 0) (by simp [hd]), subZ_eq (by omega)]
  obtain ⟨d, p, h1, h2, h3⟩ := unescLoop_safe sz hsz (cs ++ 0 :: rest).length (cs ++ 0 :: rest) (List.replicate sz 0) 0
    (by simp) (Nat.le_refl _) (by simp) (by omega)
  simp only [h1, Res.ok_bind]
  refine ⟨d.set p 0, p, by simp [wr, h2, h3], by simp [h2], h3, ?_⟩
  simp [h2, h3]

/-- **C23 refuted** for `sz = 1` (and `sz = 0`): the limit `sz - 2` wraps around. -/
theorem C23_refuted : coda_url_unescape [97, 98, 0] [0] 1 = .ub ∧ coda_url_unescape [0] [] 0 = .ub := by
  decide +kernel

-- "%41%u0416\x42" 
example : coda_url_unescape [37, 52, 49, 37, 117, 48, 52, 49, 54, 92, 120, 52, 50, 0] (List.replicate 8 7) 8
    = .ok [65, 208, 150, 66, 0, 0, 0, 0] := by decide +kernel

/-- **C24 (partial)** `coda_url_preunescape` stays inside the destination if the source string is shorter
than `sz`.  Missing: longer sources, see `C24_refuted`. -/
theorem C24_preunescape_bounds_partial (s cs dest : Buf) (sz : Nat) (hs : CString s cs) (hd : dest.length = sz)
    (hl : cs.length < sz) :
    ∃ d, coda_url_preunescape s dest sz = .ok d ∧ d.length = sz := by
  obtain ⟨hnz, rest, rfl⟩ := hs
  have hsl : slen (cs ++ 0 :: rest) = cs.length := by
    clear hl hd
    induction cs with
    | nil => simp [slen]
    | cons c cs ih =>
      rw [List.cons_append, slen_cons (hnz c (by simp)), ih (fun x hx => hnz x (by simp [hx]))]; simp
  unfold coda_url_preunescape
  obtain ⟨d, p, h1, h2, h3⟩ := preLoop_safe sz (cs ++ 0 :: rest).length (cs ++ 0 :: rest) dest 0
    (by simp) (Nat.le_refl _) hd (by rw [hsl]; omega)
  simp only [h1, Res.ok_bind]
  exact ⟨d.set p 0, by simp [wr, h2, h3], by simp [h2]⟩

/-- **C24 refuted** in general: the limit is `sz + 5`. -/
theorem C24_refuted : coda_url_preunescape [97, 97, 97, 97, 0] [0, 0, 0] 3 = .ub := by decide +kernel

example : coda_url_preunescape [37, 52, 49, 37, 100, 48, 0] (List.replicate 8 7) 8
    = .ok [37, 52, 49, 208, 0, 7, 7, 7] := by decide +kernel

end Verif.Url
