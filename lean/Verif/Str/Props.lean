/-
  Property theorems C28–C33 about coda/string.c and coda/string.h.

  `data ++ rest` is the object `s` points to; `data` are its first `len` bytes.
  As `rest` may be empty, a result `.ok` shows that no byte outside
  `[0, len)` is read.
-/
import Verif.Str.Lemmas

namespace Verif.Str
open Spec

/-- **C28** `coda_strnchr`: first match, NULL iff none, no read outside `[0, len)`. -/
theorem C28_strnchr (data rest : Buf) (c : UInt8) :
    ∃ r, coda_strnchr (data ++ rest) c data.length = .ok r ∧ IsFirst (fun i => data[i]? = some c) r := by
  simpa [coda_strnchr] using chrLoop_spec id c data rest

/-- **C28** `coda_strxchr`: first match up to ASCII case. -/
theorem C28_strxchr (data rest : Buf) (c : UInt8) :
    ∃ r, coda_strxchr (data ++ rest) c data.length = .ok r ∧
      IsFirst (fun i => ∃ x, data[i]? = some x ∧ lower x = lower c) r := by
  obtain ⟨r, h, hf⟩ := chrLoop_spec tolower (tolower c) data rest
  exact ⟨r, h, isFirst_congr (fun i => by simp [tolower_eq]) hf⟩

/-- **C28** `coda_revnchr`: last match. -/
theorem C28_revnchr (data rest : Buf) (c : UInt8) :
    ∃ r, coda_revnchr (data ++ rest) c data.length = .ok r ∧ IsLast (fun i => data[i]? = some c) r := by
  obtain ⟨r, h, hf⟩ := revChrLoop_spec id c data rest data.length (Nat.le_refl _)
  refine ⟨r, h, isLast_congr (fun i => ?_) hf⟩
  simp only [Option.map_id, id]
  refine ⟨fun h => h.2, fun h => ⟨?_, h⟩⟩
  exact (List.getElem?_eq_some_iff.mp h).1

/-- **C28** `coda_revxchr`: last match up to ASCII case. -/
theorem C28_revxchr (data rest : Buf) (c : UInt8) :
    ∃ r, coda_revxchr (data ++ rest) c data.length = .ok r ∧
      IsLast (fun i => ∃ x, data[i]? = some x ∧ lower x = lower c) r := by
  obtain ⟨r, h, hf⟩ := revChrLoop_spec tolower (tolower c) data rest data.length (Nat.le_refl _)
  refine ⟨r, h, isLast_congr (fun i => ?_) hf⟩
  simp only [tolower_eq, Option.map_eq_some_iff]
  refine ⟨fun h => h.2, fun h => ⟨?_, h⟩⟩
  obtain ⟨x, h, _⟩ := h
  exact (List.getElem?_eq_some_iff.mp h).1

/-- **C28** `coda_strnchp`: index of the first match, `len` iff there is none. -/
theorem C28_strnchp (data rest : Buf) (c : UInt8) :
    ∃ r, IsFirst (fun i => data[i]? = some c) r ∧
      coda_strnchp (data ++ rest) c data.length = .ok (r.getD data.length) := by
  obtain ⟨r, h, hf⟩ := chpLoop_spec id c data.length data [] rest (by simp)
  refine ⟨r, by simpa using hf, ?_⟩
  simp only [List.nil_append, List.length_nil, Nat.zero_add] at h
  rw [coda_strnchp, h]; cases r <;> rfl

/-- **C28** `coda_strxchp`. -/
theorem C28_strxchp (data rest : Buf) (c : UInt8) :
    ∃ r, IsFirst (fun i => ∃ x, data[i]? = some x ∧ lower x = lower c) r ∧
      coda_strxchp (data ++ rest) c data.length = .ok (r.getD data.length) := by
  obtain ⟨r, h, hf⟩ := chpLoop_spec tolower (tolower c) data.length data [] rest (by simp)
  refine ⟨r, isFirst_congr (fun i => by simp [tolower_eq]) hf, ?_⟩
  simp only [List.nil_append, List.length_nil, Nat.zero_add] at h
  rw [coda_strxchp, h]; cases r <;> rfl

-- "abXbx", searching 'x' / 'b'
example : coda_strnchr [97, 98, 88, 98, 120] 98 5 = .ok (some 1) := by decide
example : coda_strxchr [97, 98, 88, 98, 120] 120 5 = .ok (some 2) := by decide
example : coda_revnchr [97, 98, 88, 98, 120] 98 5 = .ok (some 3) := by decide
example : coda_revxchr [97, 98, 88, 98, 120, 88] 120 5 = .ok (some 4) := by decide
example : coda_strnchp [97, 98, 88, 98, 120] 122 5 = .ok 5 := by decide
example : coda_strnchr [97, 98, 120] 120 2 = .ok none := by decide

/-- **C29 (partial)** `coda_strnstr`: the first index at which the needle occurs completely in the first
`len` bytes.  Missing: haystacks of which the first byte is NUL, see `C29_refuted`. -/
theorem C29_strnstr_partial (n nd data rest : Buf) (hn : CString n nd) (hne : nd ≠ [])
    (c0 : UInt8) (hc0 : c0 ≠ 0) (hd : data.head? = some c0) :
    ∃ r, coda_strnstr (some (data ++ rest)) (some n) data.length = .ok r ∧ IsFirst (Occurs nd data) r := by
  simpa [coda_strnstr] using strstrBody_spec id n nd data rest hn hne c0 hc0 hd

/-- **C29 (partial)** `coda_strxstr`, up to ASCII case. -/
theorem C29_strxstr_partial (n nd data rest : Buf) (hn : CString n nd) (hne : nd ≠ [])
    (c0 : UInt8) (hc0 : c0 ≠ 0) (hd : data.head? = some c0) :
    ∃ r, coda_strxstr (some (data ++ rest)) (some n) data.length = .ok r ∧
      IsFirst (Occurs (nd.map lower) (data.map lower)) r := by
  simpa [coda_strxstr, tolower_eq] using strstrBody_spec tolower n nd data rest hn hne c0 hc0 hd

/-- **C29** `coda_stristr` on NUL terminated strings, up to ASCII case (empty haystack included). -/
theorem C29_stristr (s cs n nd : Buf) (hs : CString s cs) (hn : CString n nd) (hne : nd ≠ []) :
    ∃ r, coda_stristr (some s) (some n) = .ok r ∧ IsFirst (Occurs (nd.map lower) (cs.map lower)) r := by
  obtain ⟨hcs, rest, rfl⟩ := hs
  obtain ⟨hnd, tail, rfl⟩ := hn
  cases nd with
  | nil => exact absurd rfl hne
  | cons x xs =>
    have hx := hnd x (by simp)
    cases cs with
    | nil => exact ⟨none, by simp [coda_stristr], fun i => occurs_nil (by simp)⟩
    | cons c cs =>
      have hc := hcs c (by simp)
      obtain ⟨r, hr, hf⟩ := isOuter_spec x xs tail rest hnd (c :: cs) hcs
      rw [tolower_eq] at hf
      refine ⟨r, ?_, hf⟩
      simpa [coda_stristr, hc, hx] using hr

/-- **C29 refuted in general**: if the first byte of the range is NUL, `coda_strnstr` answers
NULL although the needle occurs (this is what `coda_get_header_buf` runs into). -/
theorem C29_refuted : coda_strnstr (some [0, 13, 10]) (some [13, 10, 0]) 3 = .ok none ∧
    Occurs [13, 10] [0, 13, 10] 1 := by
  refine ⟨by decide, [0], [], rfl, rfl⟩

/-- **C29 refuted** for every range whose first byte is NUL: nothing is found in it, whatever the needle is and wherever it occurs. -/
theorem C29_refuted_all (data nd : Buf) (n : Option Buf) (len i : Nat) (_ho : Occurs nd (0 :: data) i) :
    coda_strnstr (some (0 :: data)) n len = .ok none ∧ coda_strxstr (some (0 :: data)) n len = .ok none := by
  refine ⟨?_, ?_⟩ <;> simp [coda_strnstr, coda_strxstr, strstrBody]

/-- **C29** An empty needle is found at the beginning of every haystack that does not begin with NUL. -/
theorem C29_empty_needle (c : UInt8) (hc : c ≠ 0) (data n : Buf) (len : Nat) (hn : CString n []) :
    coda_strnstr (some (c :: data)) (some n) len = .ok (some 0) ∧ coda_strxstr (some (c :: data)) (some n) len = .ok (some 0) ∧
      coda_stristr (some (c :: data)) (some n) = .ok (some 0) ∧ IsFirst (Occurs [] (c :: data)) (some 0) := by
  obtain ⟨_, rest, rfl⟩ := hn
  refine ⟨by simp [coda_strnstr, strstrBody, hc], by simp [coda_strxstr, strstrBody, hc], by simp [coda_stristr, hc], ⟨[], c :: data, rfl, rfl⟩, ?_⟩
  intro j hj
  omega

/-- **C29** A NULL haystack contains nothing; a NULL needle counts as an empty one. -/
theorem C29_null (c : UInt8) (hc : c ≠ 0) (data : Buf) (n : Option Buf) (len : Nat) :
    coda_strnstr none n len = .ok none ∧ coda_strxstr none n len = .ok none ∧ coda_stristr none n = .ok none ∧
      coda_strnstr (some (c :: data)) none len = .ok (some 0) ∧ coda_strxstr (some (c :: data)) none len = .ok (some 0) ∧
      coda_stristr (some (c :: data)) none = .ok (some 0) := by
  refine ⟨rfl, rfl, rfl, ?_, ?_, ?_⟩ <;> simp [coda_strnstr, coda_strxstr, coda_stristr, strstrBody, hc]

-- needle "ab" in "aaxAB", length 4 cuts the occurrence
example : CString [97, 98, 0, 7] [97, 98] := ⟨by decide, [7], rfl⟩
example : coda_strxstr (some [97, 97, 120, 65, 66]) (some [97, 98, 0, 7]) 5 = .ok (some 3) := by decide
example : coda_strxstr (some [97, 97, 120, 65, 66]) (some [97, 98, 0, 7]) 4 = .ok none := by decide
example : coda_strnstr (some [97, 97, 98, 97, 98]) (some [97, 98, 0, 7]) 5 = .ok (some 1) := by decide
example : coda_stristr (some [97, 97, 120, 65, 66, 0]) (some [97, 98, 0]) = .ok (some 3) := by decide

/-- **C30 (partial)** For `len ≥ 1` neither function reads outside the `len` bytes and the needle
string (also when the first byte is NUL).  Missing: `len = 0`, see `C30_refuted`. -/
theorem C30_strstr_bounds_partial (n nd data : Buf) (hn : CString n nd) (hd : data ≠ []) :
    (∃ r, coda_strnstr (some data) (some n) data.length = .ok r) ∧
    (∃ r, coda_strxstr (some data) (some n) data.length = .ok r) := by
  have key : ∀ fold, ∃ r, strstrBody fold (some data) (some n) data.length = .ok r := by
    intro fold
    cases data with
    | nil => exact absurd rfl hd
    | cons c data =>
      by_cases hc : c = 0
      · exact ⟨none, by simp [strstrBody, hc]⟩
      · cases nd with
        | nil => obtain ⟨_, tail, rfl⟩ := hn; exact ⟨some 0, by simp [strstrBody, hc]⟩
        | cons x xs =>
          obtain ⟨r, hr, _⟩ := strstrBody_spec fold n (x :: xs) (c :: data) [] hn (by simp) c hc rfl
          exact ⟨r, by simpa using hr⟩
  exact ⟨key id, key tolower⟩

/-- **C30 refuted in general**: with `len = 0` the first byte is read nevertheless. -/
theorem C30_refuted : coda_strnstr (some []) (some [97, 0]) 0 = .ub ∧
    coda_strxstr (some []) (some [97, 0]) 0 = .ub := by decide

/-- **C30 refuted** for all needles, NULL included: a range of no bytes is read. -/
theorem C30_refuted_all (n : Option Buf) (len : Nat) : coda_strnstr (some []) n len = .ub ∧ coda_strxstr (some []) n len = .ub := ⟨rfl, rfl⟩

/-- **C31** `coda_strnspn`: the longest prefix made of alphabet characters. -/
theorem C31_strnspn (n al data rest : Buf) (hn : CString n al) :
    ∃ r, coda_strnspn (data ++ rest) n data.length = .ok r ∧ LongestPrefix (fun c => c ∈ al) data r := by
  simpa [coda_strnspn] using spnLoop_spec id n al hn rest data

/-- **C31** `coda_strxspn`. -/
theorem C31_strxspn (n al data rest : Buf) (hn : CString n al) :
    ∃ r, coda_strxspn (data ++ rest) n data.length = .ok r ∧
      LongestPrefix (fun c => ∃ x ∈ al, lower x = lower c) data r := by
  simpa [coda_strxspn, tolower_eq] using spnLoop_spec tolower n al hn rest data

/-- **C31** `coda_strispn`. -/
theorem C31_strispn (n al s cs : Buf) (hs : CString s cs) (hn : CString n al) :
    ∃ r, coda_strispn s n = .ok r ∧ LongestPrefix (fun c => ∃ x ∈ al, lower x = lower c) cs r := by
  obtain ⟨hcs, rest, rfl⟩ := hs
  simpa [tolower_eq] using strispn_spec n al hn rest cs hcs

/-- **C31** `coda_strnspc`: the longest prefix without alphabet characters. -/
theorem C31_strnspc (n al data rest : Buf) (hn : CString n al) :
    ∃ r, coda_strnspc (data ++ rest) n data.length = .ok r ∧ LongestPrefix (fun c => c ∉ al) data r := by
  simpa [coda_strnspc] using spcLoop_spec id n al hn rest data

/-- **C31** `coda_strxspc`. -/
theorem C31_strxspc (n al data rest : Buf) (hn : CString n al) :
    ∃ r, coda_strxspc (data ++ rest) n data.length = .ok r ∧
      LongestPrefix (fun c => ¬ ∃ x ∈ al, lower x = lower c) data r := by
  simpa [coda_strxspc, tolower_eq] using spcLoop_spec tolower n al hn rest data

/-- **C31** `coda_strispc`. -/
theorem C31_strispc (n al s cs : Buf) (hs : CString s cs) (hn : CString n al) :
    ∃ r, coda_strispc s n = .ok r ∧ LongestPrefix (fun c => ¬ ∃ x ∈ al, lower x = lower c) cs r := by
  obtain ⟨hcs, rest, rfl⟩ := hs
  simpa [tolower_eq] using strispc_spec n al hn rest cs hcs

example : coda_strnspn [97, 98, 97, 99, 97] [97, 98, 0] 5 = .ok 3 := by decide
example : coda_strispn [65, 98, 97, 99, 0] [97, 66, 0] = .ok 3 := by decide
example : coda_strxspc [120, 121, 65, 97] [97, 98, 0] 4 = .ok 2 := by decide
example : coda_strispc [120, 121, 0] [97, 98, 0] = .ok 2 := by decide

/-- **C32** `coda_revnspc`: the longest suffix without alphabet characters. -/
theorem C32_revnspc (n al data rest : Buf) (hn : CString n al) :
    ∃ r, coda_revnspc (data ++ rest) n data.length = .ok r ∧ LongestSuffix (fun c => c ∉ al) data r := by
  simpa [coda_revnspc] using revSpcLoop_spec id n al hn data.length data rest (Nat.le_refl _)

/-- **C32** `coda_revxspc`. -/
theorem C32_revxspc (n al data rest : Buf) (hn : CString n al) :
    ∃ r, coda_revxspc (data ++ rest) n data.length = .ok r ∧
      LongestSuffix (fun c => ¬ ∃ x ∈ al, lower x = lower c) data r := by
  simpa [coda_revxspc, tolower_eq] using revSpcLoop_spec tolower n al hn data.length data rest (Nat.le_refl _)

private theorem revSpnBody_spec (fold : UInt8 → UInt8) (n al data rest : Buf) (hn : CString n al) :
    ∃ r, LongestSuffix (fun c => fold c ∈ al.map fold) data r ∧
      revSpnBody fold (data ++ rest) n data.length
        = .ok (if al = [] then 0 else min data.length (r + 1)) := by
  obtain ⟨r, hr, hl⟩ := revSpnLoop_spec fold n al hn data rest
  refine ⟨r, hl, ?_⟩
  cases data with
  | nil => simp [revSpnBody]
  | cons d data =>
    obtain ⟨hz, tl, rfl⟩ := hn
    simp only [revSpnBody, List.length_cons, Nat.add_one_ne_zero, if_false]
    cases al with
    | nil => simp [revSpnLoop]
    | cons a al =>
      have ha := hz a (by simp)
      simp only [List.length_cons] at hr
      simp only [List.cons_append, rd_cons_zero, Res.ok_bind, ne_eq, ha, not_false_eq_true, decide_true]
      simp only [List.cons_append] at hr
      rw [hr]
      simp; omega

/-- **C32 (partial)** `coda_revnspn` returns one more than the length of the longest suffix of alphabet
characters, except that it never exceeds `len` (and is 0 for the empty alphabet).
So it is right exactly when the whole buffer consists of alphabet characters, or the alphabet is empty;
see `C32_revnspn_refuted`. -/
theorem C32_revnspn_partial (n al data rest : Buf) (hn : CString n al) :
    ∃ r, LongestSuffix (fun c => c ∈ al) data r ∧
      coda_revnspn (data ++ rest) n data.length = .ok (if al = [] then 0 else min data.length (r + 1)) := by
  simpa [coda_revnspn] using revSpnBody_spec id n al data rest hn

/-- **C32 (partial)** `coda_revxspn`, same deviation. -/
theorem C32_revxspn_partial (n al data rest : Buf) (hn : CString n al) :
    ∃ r, LongestSuffix (fun c => ∃ x ∈ al, lower x = lower c) data r ∧
      coda_revxspn (data ++ rest) n data.length = .ok (if al = [] then 0 else min data.length (r + 1)) := by
  simpa [coda_revxspn, tolower_eq] using revSpnBody_spec tolower n al data rest hn

/-- **C32 refuted for `coda_revnspn`**: the longest suffix of "xa" over "a" has length 1, the answer is 2. -/
theorem C32_revnspn_refuted : coda_revnspn [120, 97] [97, 0] 2 = .ok 2 ∧
    LongestSuffix (fun c => c ∈ [97]) [120, 97] 1 ∧ ¬ LongestSuffix (fun c => c ∈ [97]) [120, 97] 2 := by
  refine ⟨by decide, ⟨by decide, by decide, ?_⟩, ?_⟩
  · intro x hx; simp at hx; subst hx; decide
  · rintro ⟨_, h, _⟩; exact absurd (h 120 (by decide)) (by decide)

/-- **C32 refuted for `coda_revnspn` and `coda_revxspn`**: for every alphabet that is not empty and every text with a character outside of it
the answer is one more than the length of the longest suffix. -/
theorem C32_refuted_all (n al data rest : Buf) (hn : CString n al) (hal : al ≠ []) :
    ((∃ c ∈ data, c ∉ al) →
      ∃ r, LongestSuffix (fun c => c ∈ al) data r ∧ coda_revnspn (data ++ rest) n data.length = .ok (r + 1)) ∧
    ((∃ c ∈ data, ¬ ∃ x ∈ al, lower x = lower c) →
      ∃ r, LongestSuffix (fun c => ∃ x ∈ al, lower x = lower c) data r ∧ coda_revxspn (data ++ rest) n data.length = .ok (r + 1)) := by
  have key : ∀ (p : UInt8 → Prop) (r : Nat), LongestSuffix p data r → (∃ c ∈ data, ¬ p c) → min data.length (r + 1) = r + 1 := by
    rintro p r ⟨h1, h2, _⟩ ⟨c, hc, hp⟩
    rw [List.length_reverse] at h1
    have : r ≠ data.length := by
      rintro rfl
      rw [List.take_of_length_le (by simp)] at h2
      exact hp (h2 c (List.mem_reverse.mpr hc))
    omega
  constructor
  · intro h
    obtain ⟨r, hr, e⟩ := C32_revnspn_partial n al data rest hn
    exact ⟨r, hr, by rw [e, if_neg hal, key _ r hr h]⟩
  · intro h
    obtain ⟨r, hr, e⟩ := C32_revxspn_partial n al data rest hn
    exact ⟨r, hr, by rw [e, if_neg hal, key _ r hr h]⟩

example : coda_revnspc [97, 120, 121] [97, 98, 0] 3 = .ok 2 := by decide

/-- **C33** `coda_atou` on an all-digit buffer: the decimal value modulo 2^64. -/
theorem C33_atou_digits (data rest : Buf) (h : ∀ c ∈ data, IsDigit c) :
    ∃ u, coda_atou (data ++ rest) data.length = .ok u ∧ u.toNat = decVal data % 2 ^ 64 := by
  refine ⟨UInt64.ofNat (decVal data), ?_, ?_⟩
  · exact atouLoop_digits rest data 0 h
  · simp

/-- **C33** `coda_atou` on a malformed buffer is 0. -/
theorem C33_atou_malformed (data rest : Buf) (h : ∃ c ∈ data, ¬ IsDigit c) :
    coda_atou (data ++ rest) data.length = .ok 0 := atouLoop_bad rest data 0 h

/-- **C33** `coda_atoi`: sign, then `coda_atou`, in two's complement. -/
theorem C33_atoi (data rest : Buf) :
    ∃ i, coda_atoi (data ++ rest) data.length = .ok i ∧
      (∀ ds, data = 45 :: ds → (∀ c ∈ ds, IsDigit c) → i = Int64.ofInt (-(decVal ds : Int))) ∧
      ((∀ c ∈ data, IsDigit c) → i = Int64.ofInt (decVal data)) ∧
      ((∃ c ∈ data.tail, ¬ IsDigit c) → i = 0) := by
  have pos : ∀ n : Nat, (UInt64.ofNat n).toInt64 = Int64.ofInt n := by
    intro n
    apply Int64.toBitVec_inj.mp
    simp [Int64.ofInt, UInt64.toInt64]
    rfl
  have neg : ∀ n : Nat, (-(UInt64.ofNat n)).toInt64 = Int64.ofInt (-(n : Int)) := by
    intro n
    apply Int64.toBitVec_inj.mp
    simp [Int64.ofInt, UInt64.toInt64, BitVec.ofInt_neg]
    rfl
  cases data with
  | nil =>
    refine ⟨0, ?_, by simp, fun _ => by decide, by simp⟩
    simp [coda_atoi, coda_atou]; cases rest <;> rfl
  | cons c ds =>
    simp only [coda_atoi, List.length_cons, Nat.add_one_ne_zero, if_false, List.cons_append, rd_cons_zero, Res.ok_bind,
      List.tail_cons, Nat.add_sub_cancel]
    by_cases hc : c = 45
    · subst hc
      simp only [if_true]
      by_cases hd : ∀ c ∈ ds, IsDigit c
      · have := atouLoop_digits rest ds 0 hd
        refine ⟨Int64.ofInt (-(decVal ds : Int)), ?_, ?_, ?_, ?_⟩
        · rw [← neg]; unfold coda_atou; rw [show (0 : UInt64) = UInt64.ofNat 0 by rfl, this]; rfl
        · intro ds' he _; simp at he; rw [he]
        · intro h; have := h 45 (by simp); simp [IsDigit] at this
        · rintro ⟨x, hx, hn⟩; exact absurd (hd x hx) hn
      · have hb : ∃ c ∈ ds, ¬ IsDigit c := by simpa using hd
        refine ⟨0, ?_, ?_, ?_, fun _ => rfl⟩
        · unfold coda_atou; rw [atouLoop_bad rest ds 0 hb]; rfl
        · intro ds' he h'; simp at he; subst he; exact absurd h' hd
        · intro h; have := h 45 (by simp); simp [IsDigit] at this
    · rw [if_neg hc]
      by_cases hd : ∀ x ∈ c :: ds, IsDigit x
      · have := atouLoop_digits rest (c :: ds) 0 hd
        refine ⟨Int64.ofInt (decVal (c :: ds)), ?_, ?_, fun _ => rfl, ?_⟩
        · rw [← pos]; unfold coda_atou; rw [show (0 : UInt64) = UInt64.ofNat 0 by rfl]
          simp only [List.cons_append, List.length_cons] at this
          rw [this]; rfl
        · intro ds' he _; simp at he; exact absurd he.1 hc
        · rintro ⟨x, hx, hn⟩; exact absurd (hd x (by simp [hx])) hn
      · have hb : ∃ x ∈ c :: ds, ¬ IsDigit x := by
          obtain ⟨x, hx⟩ := Classical.not_forall.mp hd
          exact ⟨x, Classical.not_imp.mp hx⟩
        have := atouLoop_bad rest (c :: ds) 0 hb
        simp only [List.cons_append, List.length_cons] at this
        refine ⟨0, ?_, ?_, fun h => absurd h hd, fun _ => rfl⟩
        · unfold coda_atou; rw [this]; rfl
        · intro ds' he _; simp at he; exact absurd he.1 hc

/-- **C33** Printing any uint64 in decimal and parsing it back is the identity. -/
theorem C33_atou_roundtrip (u : UInt64) (rest : Buf) :
    coda_atou (decimal u.toNat ++ rest) (decimal u.toNat).length = .ok u := by
  obtain ⟨h1, h2⟩ := decimal_digits u.toNat
  obtain ⟨v, hv, hval⟩ := C33_atou_digits (decimal u.toNat) rest h1
  rw [hv, h2] at *
  have := u.toNat_lt
  rw [show v = u from UInt64.toNat_inj.mp (by omega)]

/-- **C33** Printing any int64 in decimal and parsing it back is the identity. -/
theorem C33_atoi_roundtrip (i : Int64) (rest : Buf) (t : Buf)
    (ht : t = if i.toInt < 0 then 45 :: decimal i.toInt.natAbs else decimal i.toInt.natAbs) :
    coda_atoi (t ++ rest) t.length = .ok i := by
  obtain ⟨j, hj, h1, h2, _⟩ := C33_atoi t rest
  obtain ⟨d1, d2⟩ := decimal_digits i.toInt.natAbs
  rw [hj]
  by_cases hneg : i.toInt < 0
  · rw [if_pos hneg] at ht
    have := h1 _ ht d1
    rw [d2, show -((i.toInt.natAbs : Nat) : Int) = i.toInt by omega] at this
    rw [this, Int64.ofInt_toInt]
  · rw [if_neg hneg] at ht
    have := h2 (ht ▸ d1)
    rw [ht, d2, show ((i.toInt.natAbs : Nat) : Int) = i.toInt by omega] at this
    rw [this, Int64.ofInt_toInt]

example : coda_atou [49, 56, 52, 52, 54, 55, 52, 52, 48, 55, 51, 55, 48, 57, 53, 53, 49, 54, 49, 55] 20 = .ok 1 := by decide
example : coda_atoi [45, 52, 50] 3 = .ok (-42) := by decide
example : coda_atou [52, 120] 2 = .ok 0 := by decide

end Verif.Str
