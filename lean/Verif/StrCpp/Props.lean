import Verif.StrCpp.Lemmas

namespace Verif.StrCpp
open Spec Verif.Str Verif.Str.Spec

/-- The separator-free pieces of a string are uniquely determined. -/
theorem C34_split_unique (sep : UInt8 → Prop) (data : List UInt8) (ps qs : List (List UInt8))
    (hp : IsSplit sep data ps) (hq : IsSplit sep data qs) : ps = qs := by
  classical
  have key : ∀ ps, IsSplit sep data ps → IsSplit (fun c => decide (sep c) = true) data ps := by
    intro ps h; simpa [IsSplit] using h
  rw [isSplit_eq_pieces (fun c => decide (sep c)) ps data (key ps hp),
    isSplit_eq_pieces (fun c => decide (sep c)) qs data (key qs hq)]

/-- C34: the NUL terminated version returns exactly the maximal delimiter-free pieces, in order,
without the empty ones iff `ignore_empty`. -/
theorem C34_split_string (src cs delims al : Buf) (ig : Bool) (hs : CString src cs) (hd : CString delims al) :
    ∃ ps, IsSplit (· ∈ al) cs ps ∧
      coda_split_string src delims ig = .ok (if ig then ps.filter (· ≠ []) else ps) := by
  obtain ⟨hz, rest, rfl⟩ := hs
  refine ⟨pieces (fun c => decide (c ∈ al)) cs, by simpa using isSplit_pieces (fun c => decide (c ∈ al)) cs, ?_⟩
  have := splitLoop_spec delims al hd ig rest cs (cs ++ 0 :: rest).length [] [] [] hz (by simp) (by simp)
  simpa [coda_split_string, keep] using this

/-- C34 (partial): the sized version, for data without NUL bytes (it reads exactly the `size` bytes).  Missing: data with
NUL bytes, see `C34_sized_refuted` and `C34_split_string_sized_nul`. -/
theorem C34_split_string_sized_partial (data rest delims al : Buf) (ig : Bool) (hz : ∀ c ∈ data, c ≠ 0) (hd : CString delims al) :
    ∃ ps, IsSplit (· ∈ al) data ps ∧
      coda_split_string_sized (data ++ rest) data.length delims ig = .ok (if ig then ps.filter (· ≠ []) else ps) := by
  have := splitSizedLoop_spec delims al hd ig rest data [] [] [] (by simp)
  refine ⟨pieces (fun c => decide (c = 0 ∨ c ∈ al)) data, ?_, by simpa [coda_split_string_sized, keep] using this⟩
  have h := isSplit_pieces (fun c => decide (c = 0 ∨ c ∈ al)) data
  obtain ⟨h1, ds, h2, h3, h4⟩ := h
  refine ⟨fun p hp c hc hm => h1 p hp c hc (by simp [hm]), ds, fun x hx => ?_, h3, h4⟩
  have hx0 : x ≠ 0 := by
    have : ∀ (ps : List (List UInt8)) (ds : List UInt8), ps.length = ds.length + 1 → ∀ x ∈ ds, x ∈ weave ps ds := by
      intro ps
      induction ps with
      | nil => intro ds h; simp at h
      | cons p ps ih =>
        intro ds h x hx
        cases ps with
        | nil => cases ds <;> simp at h hx
        | cons q qs =>
          cases ds with
          | nil => simp at hx
          | cons d ds =>
            have e : weave (p :: q :: qs) (d :: ds) = p ++ [d] ++ weave (q :: qs) ds := rfl
            rw [e]
            rcases List.mem_cons.mp hx with rfl | hx
            · simp
            · have := ih ds (by simpa using h) x hx
              simp [this]
    exact hz x (h4 ▸ this _ ds h3 x hx)
  simpa [hx0] using h2 x hx

/-- What the sized version does with arbitrary data: NUL bytes are delimiters, too. -/
theorem C34_split_string_sized_nul (data rest delims al : Buf) (ig : Bool) (hd : CString delims al) :
    ∃ ps, IsSplit (fun c => c = 0 ∨ c ∈ al) data ps ∧
      coda_split_string_sized (data ++ rest) data.length delims ig = .ok (if ig then ps.filter (· ≠ []) else ps) := by
  have := splitSizedLoop_spec delims al hd ig rest data [] [] [] (by simp)
  exact ⟨pieces (fun c => decide (c = 0 ∨ c ∈ al)) data, by simpa using isSplit_pieces (fun c => decide (c = 0 ∨ c ∈ al)) data,
    by simpa [coda_split_string_sized, keep] using this⟩

/-- C34 is false of the sized version: "a\0b" split at ',' has the single piece "a\0b", the code returns "a" and "b". -/
theorem C34_sized_refuted : IsSplit (· ∈ ([44] : List UInt8)) [97, 0, 98] [[97, 0, 98]] ∧
    coda_split_string_sized [97, 0, 98] 3 [44, 0] true = .ok [[97], [98]] := by
  refine ⟨⟨by decide, [], by simp, rfl, rfl⟩, by decide⟩

/-- C34 is false of the sized version for all data with a NUL byte that is not a delimiter: whatever the pieces of the data are, they
are not what is returned. -/
theorem C34_sized_refuted_all (data rest delims al : Buf) (ig : Bool) (ps : List Buf) (hd : CString delims al) (h0 : (0 : UInt8) ∈ data)
    (hs : IsSplit (· ∈ al) data ps) :
    coda_split_string_sized (data ++ rest) data.length delims ig ≠ .ok (if ig then ps.filter (· ≠ []) else ps) := by
  obtain ⟨qs, hq, he⟩ := C34_split_string_sized_nul data rest delims al ig hd
  rw [he]
  intro hc
  have hc := Res.ok.inj hc
  obtain ⟨_, ds, hds, hl, hw⟩ := hs
  have mem_weave : ∀ (ps : List (List UInt8)) (ds : List UInt8), ∀ x ∈ weave ps ds, x ∈ ds ∨ ∃ p ∈ ps, x ∈ p := by
    intro ps
    induction ps with
    | nil => intro ds x hx; simp [weave] at hx
    | cons p ps ih =>
      intro ds x hx
      cases ps with
      | nil => exact Or.inr ⟨p, by simp, by simpa [weave] using hx⟩
      | cons q qs =>
        cases ds with
        | nil => exact Or.inr ⟨p, by simp, by simpa [weave] using hx⟩
        | cons d ds =>
          have e : weave (p :: q :: qs) (d :: ds) = p ++ [d] ++ weave (q :: qs) ds := rfl
          rw [e] at hx
          simp only [List.append_assoc, List.mem_append, List.mem_cons, List.not_mem_nil, or_false] at hx
          rcases hx with hx | rfl | hx
          · exact Or.inr ⟨p, by simp, hx⟩
          · exact Or.inl (by simp)
          · rcases ih ds x hx with h | ⟨r, hr, h⟩
            · exact Or.inl (by simp [h])
            · exact Or.inr ⟨r, List.mem_cons_of_mem _ hr, h⟩
  have hnal : (0 : UInt8) ∉ al := fun h => hd.1 0 h rfl
  rcases mem_weave ps ds 0 (hw ▸ h0) with h | ⟨p, hp, h⟩
  · exact hnal (hds 0 h)
  · have hpm : p ∈ (if ig then ps.filter (· ≠ []) else ps) := by
      cases ig with
      | false => simpa using hp
      | true => simpa [List.mem_filter] using ⟨hp, List.ne_nil_of_mem h⟩
    rw [← hc] at hpm
    have hpq : p ∈ qs := by
      cases ig with
      | false => simpa using hpm
      | true => rw [if_pos rfl] at hpm; exact (List.mem_filter.mp hpm).1
    exact hq.1 p hpq 0 h (Or.inl rfl)

example : IsSplit (· ∈ ([44] : List UInt8)) [97, 44, 0, 98] [[97], [0, 98]] := ⟨by decide, [44], by decide, rfl, rfl⟩

/-- no piece returned contains a delimiter -/
theorem C34_no_delimiter (src cs delims al : Buf) (ig : Bool) (hs : CString src cs) (hd : CString delims al) :
    ∃ r, coda_split_string src delims ig = .ok r ∧ ∀ p ∈ r, (∀ c ∈ p, c ∉ al) ∧ (ig = true → p ≠ []) := by
  obtain ⟨ps, ⟨h1, _⟩, h⟩ := C34_split_string src cs delims al ig hs hd
  refine ⟨_, h, ?_⟩
  cases ig
  · intro p hp; exact ⟨h1 p (by simpa using hp), by simp⟩
  · intro p hp
    simp only [if_true, List.mem_filter, decide_eq_true_eq] at hp
    exact ⟨h1 p hp.1, fun _ => hp.2⟩

example : coda_split_string [44, 97, 98, 59, 44, 99, 0, 44] [44, 59, 0] true = .ok [[97, 98], [99]] := by decide
example : coda_split_string [44, 97, 98, 59, 44, 99, 0, 44] [44, 59, 0] false = .ok [[], [97, 98], [], [99]] := by decide
example : CString [44, 97, 98, 59, 44, 99, 0, 44] [44, 97, 98, 59, 44, 99] ∧ CString [44, 59, 0] [44, 59] :=
  ⟨⟨by decide, [44], rfl⟩, by decide, [], rfl⟩
example : IsSplit (· ∈ ([44] : List UInt8)) [97, 44, 44, 98] [[97], [], [98]] := ⟨by decide, [44, 44], by decide, rfl, rfl⟩

/-- C35: with `ignore_empty = false` the number of pieces is the number of delimiters plus one, and interleaving the pieces with the
delimiters of the input rebuilds the input. -/
theorem C35_split_lossless (src cs delims al : Buf) (hs : CString src cs) (hd : CString delims al) :
    ∃ ps, coda_split_string src delims false = .ok ps ∧
      ps.length = (cs.filter (fun c => decide (c ∈ al))).length + 1 ∧
      weave ps (cs.filter (fun c => decide (c ∈ al))) = cs := by
  obtain ⟨hz, rest, rfl⟩ := hs
  have h := pieces_weave (fun c => decide (c ∈ al)) cs
  refine ⟨pieces (fun c => decide (c ∈ al)) cs, ?_, h.2.1, h.2.2⟩
  have := splitLoop_spec delims al hd false rest cs (cs ++ 0 :: rest).length [] [] [] hz (by simp) (by simp)
  simpa [coda_split_string, keep] using this

/-- C35 for the sized version (NUL bytes count as delimiters). -/
theorem C35_split_sized_lossless (data rest delims al : Buf) (hd : CString delims al) :
    ∃ ps, coda_split_string_sized (data ++ rest) data.length delims false = .ok ps ∧
      ps.length = (data.filter (fun c => decide (c = 0 ∨ c ∈ al))).length + 1 ∧
      weave ps (data.filter (fun c => decide (c = 0 ∨ c ∈ al))) = data := by
  have h := pieces_weave (fun c => decide (c = 0 ∨ c ∈ al)) data
  refine ⟨pieces (fun c => decide (c = 0 ∨ c ∈ al)) data, ?_, h.2.1, h.2.2⟩
  have := splitSizedLoop_spec delims al hd false rest data [] [] [] (by simp)
  simpa [coda_split_string_sized, keep] using this

example : weave [[], [97, 98], [], [99]] [44, 59, 44] = [44, 97, 98, 59, 44, 99] := by decide

/-- C36: the set gains exactly the comma separated pieces of a non-empty string. -/
theorem C36_stringset (s cs : Buf) (set : Buf → Bool) (hs : CString s cs) :
    ∃ set' ps, coda_get_stringset (some s) set = .ok set' ∧ IsSplit (· = 44) cs ps ∧
      ∀ y, set' y = true ↔ (set y = true ∨ (cs ≠ [] ∧ y ∈ ps)) := by
  obtain ⟨hz, rest, rfl⟩ := hs
  cases cs with
  | nil => exact ⟨set, [[]], rfl, ⟨by simp, [], by simp, rfl, rfl⟩, by simp⟩
  | cons c cs =>
    obtain ⟨set', h1, h2⟩ := stringsetLoop_spec rest ((c :: cs) ++ 0 :: rest).length (c :: cs) set hz (by simp)
    refine ⟨set', pieces (fun c => decide (c = 44)) (c :: cs), ?_, by simpa using isSplit_pieces (fun c => decide (c = 44)) (c :: cs), by simpa using h2⟩
    simp only [coda_get_stringset, List.cons_append, rd_cons_zero, Res.ok_bind]
    rw [if_neg (hz c (by simp))]
    exact h1

theorem C36_stringset_null (set : Buf → Bool) : coda_get_stringset none set = .ok set := rfl

/-- C36 (partial): if every comma separated piece starts with a number, exactly these numbers are added.  Missing:
pieces without a number, see `C36_uint64set_refuted`. -/
theorem C36_uint64set_partial (s cs : Buf) (set : UInt64 → Bool) (ps : List (List UInt8)) (hs : CString s cs)
    (hp : IsSplit (· = 44) cs ps) (hn : ∀ p ∈ ps, ∃ v, IsNumber p v) :
    ∃ set', coda_get_uint64set (some s) set = .ok set' ∧
      ∀ v, set' v = true ↔ (set v = true ∨ ∃ p ∈ ps, IsNumber p v) := by
  obtain ⟨hz, rest, rfl⟩ := hs
  have he := isSplit_eq_pieces (fun c => decide (c = 44)) ps cs (by simpa using hp)
  subst he
  exact uint64setLoop_spec rest (cs ++ 0 :: rest).length cs set hz (by simp) hn

theorem C36_number_unique (p : Buf) (v w : UInt64) (hv : IsNumber p v) (hw : IsNumber p w) : v = w := isNumber_unique hv hw

theorem C36_uint64set_null (set : UInt64 → Bool) : coda_get_uint64set none set = .ok set := rfl

/-- C36 is false of `coda_get_uint64set`: a piece without a number makes it insert an indeterminate value. -/
theorem C36_uint64set_refuted (set : UInt64 → Bool) : coda_get_uint64set (some [0]) set = .ub ∧
    coda_get_uint64set (some [49, 44, 120, 0]) set = .ub := ⟨rfl, rfl⟩

/-- C36: `coda_get_uint64set` has undefined behaviour exactly for the texts with a piece that does not start with a number, whatever the
other pieces are. -/
theorem C36_uint64set_refuted_all (s cs : Buf) (set : UInt64 → Bool) (ps : List (List UInt8)) (hs : CString s cs)
    (hp : IsSplit (· = 44) cs ps) : coda_get_uint64set (some s) set = .ub ↔ ∃ p ∈ ps, ∀ v, ¬ IsNumber p v := by
  constructor
  · intro h
    refine Classical.byContradiction fun hn => ?_
    have hn : ∀ p ∈ ps, ∃ v, IsNumber p v := fun p hpp =>
      Classical.byContradiction fun hv => hn ⟨p, hpp, fun v hvv => hv ⟨v, hvv⟩⟩
    obtain ⟨set', h1, _⟩ := C36_uint64set_partial s cs set ps hs hp hn
    rw [h1] at h
    cases h
  · rintro ⟨p, hpp, hn⟩
    obtain ⟨hz, rest, rfl⟩ := hs
    have he := isSplit_eq_pieces (fun c => decide (c = 44)) ps cs (by simpa using hp)
    subst he
    exact uint64setLoop_ub rest (cs ++ 0 :: rest).length cs set hz (by simp) ⟨p, hpp, hn⟩

-- "12, -3x"
example : IsSplit (· = 44) [49, 50, 44, 32, 45, 51, 120] [[49, 50], [32, 45, 51, 120]] ∧
    ∀ p ∈ [[49, 50], [32, 45, 51, 120]], ∃ v, IsNumber p v := by
  refine ⟨⟨by decide, [44], by decide, rfl, rfl⟩, ?_⟩
  intro p hp
  rcases List.mem_cons.mp hp with rfl | hp
  · exact ⟨12, [], [], [49, 50], [], rfl, by simp, by simp, by simp, by unfold IsDigit; decide, by simp, by decide⟩
  · rw [List.mem_singleton] at hp
    subst hp
    exact ⟨-3, [32], [45], [51], [120], rfl, by unfold IsSpace; decide, by simp, by simp, by unfold IsDigit; decide,
      by unfold IsDigit; decide, by decide⟩

/-- auxiliary: the bounded formatting where `(int) num` is not negative -/
theorem fmtBounded_wrap (junk : Nat → UInt8) (num : Nat) (t : Buf) (h64 : num + 1 < 2 ^ 64) (hn : num % 2 ^ 32 < 2 ^ 31) :
    ∃ buf, fmtBounded junk num (some t) = .ok (buf, (min (num % 2 ^ 32) t.length : Nat)) ∧
      chars buf (min (num % 2 ^ 32) t.length : Nat) = .ok (some (t.take (num % 2 ^ 32))) := by
  have hsz : (num + 1) % 2 ^ 64 = num + 1 := Nat.mod_eq_of_lt h64
  have hti : toInt num = ((num % 2 ^ 32 : Nat) : Int) := by
    unfold toInt
    rw [if_pos hn]
  have hle : num % 2 ^ 32 ≤ num := Nat.mod_le _ _
  generalize num % 2 ^ 32 = k at *
  have hlen : num + 1 ≤ (fresh junk (if num < BUFSZ then BUFSZ else num + 1)).length := by
    rw [fresh_length]; split <;> omega
  refine ⟨patch (fresh junk (if num < BUFSZ then BUFSZ else num + 1)) 0 (t.take num ++ [0]), ?_, ?_⟩
  · unfold fmtBounded
    simp only [hsz, hti]
    rw [vsnprintf_spec _ _ _ (by omega) hlen, Res.ok_bind]
    simp only [Nat.add_sub_cancel]
    congr 2
    by_cases h : k < t.length
    · rw [if_pos (by omega)]; congr 1; omega
    · rw [if_neg (by omega)]; congr 1; omega
  · unfold chars
    rw [if_neg (by omega), if_neg]
    · have : ((min k t.length : Nat) : Int).toNat = min k t.length := by omega
      rw [this, patch_zero_take _ _ _ (by simp [List.length_take]; omega)]
      rw [List.take_take, Nat.min_eq_left (Nat.le_trans (Nat.min_le_left _ _) hle)]
      congr 2
      by_cases h : k ≤ t.length
      · rw [Nat.min_eq_left h]
      · rw [Nat.min_eq_right (by omega), List.take_length, List.take_of_length_le (by omega)]
    · rw [patch_length (by simp only [List.length_append, List.length_take, List.length_cons, List.length_nil]; omega)]
      omega

/-- auxiliary: the bounded formatting for `num < 2^31` -/
theorem fmtBounded_spec (junk : Nat → UInt8) (num : Nat) (t : Buf) (hn : num < 2 ^ 31) :
    ∃ buf, fmtBounded junk num (some t) = .ok (buf, (min num t.length : Nat)) ∧
      chars buf (min num t.length : Nat) = .ok (some (t.take num)) := by
  have h := fmtBounded_wrap junk num t (by omega) (by rw [Nat.mod_eq_of_lt (by omega)]; exact hn)
  rw [Nat.mod_eq_of_lt (by omega)] at h
  exact h

/-- C37 (partial): `coda_strnappend` appends the first min(num, n) characters and returns that count, for `num < 2^31`.
Missing: larger `num`, see `C37_refuted`. -/
theorem C37_strnappend_partial (junk : Nat → UInt8) (out : Buf) (num : Nat) (t : Buf) (hn : num < 2 ^ 31) :
    coda_strnappend junk out num (some t) = .ok (some (out ++ t.take num, (min num t.length : Nat))) := by
  obtain ⟨buf, h1, h2⟩ := fmtBounded_spec junk num t hn
  unfold coda_strnappend
  rw [h1, Res.ok_bind]
  dsimp only
  rw [h2]
  rfl

/-- C37 (partial): `coda_strnprintf` inserts at `pos`, for `num < 2^31`. -/
theorem C37_strnprintf_partial (junk : Nat → UInt8) (a b : Buf) (num : Nat) (t : Buf) (hn : num < 2 ^ 31) :
    coda_strnprintf junk (a ++ b) a.length num (some t) = .ok (some (a ++ t.take num ++ b, (min num t.length : Nat))) := by
  obtain ⟨buf, h1, h2⟩ := fmtBounded_spec junk num t hn
  unfold coda_strnprintf
  rw [if_neg (by simp), h1, Res.ok_bind]
  dsimp only
  rw [h2]
  simp

/-- C37: a position beyond the end is refused and nothing changes. -/
theorem C37_strnprintf_pos (junk : Nat → UInt8) (out : Buf) (pos num : Nat) (t : Option Buf) (h : out.length < pos) :
    coda_strnprintf junk out pos num t = .ok (some (out, -1)) := by
  simp [coda_strnprintf, h]

theorem fmtAlloca_spec (junk : Nat → UInt8) (t : Buf) :
    ∃ buf : Buf, fmtAlloca junk (some t) = .ok (buf, t.length) ∧ (∃ r, buf = t ++ 0 :: r) := by
  unfold fmtAlloca
  rw [vsnprintf_spec _ _ _ (by decide) (by rw [fresh_length]; exact Nat.le_refl _), Res.ok_bind]
  dsimp only
  by_cases h : (BUFSZ : Int) ≤ t.length
  · rw [if_pos h]
    rw [vsnprintf_spec _ _ _ (by omega) (by rw [fresh_length]; exact Nat.le_refl _), Res.ok_bind]
    refine ⟨_, rfl, ?_⟩
    simp only [Int.toNat_natCast, Nat.add_sub_cancel, List.take_length]
    exact ⟨List.drop (0 + (t ++ [0]).length) (fresh junk (t.length + 1)), by simp [patch]⟩
  · rw [if_neg h]
    refine ⟨_, rfl, ?_⟩
    have e : t.take (BUFSZ - 1) = t := List.take_of_length_le (by omega)
    rw [e]
    exact ⟨List.drop (0 + (t ++ [0]).length) (fresh junk BUFSZ), by simp [patch]⟩

/-- C37: `coda_strappend` appends the whole text, whatever its size. -/
theorem C37_strappend (junk : Nat → UInt8) (out t : Buf) :
    coda_strappend junk out (some t) = .ok (some (out ++ t, t.length)) := by
  obtain ⟨buf, h1, r, h2⟩ := fmtAlloca_spec junk t
  unfold coda_strappend
  rw [h1, Res.ok_bind]
  dsimp only
  unfold chars
  rw [if_neg (by omega), if_neg (by rw [h2]; simp; omega), h2]
  simp

/-- C37: `coda_strprintf` returns the whole text if it contains no NUL character. -/
theorem C37_strprintf (junk : Nat → UInt8) (t : Buf) (hz : ∀ c ∈ t, c ≠ 0) :
    coda_strprintf junk (some t) = .ok t := by
  obtain ⟨buf, h1, r, h2⟩ := fmtAlloca_spec junk t
  unfold coda_strprintf
  rw [h1, Res.ok_bind]
  dsimp only
  rw [h2, strlen_spec r t hz, Res.ok_bind]
  simp

/-- C37 is false of the code for `2^31 ≤ num < 2^32` ("practically no limit"): every call throws. -/
theorem C37_refuted (junk : Nat → UInt8) (out : Buf) (num : Nat) (t : Buf) (h1 : 2 ^ 31 ≤ num) (h2 : num < 2 ^ 32) :
    coda_strnappend junk out num (some t) = .ok none := by
  have hsz : (num + 1) % 2 ^ 64 = num + 1 := Nat.mod_eq_of_lt (by omega)
  have hti : toInt num = (num : Int) - 2 ^ 32 := by
    unfold toInt
    rw [Nat.mod_eq_of_lt (by omega : num < 2 ^ 32), if_neg (by omega)]
  have hlen : num + 1 ≤ (fresh junk (if num < BUFSZ then BUFSZ else num + 1)).length := by
    rw [fresh_length]; split <;> omega
  unfold coda_strnappend fmtBounded
  simp only [hsz, hti]
  rw [vsnprintf_spec _ _ _ (by omega) hlen, Res.ok_bind, Res.ok_bind]
  dsimp only
  have hneg : (num : Int) - 2 ^ 32 < 0 := by omega
  rw [if_pos (by omega : (num : Int) - 2 ^ 32 < (t.length : Int))]
  unfold chars
  rw [if_pos hneg]
  rfl

/-- C37 is false of the code for a larger `num` as well: only the lower 32 bits count; with 2^32 nothing is appended. -/
theorem C37_refuted_big (junk : Nat → UInt8) (out : Buf) (num : Nat) (t : Buf) (h1 : num + 1 < 2 ^ 64) (h2 : num % 2 ^ 32 < 2 ^ 31) :
    coda_strnappend junk out num (some t) = .ok (some (out ++ t.take (num % 2 ^ 32), (min (num % 2 ^ 32) t.length : Nat))) := by
  obtain ⟨buf, h1, h2⟩ := fmtBounded_wrap junk num t h1 h2
  unfold coda_strnappend
  rw [h1, Res.ok_bind]
  dsimp only
  rw [h2]
  rfl

example (out t : Buf) : coda_strnappend (fun _ => 7) out (2 ^ 32 + 1) (some (98 :: t)) = .ok (some (out ++ [98], 1)) := by
  have h := C37_refuted_big (fun _ => 7) out (2 ^ 32 + 1) (98 :: t) (by decide) (by decide)
  rw [h]
  simp

example : (5 : Nat) < 2 ^ 31 ∧ (40000 : Nat) < 2 ^ 31 ∧ (2 ^ 31 : Nat) ≤ 4294967295 ∧ (4294967295 : Nat) < 2 ^ 32 := by decide
example : coda_strnappend (fun _ => 7) [97] 2 (some [98, 99, 100]) = .ok (some ([97, 98, 99], 2)) :=
  C37_strnappend_partial _ _ _ _ (by decide)

/-- C38: exactly `size` characters, each from the alphabet, no read outside it, for every behaviour of the generator. -/
theorem C38_random_string (rnd : Nat → Nat) (size : Nat) (alphabet rest : Buf) (h : alphabet ≠ []) :
    ∃ r, coda_random_string rnd size (alphabet ++ rest) alphabet.length = .ok r ∧ r.length = size ∧ ∀ c ∈ r, c ∈ alphabet := by
  have hpos : 0 < alphabet.length := List.length_pos_iff.mpr h
  have key : ∀ (size k : Nat) (res : Buf), (∀ c ∈ res, c ∈ alphabet) →
      ∃ r, randomLoop (alphabet ++ rest) alphabet.length rnd size k res = .ok r ∧ r.length = res.length + size ∧ ∀ c ∈ r, c ∈ alphabet := by
    intro size
    induction size with
    | zero => intro k res hres; exact ⟨res, rfl, rfl, hres⟩
    | succ size ih =>
      intro k res hres
      have hlt : rnd k % alphabet.length % 2 ^ 32 < alphabet.length :=
        Nat.lt_of_le_of_lt (Nat.mod_le _ _) (Nat.mod_lt _ hpos)
      have hrd : rd (alphabet ++ rest) (rnd k % alphabet.length % 2 ^ 32) = .ok (alphabet[rnd k % alphabet.length % 2 ^ 32]'hlt) := by
        rw [rd_eq (by simp; omega), List.getElem_append_left hlt]
      rw [randomLoop, if_neg (by omega), hrd, Res.ok_bind]
      obtain ⟨r, h1, h2, h3⟩ := ih (k + 1) (res ++ [alphabet[rnd k % alphabet.length % 2 ^ 32]'hlt]) (by
        intro c hc
        rcases List.mem_append.mp hc with hc | hc
        · exact hres c hc
        · rw [List.mem_singleton] at hc; subst hc; exact List.getElem_mem hlt)
      exact ⟨r, h1, by simp at h2; omega, h3⟩
  obtain ⟨r, h1, h2, h3⟩ := key size 0 [] (by simp)
  exact ⟨r, h1, by simpa using h2, h3⟩

example : coda_random_string (fun k => k * 7 + 5) 4 [97, 98, 99, 0] 3 = .ok [99, 97, 98, 99] := by decide

/-- C39: the client loop yields exactly the maximal non-empty blank-free words, in order, and stops. -/
theorem C39_words (o cs : Buf) (h : CString o cs) :
    ∃ ps, IsSplit Blank cs ps ∧ ∀ fuel, cs.length < fuel → allWords fuel o = .ok (ps.filter (· ≠ [])) := by
  obtain ⟨hz, rest, rfl⟩ := h
  exact ⟨pieces isBlank cs, by
    have h := isSplit_pieces isBlank cs
    simp only [isBlank, decide_eq_true_eq] at h
    exact h,
    fun fuel hf => allWords_spec rest fuel cs hz hf⟩

/-- C39: a single call: blanks are skipped, [be, en) is the longest blank-free piece that follows, 0 is returned iff it is empty. -/
theorem C39_get_next_word (o cs : Buf) (h : CString o cs) : ∃ ws w tl, cs = ws ++ w ++ tl ∧
    (∀ c ∈ ws, Blank c) ∧ (∀ c ∈ w, ¬ Blank c) ∧ (∀ x, tl.head? = some x → Blank x) ∧ (w = [] → tl = []) ∧
    get_next_word o = .ok (if w = [] then 0 else 1, ws.length, ws.length + w.length) := by
  obtain ⟨hz, rest, rfl⟩ := h
  obtain ⟨ws, w, tl, h1, h2, h3, h4, h5, h6⟩ := getNextWord_spec cs rest hz
  refine ⟨ws, w, tl, h1, ?_, ?_, ?_, h5, h6⟩
  · intro c hc; simpa [isBlank, Blank] using h2 c hc
  · intro c hc; simpa [isBlank, Blank] using h3 c hc
  · intro c hc; simpa [isBlank, Blank] using h4 c hc

example : allWords 9 [32, 97, 98, 9, 10, 99, 32, 0] = .ok [[97, 98], [99]] := by decide
example : CString [32, 97, 98, 9, 10, 99, 32, 0] [32, 97, 98, 9, 10, 99, 32] := ⟨by decide, [], rfl⟩

end Verif.StrCpp
