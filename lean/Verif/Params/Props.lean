import Verif.Params.Lemmas

namespace Verif.Params
open Spec Verif.Str Verif.Str.Spec

/-- C25: for every buffer (followed by arbitrary further memory `rest`, which is not read) and every map,
`coda_get_params_buf` returns 0 and the map is updated piece by piece, in order. -/
theorem C25_params (m : Map) (data rest : List UInt8) :
    coda_get_params_buf m (some (data ++ rest)) data.length
      = .ok (0, (split 38 data).foldl (piece 61) m) := by
  rw [coda_get_params_buf, paramsLoop_spec rest _ _ _ (Nat.le_refl _)]
  rfl

/-- C25: keys that no piece of the buffer assigns keep their old value. -/
theorem C25_params_frame (m : Map) (data rest : List UInt8) (x : List UInt8)
    (hx : ∀ p ∈ split 38 data, ∀ v, p ≠ x ++ [61] ++ v) :
    ∃ m', coda_get_params_buf m (some (data ++ rest)) data.length = .ok (0, m') ∧ m' x = m x := by
  refine ⟨_, C25_params m data rest, ?_⟩
  revert hx
  generalize split 38 data = ps
  intro hx
  induction ps generalizing m with
  | nil => rfl
  | cons p ps ih =>
    rw [List.foldl_cons, ih _ (fun q hq => hx q (List.mem_cons_of_mem _ hq))]
    unfold piece
    split
    · rename_i hmem
      unfold assign
      rw [if_neg]
      intro he
      have hsp := List.takeWhile_append_dropWhile (p := (fun y => decide (y ≠ (61 : UInt8)))) (l := p)
      cases hd : p.dropWhile (fun y => decide (y ≠ (61 : UInt8))) with
      | nil =>
        rw [hd, List.append_nil] at hsp
        rw [← hsp] at hmem
        exact not_mem_takeWhile _ _ hmem
      | cons y ys =>
        have hy : y = 61 := by
          have := List.head?_dropWhile_not (fun y => decide (y ≠ (61 : UInt8))) p
          rw [hd] at this
          simpa using this
        rw [hd, hy, ← he] at hsp
        exact hx p (by simp) ys (by rw [← hsp]; simp)
    · rfl

/-- C25: the NUL-terminated wrapper handles exactly the text before the first NUL. -/
theorem C25_params_cstring (m : Map) (s cs : List UInt8) (h : CString s cs) :
    coda_get_params m (some s) = .ok (0, (split 38 cs).foldl (piece 61) m) := by
  obtain ⟨hz, tail, rfl⟩ := h
  simp only [coda_get_params, strlen_spec tail cs hz, Res.ok_bind]
  exact C25_params m cs (0 :: tail)

/-- a NULL buffer is refused and nothing changes -/
theorem C25_params_null (m : Map) (len : Nat) :
    coda_get_params_buf m none len = .ok (-1, m) ∧ coda_get_params m none = .ok (-1, m) := ⟨rfl, rfl⟩

-- "a=1&b&a=2=3" followed by memory that does not belong to the text
example : ∃ m, coda_get_params_buf (fun _ => none) (some [97,61,49,38,98,38,97,61,50,61,51, 38, 99]) 11 = .ok (0, m) ∧
    m [97] = some [50,61,51] ∧ m [98] = none := by
  refine ⟨_, C25_params (fun _ => none) [97,61,49,38,98,38,97,61,50,61,51] [38, 99], ?_⟩
  decide
example : ∀ p ∈ split 38 [97,61,49,38,98], ∀ v, p ≠ [98] ++ [61] ++ v := by
  simp [split]
example : CString [97,61,49,0,7] [97,61,49] := ⟨by decide, [7], rfl⟩

/-- C26: serialise and parse into an empty map. -/
theorem C26_params_roundtrip (pairs : List (List UInt8 × List UInt8)) (rest : List UInt8)
    (hk : ∀ p ∈ pairs, (38 : UInt8) ∉ p.1 ∧ (61 : UInt8) ∉ p.1) (hv : ∀ p ∈ pairs, (38 : UInt8) ∉ p.2) :
    ∃ m, coda_get_params_buf (fun _ => none) (some (serialise pairs ++ rest)) (serialise pairs).length = .ok (0, m) ∧
      ∀ k, m k = lastValue pairs k := by
  refine ⟨_, C25_params _ _ _, ?_⟩
  have key : ∀ (pairs : List (List UInt8 × List UInt8)) (m : Map),
      (∀ p ∈ pairs, (38 : UInt8) ∉ p.1 ∧ (61 : UInt8) ∉ p.1) → (∀ p ∈ pairs, (38 : UInt8) ∉ p.2) →
      ∀ k, (split 38 (serialise pairs)).foldl (piece 61) m k = (lastValue pairs k).or (m k) := by
    intro pairs
    induction pairs with
    | nil => intro m _ _ k; simp [serialise, split, piece, lastValue]
    | cons kv pairs ih =>
      obtain ⟨a, b⟩ := kv
      intro m hk hv k
      have hk1 := hk (a, b) (by simp)
      have hv1 := hv (a, b) (by simp)
      have hns : (38 : UInt8) ∉ a ++ [61] ++ b := by simp; exact ⟨hk1.1, hv1⟩
      have hstep : (split 38 (serialise ((a, b) :: pairs))).foldl (piece 61) m
          = (split 38 (serialise pairs)).foldl (piece 61) (assign m a b) := by
        cases pairs with
        | nil => simp only [serialise, split_no_sep _ _ hns, List.foldl_cons, List.foldl_nil, piece_pair _ _ _ hk1.2, split]
                 simp [piece]
        | cons p ps =>
          rw [serialise_cons _ _ _ (by simp), split_append_sep _ _ _ hns, List.foldl_cons, piece_pair _ _ _ hk1.2]
      rw [hstep, ih _ (fun p hp => hk p (by simp [hp])) (fun p hp => hv p (by simp [hp]))]
      simp only [lastValue, assign]
      cases lastValue pairs k with
      | some w => rfl
      | none => by_cases h : k = a <;> simp [h]
  intro k
  rw [key pairs _ hk hv]
  simp

example : (∀ p ∈ [(([97] : List UInt8), ([61, 1] : List UInt8)), ([], [2]), ([97], [])], (38 : UInt8) ∉ p.1 ∧ (61 : UInt8) ∉ p.1)
    ∧ (∀ p ∈ [(([97] : List UInt8), ([61, 1] : List UInt8)), ([], [2]), ([97], [])], (38 : UInt8) ∉ p.2) := by decide
example : lastValue [([97], [61, 1]), ([], [2]), ([97], [])] [97] = some [] := by decide

/-- C27 (partial): header parsing, under the hypothesis that no processed line starts with a NUL byte.  Missing: lines that
start with NUL (see `C27_refuted`). -/
theorem C27_header_partial (m : Map) (data rest : List UInt8)
    (hz : ∀ l ∈ (lines data).takeWhile (· ≠ []), l.head? ≠ some 0) :
    coda_get_header_buf m (some (data ++ rest)) data.length
      = .ok (0, ((lines data).takeWhile (· ≠ [])).foldl (piece 58) m) := by
  rw [coda_get_header_buf, headerLoop_spec rest _ _ _ (Nat.le_refl _) hz]
  rfl

/-- C27: without a text the result is -1 and the map is as before. -/
theorem C27_null (m : Map) (len : Nat) : coda_get_header_buf m none len = .ok (-1, m) ∧ coda_get_header m none = .ok (-1, m) := ⟨rfl, rfl⟩

/-- C27 (complete for text): the NUL-terminated wrapper obeys the full statement for every C string. -/
theorem C27_header_cstring (m : Map) (s cs : List UInt8) (h : CString s cs) :
    coda_get_header m (some s) = .ok (0, ((lines cs).takeWhile (· ≠ [])).foldl (piece 58) m) := by
  obtain ⟨hz, tail, rfl⟩ := h
  simp only [coda_get_header, strlen_spec tail cs hz, Res.ok_bind]
  apply C27_header_partial m cs (0 :: tail)
  have key : ∀ (n : Nat) (cs : List UInt8), cs.length ≤ n → (∀ c ∈ cs, c ≠ 0) → ∀ l ∈ lines cs, ∀ c ∈ l, c ≠ 0 := by
    intro n
    induction n with
    | zero =>
      intro cs hn hz l hl
      have := List.eq_nil_of_length_eq_zero (by omega : cs.length = 0)
      subst this
      simp [lines] at hl
      simp [hl]
    | succ n ih =>
      intro cs hn hz l hl
      cases cs with
      | nil => simp [lines] at hl; simp [hl]
      | cons x xs =>
        by_cases hx : x = 13 ∧ xs.head? = some 10
        · obtain ⟨rfl, hh⟩ := hx
          cases xs with
          | nil => simp at hh
          | cons y ys =>
            simp at hh
            subst hh
            simp only [lines, List.mem_cons] at hl
            rcases hl with rfl | hl
            · simp
            · exact ih ys (by simp at hn; omega) (fun c hc => hz c (by simp [hc])) l hl
        · rw [lines_cons_ne hx] at hl
          have ihx := ih xs (by simp at hn; omega) (fun c hc => hz c (by simp [hc]))
          cases hlx : lines xs with
          | nil => exact absurd hlx (lines_ne_nil _)
          | cons p ps =>
            rw [hlx] at hl ihx
            simp only [List.mem_cons] at hl
            rcases hl with rfl | hl
            · intro c hc
              rcases List.mem_cons.mp hc with rfl | hc
              · exact hz _ (by simp)
              · exact ihx p (by simp) c hc
            · exact ihx l (by simp [hl])
  intro l hl h0
  have hl' := List.takeWhile_subset _ hl
  have := key _ cs (Nat.le_refl _) hz l hl'
  cases l with
  | nil => simp at h0
  | cons c l => exact this c (by simp) (by simpa using h0)

/-- nothing after the first empty line has any effect -/
theorem C27_header_stops (m : Map) (a b b' rest : List UInt8)
    (hz : ∀ l ∈ lines a, l.head? ≠ some 0 ∧ l ≠ []) (ha : a.getLast? ≠ some 13) :
    coda_get_header_buf m (some (a ++ [13, 10, 13, 10] ++ b ++ rest)) (a ++ [13, 10, 13, 10] ++ b).length
      = coda_get_header_buf m (some (a ++ [13, 10, 13, 10] ++ b' ++ rest)) (a ++ [13, 10, 13, 10] ++ b').length := by
  have key : ∀ (n : Nat) (a b : List UInt8), a.length ≤ n → a.getLast? ≠ some 13 →
      lines (a ++ [13, 10, 13, 10] ++ b) = lines a ++ [] :: lines b := by
    intro n
    induction n with
    | zero =>
      intro a b hn _
      have := List.eq_nil_of_length_eq_zero (by omega : a.length = 0)
      subst this
      simp [lines]
    | succ n ih =>
      intro a b hn hla
      cases a with
      | nil => simp [lines]
      | cons x xs =>
        by_cases hx : x = 13 ∧ xs.head? = some 10
        · obtain ⟨rfl, hh⟩ := hx
          cases xs with
          | nil => simp at hh
          | cons y ys =>
            simp at hh
            subst hh
            have hys : ys.getLast? ≠ some 13 := by
              cases ys with
              | nil => simp
              | cons z zs => simpa using hla
            have := ih ys b (by simp at hn; omega) hys
            simp only [List.cons_append, lines] at this ⊢
            rw [this]
        · have hxs : xs.getLast? ≠ some 13 := by
            cases xs with
            | nil => simp
            | cons z zs => simpa using hla
          have hx' : ¬ (x = 13 ∧ (xs ++ [13, 10, 13, 10] ++ b).head? = some 10) := by
            rintro ⟨h1, h2⟩
            apply hx
            refine ⟨h1, ?_⟩
            cases xs with
            | nil => simp at h2
            | cons z zs => simpa using h2
          rw [List.cons_append, List.cons_append, lines_cons_ne hx', lines_cons_ne hx, ih xs b (by simp at hn; omega) hxs]
          cases hlx : lines xs with
          | nil => exact absurd hlx (lines_ne_nil _)
          | cons p ps => rfl
  have htw : ∀ c : List UInt8, (lines (a ++ [13, 10, 13, 10] ++ c)).takeWhile (· ≠ []) = lines a := by
    intro c
    rw [key _ a c (Nat.le_refl _) ha, List.takeWhile_append_of_pos (fun l hl => by simpa using (hz l hl).2)]
    simp
  rw [C27_header_partial, C27_header_partial, htw, htw]
  · rw [htw]; exact fun l hl => (hz l hl).1
  · rw [htw]; exact fun l hl => (hz l hl).1

/-- C27 is false of the code: a line that starts with a NUL byte swallows the rest of the buffer.  For
"\0\r\nk:v" the line "k:v" should assign v to k. -/
theorem C27_refuted : ∃ (data : List UInt8) (m : Map),
    coda_get_header_buf (fun _ => none) (some data) data.length = .ok (0, m) ∧
    m [107] = none ∧ (((lines data).takeWhile (· ≠ [])).foldl (piece 58) (fun _ => none)) [107] = some [118] := by
  refine ⟨[0, 13, 10, 107, 58, 118], ((match coda_get_header_buf (fun _ => none) (some [0, 13, 10, 107, 58, 118]) 6 with
    | .ok (_, m) => m
    | _ => fun _ => none) : Map), ?_, ?_, ?_⟩
  · rfl
  · decide
  · decide

-- "A:1\r\nxx\r\nA:2:3\r\n\r\nA:9"
example : ∀ l ∈ (lines [65,58,49,13,10,120,120,13,10,65,58,50,58,51,13,10,13,10,65,58,57]).takeWhile (· ≠ []),
    l.head? ≠ some 0 := by decide
example : (((lines [65,58,49,13,10,120,120,13,10,65,58,50,58,51,13,10,13,10,65,58,57]).takeWhile (· ≠ [])).foldl
    (piece 58) (fun _ => none)) [65] = some [50,58,51] := by decide
example : (∀ l ∈ lines [65,58,49,13,10,120], l.head? ≠ some 0 ∧ l ≠ []) ∧
    [65,58,49,13,10,(120 : UInt8)].getLast? ≠ some 13 := by decide

/-- C27, exactly: what `coda_get_header_buf` does with any data at all.  The lines before the first empty one count; but a line that begins with
a NUL byte is taken together with everything behind it. -/
theorem C27_exact_partial (m : Map) (data rest : List UInt8) :
    coda_get_header_buf m (some (data ++ rest)) data.length = .ok (0, (taken (lines data)).foldl (piece 58) m) := by
  rw [coda_get_header_buf, headerLoop_exact rest _ _ _ (Nat.le_refl _)]
  rfl

/-- C27 is false for all data that begin with a NUL byte: whatever lines follow, at most one key is assigned, and it begins with that NUL byte; all
the other keys keep what they had. -/
theorem C27_refuted_all (m : Map) (w rest : List UInt8) : ∃ m', coda_get_header_buf m (some (0 :: w ++ rest)) (w.length + 1) = .ok (0, m') ∧
    ∀ k : List UInt8, k.head? ≠ some 0 → m' k = m k := by
  have e : taken (lines (0 :: w)) = [0 :: w] := by
    have h1 : lines (0 :: w) = match lines w with
        | p :: ps => (0 :: p) :: ps
        | [] => [[0]] := lines_cons_ne (by simp)
    have hj := lines_join (0 :: w)
    cases hl : lines w with
    | nil => exact absurd hl (lines_ne_nil _)
    | cons p ps =>
      rw [hl] at h1
      rw [h1] at hj ⊢
      rw [taken, if_neg (by simp), if_pos (by simp), hj]
  have h := C27_exact_partial m (0 :: w) rest
  rw [e] at h
  refine ⟨_, h, fun k hk => ?_⟩
  simp only [List.foldl_cons, List.foldl_nil, piece]
  split
  · unfold assign
    rw [if_neg]
    rintro rfl
    apply hk
    rw [List.takeWhile_cons_of_pos (by decide)]
    rfl
  · rfl

example : taken (lines [107, 58, 118, 13, 10, 0, 13, 10, 97, 58, 98]) = [[107, 58, 118], [0, 13, 10, 97, 58, 98]] := by decide

end Verif.Params
