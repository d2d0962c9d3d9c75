import Verif.Params.Model
import Verif.Params.Spec
import Verif.Str.Lemmas

set_option linter.unusedSimpArgs false
set_option linter.unusedVariables false

namespace Verif.Params
open Spec Verif.Str Verif.Str.Spec

theorem put_eq : put = assign := rfl

theorem strnchr_eq (c : UInt8) (rest : Buf) : ∀ data : Buf,
    coda_strnchr (data ++ rest) c data.length
      = .ok (if c ∈ data then some (data.takeWhile (· ≠ c)).length else none) := by
  intro data
  induction data with
  | nil => cases rest <;> simp [coda_strnchr, chrLoop]
  | cons v data ih =>
    unfold coda_strnchr at *
    simp only [List.cons_append, List.length_cons, chrLoop, id, List.mem_cons]
    by_cases h : c = v
    · subst h; simp
    · rw [if_neg h, ih]
      by_cases hm : c ∈ data
      · simp [hm, Ne.symm h]
      · simp [hm, h]

theorem takeWhile_append_mem {c : UInt8} {p q : Buf} (h : c ∈ p) :
    (p ++ q).takeWhile (· ≠ c) = p.takeWhile (· ≠ c) := by
  induction p with
  | nil => simp at h
  | cons x p ih =>
    by_cases hx : x = c
    · subst hx; simp
    · have : c ∈ p := by simpa [Ne.symm hx] using h
      simp only [List.cons_append]
      rw [List.takeWhile_cons_of_pos (by simpa using hx), List.takeWhile_cons_of_pos (by simpa using hx), ih this]

theorem takeWhile_append_not_mem {c : UInt8} {p q : Buf} (h : c ∉ p) :
    (p ++ q).takeWhile (· ≠ c) = p ++ q.takeWhile (· ≠ c) := by
  induction p with
  | nil => rfl
  | cons x p ih =>
    simp only [List.mem_cons, not_or] at h
    simp only [List.cons_append]
    rw [List.takeWhile_cons_of_pos (by simpa using Ne.symm h.1), ih h.2]

theorem take_takeWhile_length (p : UInt8 → Bool) (l : Buf) : l.take (l.takeWhile p).length = l.takeWhile p := by
  conv => lhs; rw [← List.takeWhile_append_dropWhile (p := p) (l := l)]
  rw [List.take_append_of_le_length (by simp [List.takeWhile_append_dropWhile]), ]
  simp [List.takeWhile_append_dropWhile]

theorem drop_takeWhile_length (p : UInt8 → Bool) (l : Buf) : l.drop (l.takeWhile p).length = l.dropWhile p := by
  induction l with
  | nil => rfl
  | cons x l ih =>
    by_cases h : p x = true
    · rw [List.takeWhile_cons_of_pos h, List.dropWhile_cons_of_pos h]; simpa using ih
    · rw [List.takeWhile_cons_of_neg h, List.dropWhile_cons_of_neg h]; rfl

theorem not_mem_takeWhile (c : UInt8) (l : Buf) : c ∉ l.takeWhile (· ≠ c) := by
  induction l with
  | nil => simp
  | cons x l ih =>
    by_cases h : x = c
    · subst h; simp
    · rw [List.takeWhile_cons_of_pos (by simpa using h), List.mem_cons, not_or]
      exact ⟨Ne.symm h, ih⟩

/-- One step of either loop: the effect of a piece `p` at the start of the buffer. -/
theorem piece_step (sep : UInt8) (m : Map) (p rest : Buf) (data : Buf) (hd : ∃ tl, data = p ++ tl) :
    putPiece m (data ++ rest) (if sep ∈ data then some (data.takeWhile (· ≠ sep)).length else none) p.length
      = piece sep m p := by
  obtain ⟨tl, rfl⟩ := hd
  unfold piece putPiece
  by_cases h : sep ∈ p
  · have hq : (p.takeWhile (· ≠ sep)).length < p.length := by
      have h1 := congrArg List.length (List.takeWhile_append_dropWhile (p := (fun x => decide (x ≠ sep))) (l := p))
      rw [List.length_append] at h1
      have h2 : (p.dropWhile (· ≠ sep)) ≠ [] := by
        intro h0
        have := List.takeWhile_append_dropWhile (p := (fun x => decide (x ≠ sep))) (l := p)
        rw [h0, List.append_nil] at this
        have hm : sep ∈ p.takeWhile (· ≠ sep) := by rw [this]; exact h
        exact not_mem_takeWhile sep p hm
      have := List.length_pos_iff.mpr h2
      omega
    rw [if_pos (by simp [h]), takeWhile_append_mem h]
    simp only [hq, if_true, h, put_eq]
    congr 1
    · rw [List.append_assoc, List.take_append_of_le_length (by omega), take_takeWhile_length]
    · rw [List.append_assoc, List.drop_append_of_le_length (by omega), ← List.drop_drop, drop_takeWhile_length,
        List.take_append_of_le_length]
      · rw [List.take_of_length_le]
        simp only [List.length_drop]
        have h1 := congrArg List.length (List.takeWhile_append_dropWhile (p := (fun x => decide (x ≠ sep))) (l := p))
        rw [List.length_append] at h1
        omega
      · simp only [List.length_drop]
        have h1 := congrArg List.length (List.takeWhile_append_dropWhile (p := (fun x => decide (x ≠ sep))) (l := p))
        rw [List.length_append] at h1
        omega
  · rw [if_neg h]
    by_cases h2 : sep ∈ p ++ tl
    · rw [if_pos h2, takeWhile_append_not_mem h]
      dsimp only
      rw [if_neg (by simp)]
    · rw [if_neg h2]

theorem split_eq (sep : UInt8) (data : Buf) :
    split sep data = data.takeWhile (· ≠ sep) ::
      (match data.dropWhile (· ≠ sep) with | [] => [] | _ :: r => split sep r) := by
  induction data with
  | nil => simp [split]
  | cons x data ih =>
    by_cases h : x = sep
    · subst h; simp [split]
    · rw [split, if_neg h, ih, List.takeWhile_cons_of_pos (by simpa using h), List.dropWhile_cons_of_pos (by simpa using h)]

theorem paramsLoop_spec (rest : Buf) : ∀ (fuel : Nat) (data : Buf) (m : Map), data.length ≤ fuel →
    paramsLoop fuel m (data ++ rest) data.length = .ok ((split 38 data).foldl (piece 61) m) := by
  intro fuel
  induction fuel with
  | zero =>
    intro data m h
    have := List.eq_nil_of_length_eq_zero (by omega : data.length = 0)
    subst this
    simp [paramsLoop, split, piece]
  | succ fuel ih =>
    intro data m h
    unfold paramsLoop
    by_cases h0 : data.length = 0
    · have := List.eq_nil_of_length_eq_zero h0
      subst this
      simp [split, piece]
    · rw [if_neg h0, strnchr_eq, strnchr_eq, Res.ok_bind, Res.ok_bind]
      have hsplit := List.takeWhile_append_dropWhile (p := (fun x => decide (x ≠ (38 : UInt8)))) (l := data)
      have hamp : (if (38 : UInt8) ∈ data then some (data.takeWhile (· ≠ 38)).length else none : Option Nat).getD data.length
          = (data.takeWhile (· ≠ 38)).length := by
        split
        · rfl
        · rename_i hn
          have := takeWhile_append_not_mem (c := 38) (p := data) (q := []) hn
          simp only [List.append_nil, List.takeWhile_nil] at this
          rw [this]; rfl
      simp only [hamp]
      have hstep := piece_step 61 m (data.takeWhile (· ≠ 38)) rest data ⟨_, hsplit.symm⟩
      rw [hstep]
      rw [split_eq 38 data, List.foldl_cons]
      have hl := congrArg List.length hsplit
      rw [List.length_append] at hl
      cases hdw : data.dropWhile (· ≠ 38) with
      | nil =>
        rw [hdw] at hl
        simp only [List.length_nil] at hl
        rw [show data.length - ((data.takeWhile (· ≠ 38)).length + 1) = 0 by omega]
        cases fuel <;> simp [paramsLoop]
      | cons x r =>
        rw [hdw] at hl
        simp only [List.length_cons] at hl
        have e1 : (data ++ rest).drop ((data.takeWhile (· ≠ 38)).length + 1) = r ++ rest := by
          rw [← List.drop_drop, List.drop_append_of_le_length (by omega), drop_takeWhile_length, hdw]
          rfl
        rw [e1, show data.length - ((data.takeWhile (· ≠ 38)).length + 1) = r.length by omega]
        rw [ih r _ (by omega)]

/-! ### header lines -/

theorem lines_cons_ne {x : UInt8} {xs : List UInt8} (h : ¬ (x = 13 ∧ xs.head? = some 10)) :
    lines (x :: xs) = match lines xs with
      | p :: ps => (x :: p) :: ps
      | [] => [[x]] := by
  cases xs with
  | nil => simp [lines]
  | cons y ys =>
    by_cases hx : x = 13
    · subst hx
      have hy : y ≠ 10 := by simpa using h
      conv => lhs; unfold lines
      split
      · simp_all
      · simp_all
      · rename_i heq
        injection heq with h1 h2
        subst h1; subst h2; rfl
    · conv => lhs; unfold lines
      split
      · simp_all
      · simp_all
      · rename_i heq
        injection heq with h1 h2
        subst h1; subst h2; rfl

theorem lines_ne_nil : ∀ data, lines data ≠ [] := by
  intro data
  cases data with
  | nil => simp [lines]
  | cons x xs =>
    by_cases h : x = 13 ∧ xs.head? = some 10
    · obtain ⟨rfl, h⟩ := h
      cases xs with
      | nil => simp at h
      | cons y ys => simp at h; subst h; simp [lines]
    · rw [lines_cons_ne h]; split <;> simp

/-- Decomposition of `lines` along the first occurrence of CR LF. -/
theorem lines_first (data : List UInt8) (r : Option Nat) : IsFirst (Occurs [13, 10] data) r →
    lines data = data.take (r.getD data.length) ::
      (match r with | none => [] | some k => lines (data.drop (k + 2))) := by
  intro h
  induction data generalizing r with
  | nil =>
    cases r with
    | none => simp [lines]
    | some k => exact absurd h.1 (occurs_nil (by simp))
  | cons x xs ih =>
    by_cases hx : x = 13 ∧ xs.head? = some 10
    · obtain ⟨rfl, hh⟩ := hx
      cases xs with
      | nil => simp at hh
      | cons y ys =>
        simp at hh
        subst hh
        have h0 : IsFirst (Occurs [13, 10] (13 :: 10 :: ys)) (some 0) :=
          isFirst_zero ⟨[], ys, rfl, rfl⟩
        rw [isFirst_unique h h0]
        simp [lines]
    · have h0 : ¬ Occurs [13, 10] (x :: xs) 0 := by
        rw [occurs_zero]
        rintro ⟨t, ht⟩
        simp at ht
        apply hx
        rw [← ht.1, ← ht.2]
        simp
      rw [lines_cons_ne hx]
      have h' : IsFirst (Occurs [13, 10] xs) (r.map (· - 1)) := by
        cases r with
        | none =>
          intro i hi
          exact h (i + 1) (occurs_succ.mpr hi)
        | some k =>
          cases k with
          | zero => exact absurd h.1 h0
          | succ k =>
            refine ⟨occurs_succ.mp h.1, ?_⟩
            intro j hj hjo
            exact h.2 (j + 1) (by simpa using hj) (occurs_succ.mpr hjo)
      rw [ih _ h']
      cases r with
      | none => simp
      | some k =>
        cases k with
        | zero => exact absurd h.1 h0
        | succ k => simp

theorem headerLoop_spec (rest : Buf) : ∀ (fuel : Nat) (data : Buf) (m : Map), data.length ≤ fuel →
    (∀ l ∈ (lines data).takeWhile (· ≠ []), l.head? ≠ some 0) →
    headerLoop fuel m (data ++ rest) data.length
      = .ok (((lines data).takeWhile (· ≠ [])).foldl (piece 58) m) := by
  intro fuel
  induction fuel with
  | zero =>
    intro data m h _
    have := List.eq_nil_of_length_eq_zero (by omega : data.length = 0)
    subst this
    simp [headerLoop, lines]
  | succ fuel ih =>
    intro data m h hz
    unfold headerLoop
    by_cases h0 : data.length = 0
    · have := List.eq_nil_of_length_eq_zero h0
      subst this
      simp [lines]
    · rw [if_neg h0]
      cases data with
      | nil => simp at h0
      | cons c data =>
        -- the first byte is not NUL
        have hc : c ≠ 0 := by
          intro hc
          subst hc
          have h1 : lines (0 :: data) = match lines data with
              | p :: ps => (0 :: p) :: ps
              | [] => [[0]] := lines_cons_ne (by simp)
          cases hl : lines data with
          | nil => exact lines_ne_nil _ hl
          | cons p ps =>
            rw [hl] at h1
            have := hz (0 :: p) (by rw [h1]; simp)
            simp at this
        obtain ⟨r, hr, hf⟩ := strstrBody_spec id [13, 10, 0] [13, 10] (c :: data) rest ⟨by decide, [], rfl⟩ (by simp)
          c hc rfl
        simp only [List.map_id_fun, id] at hf
        have hl := lines_first (c :: data) r hf
        rw [coda_strnstr, hr, Res.ok_bind]
        rw [hl] at hz ⊢
        by_cases hk : r.getD (c :: data).length = 0
        · simp only [hk, if_true, List.take_zero]
          simp
        · rw [if_neg hk, strnchr_eq, Res.ok_bind]
          have hkl : r.getD (c :: data).length ≤ (c :: data).length := by
            cases r with
            | none => simp
            | some k => have := occurs_le hf.1; obtain ⟨⟨a, b, he, ha⟩, _⟩ := hf; rw [he]; simp; omega
          have hne : (c :: data).take (r.getD (c :: data).length) ≠ [] := by
            intro h
            have := congrArg List.length h
            rw [List.length_take] at this
            simp only [List.length_nil] at this
            omega
          have hstep := piece_step 58 m ((c :: data).take (r.getD (c :: data).length)) rest (c :: data)
            ⟨_, (List.take_append_drop _ _).symm⟩
          have htl : ((c :: data).take (r.getD (c :: data).length)).length = r.getD (c :: data).length := by
            rw [List.length_take]; omega
          rw [htl] at hstep
          simp only [hstep]
          rw [List.takeWhile_cons_of_pos (by simpa using hne)] at hz ⊢
          rw [List.foldl_cons]
          cases r with
          | none =>
            simp only [Option.getD_none] at *
            rw [show (c :: data).length - ((c :: data).length + 2) = 0 by omega]
            cases fuel <;> simp [headerLoop]
          | some k =>
            simp only [Option.getD_some] at *
            have hk2 : k + 2 ≤ (c :: data).length := by
              obtain ⟨⟨a, b, he, ha⟩, _⟩ := hf; rw [he]; simp; omega
            rw [List.drop_append_of_le_length hk2, show (c :: data).length - (k + 2) = ((c :: data).drop (k + 2)).length by simp]
            rw [ih _ _ (by simp at *; omega) (fun l hl => hz l (List.mem_cons_of_mem _ hl))]

theorem lines_join (data : Buf) : [13, 10].intercalate (lines data) = data := by
  have key : ∀ (n : Nat) (data : Buf), data.length ≤ n → ([13, 10] : Buf).intercalate (lines data) = data := by
    intro n
    induction n with
    | zero =>
      intro data h
      have := List.eq_nil_of_length_eq_zero (by omega : data.length = 0)
      subst this
      rfl
    | succ n ih =>
      intro data h
      cases data with
      | nil => rfl
      | cons x xs =>
        by_cases hx : x = 13 ∧ xs.head? = some 10
        · obtain ⟨rfl, hh⟩ := hx
          cases xs with
          | nil => simp at hh
          | cons y ys =>
            simp at hh
            subst hh
            have h2 := ih ys (by simp at h; omega)
            have e : lines (13 :: 10 :: ys) = [] :: lines ys := by simp [lines]
            rw [e]
            cases hl : lines ys with
            | nil => exact absurd hl (lines_ne_nil _)
            | cons p ps => rw [hl] at h2; rw [← h2]; simp [List.intercalate]
        · rw [lines_cons_ne hx]
          have h2 := ih xs (by simp at h; omega)
          cases hl : lines xs with
          | nil => exact absurd hl (lines_ne_nil _)
          | cons p ps =>
            rw [hl] at h2
            rw [← h2]
            cases ps <;> simp [List.intercalate]
  exact key _ data (Nat.le_refl _)

/-- The header loop, without any condition on the data. -/
theorem headerLoop_exact (rest : Buf) : ∀ (fuel : Nat) (data : Buf) (m : Map), data.length ≤ fuel →
    headerLoop fuel m (data ++ rest) data.length = .ok ((taken (lines data)).foldl (piece 58) m) := by
  intro fuel
  induction fuel with
  | zero =>
    intro data m h
    have := List.eq_nil_of_length_eq_zero (by omega : data.length = 0)
    subst this
    simp [headerLoop, lines, taken]
  | succ fuel ih =>
    intro data m h
    unfold headerLoop
    by_cases h0 : data.length = 0
    · have := List.eq_nil_of_length_eq_zero h0
      subst this
      simp [lines, taken]
    · rw [if_neg h0]
      cases data with
      | nil => simp at h0
      | cons c data =>
        by_cases hc : c = 0
        · subst hc
          have h1 : lines (0 :: data) = match lines data with
              | p :: ps => (0 :: p) :: ps
              | [] => [[0]] := lines_cons_ne (by simp)
          have hj := lines_join (0 :: data)
          have ht : taken (lines (0 :: data)) = [0 :: data] := by
            cases hl : lines data with
            | nil => exact absurd hl (lines_ne_nil _)
            | cons p ps =>
              rw [hl] at h1
              rw [h1] at hj ⊢
              rw [taken, if_neg (by simp), if_pos (by simp), hj]
          have hs : coda_strnstr (some (0 :: data ++ rest)) (some [13, 10, 0]) (0 :: data).length = .ok none := by
            simp only [coda_strnstr, strstrBody, List.cons_append, rd_cons_zero, Res.ok_bind, if_true]
          rw [hs, ht, Res.ok_bind]
          simp only [Option.getD_none]
          rw [if_neg h0, strnchr_eq, Res.ok_bind]
          have hstep := piece_step 58 m (0 :: data) rest (0 :: data) ⟨[], (List.append_nil _).symm⟩
          rw [hstep, show (0 :: data).length - ((0 :: data).length + 2) = 0 by omega]
          cases fuel <;> simp [headerLoop]
        obtain ⟨r, hr, hf⟩ := strstrBody_spec id [13, 10, 0] [13, 10] (c :: data) rest ⟨by decide, [], rfl⟩ (by simp)
          c hc rfl
        simp only [List.map_id_fun, id] at hf
        have hl := lines_first (c :: data) r hf
        rw [coda_strnstr, hr, Res.ok_bind]
        rw [hl]
        by_cases hk : r.getD (c :: data).length = 0
        · simp only [hk, if_true, List.take_zero]
          simp [taken]
        · rw [if_neg hk, strnchr_eq, Res.ok_bind]
          have hkl : r.getD (c :: data).length ≤ (c :: data).length := by
            cases r with
            | none => simp
            | some k => have := occurs_le hf.1; obtain ⟨⟨a, b, he, ha⟩, _⟩ := hf; rw [he]; simp; omega
          have hne : (c :: data).take (r.getD (c :: data).length) ≠ [] := by
            intro h
            have := congrArg List.length h
            rw [List.length_take] at this
            simp only [List.length_nil] at this
            omega
          have hhd : ((c :: data).take (r.getD (c :: data).length)).head? ≠ some 0 := by
            obtain ⟨j, hj⟩ : ∃ j, r.getD (c :: data).length = j + 1 := ⟨r.getD (c :: data).length - 1, by omega⟩
            rw [hj, List.take_succ_cons]
            simpa using hc
          have hstep := piece_step 58 m ((c :: data).take (r.getD (c :: data).length)) rest (c :: data)
            ⟨_, (List.take_append_drop _ _).symm⟩
          have htl : ((c :: data).take (r.getD (c :: data).length)).length = r.getD (c :: data).length := by
            rw [List.length_take]; omega
          rw [htl] at hstep
          simp only [hstep]
          rw [taken, if_neg hne, if_neg hhd, List.foldl_cons]
          cases r with
          | none =>
            simp only [Option.getD_none] at *
            rw [show (c :: data).length - ((c :: data).length + 2) = 0 by omega]
            cases fuel <;> simp [headerLoop, taken]
          | some k =>
            simp only [Option.getD_some] at *
            have hk2 : k + 2 ≤ (c :: data).length := by
              obtain ⟨⟨a, b, he, ha⟩, _⟩ := hf; rw [he]; simp; omega
            rw [List.drop_append_of_le_length hk2, show (c :: data).length - (k + 2) = ((c :: data).drop (k + 2)).length by simp]
            rw [ih _ _ (by simp at *; omega)]

theorem serialise_cons (k v : List UInt8) (rest : List (List UInt8 × List UInt8)) (h : rest ≠ []) :
    serialise ((k, v) :: rest) = k ++ [61] ++ v ++ [38] ++ serialise rest := by
  cases rest with
  | nil => exact absurd rfl h
  | cons => rfl

theorem split_append_sep (sep : UInt8) (p q : List UInt8) (h : sep ∉ p) :
    split sep (p ++ [sep] ++ q) = p :: split sep q := by
  have e : p ++ [sep] ++ q = p ++ (sep :: q) := by simp
  rw [split_eq, e, takeWhile_append_not_mem h]
  have : (p ++ sep :: q).dropWhile (· ≠ sep) = sep :: q := by
    rw [← drop_takeWhile_length, takeWhile_append_not_mem h]
    simp
  rw [this]
  simp

theorem split_no_sep (sep : UInt8) (p : List UInt8) (h : sep ∉ p) : split sep p = [p] := by
  rw [split_eq]
  have := takeWhile_append_not_mem (c := sep) (p := p) (q := []) h
  simp only [List.append_nil, List.takeWhile_nil] at this
  have hd : p.dropWhile (· ≠ sep) = [] := by rw [← drop_takeWhile_length, this]; simp
  rw [this, hd]

theorem piece_pair (m : Map) (k v : List UInt8) (h : (61 : UInt8) ∉ k) :
    piece 61 m (k ++ [61] ++ v) = assign m k v := by
  have e : k ++ [61] ++ v = k ++ (61 :: v) := by simp
  unfold piece
  rw [if_pos (by simp), e, ← drop_takeWhile_length, takeWhile_append_not_mem h]
  simp

end Verif.Params
