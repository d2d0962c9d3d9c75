import Verif.StrCpp.Model
import Verif.StrCpp.Spec
import Verif.Str.Lemmas
import Verif.Url.EscLemmas

set_option linter.unusedSimpArgs false
set_option linter.unusedVariables false

namespace Verif.StrCpp
open Spec Verif.Str Verif.Str.Spec

/-! ### executable pieces -/

/-- the pieces between separators -/
def pieces (d : UInt8 → Bool) : List UInt8 → List (List UInt8)
  | [] => [[]]
  | x :: xs =>
    if d x then [] :: pieces d xs
    else match pieces d xs with
      | p :: ps => (x :: p) :: ps
      | [] => [[x]]

theorem pieces_ne_nil (d) (l) : pieces d l ≠ [] := by
  cases l with
  | nil => simp [pieces]
  | cons x xs => unfold pieces; split <;> (try split) <;> simp

theorem pieces_append_sep (d : UInt8 → Bool) (p q : List UInt8) (c : UInt8) (hp : ∀ x ∈ p, d x = false) (hc : d c = true) :
    pieces d (p ++ c :: q) = p :: pieces d q := by
  induction p with
  | nil => simp [pieces, hc]
  | cons x p ih =>
    rw [List.cons_append, pieces, if_neg (by simp [hp x (by simp)]), ih (fun y hy => hp y (by simp [hy]))]

theorem pieces_no_sep (d : UInt8 → Bool) (p : List UInt8) (hp : ∀ x ∈ p, d x = false) : pieces d p = [p] := by
  induction p with
  | nil => simp [pieces]
  | cons x p ih => rw [pieces, if_neg (by simp [hp x (by simp)]), ih (fun y hy => hp y (by simp [hy]))]

theorem weave_cons_cons (x : UInt8) (p : List UInt8) (ps : List (List UInt8)) (ds : List UInt8) :
    weave ((x :: p) :: ps) ds = x :: weave (p :: ps) ds := by
  cases ps with
  | nil => rfl
  | cons q qs => cases ds with
    | nil => rfl
    | cons d ds => rfl

theorem pieces_weave (d : UInt8 → Bool) : ∀ l : List UInt8,
    (∀ p ∈ pieces d l, ∀ c ∈ p, d c = false) ∧ (pieces d l).length = (l.filter d).length + 1 ∧
      weave (pieces d l) (l.filter d) = l := by
  intro l
  induction l with
  | nil => simp [pieces, weave]
  | cons x xs ih =>
    obtain ⟨h1, h2, h3⟩ := ih
    unfold pieces
    by_cases hx : d x = true
    · rw [if_pos hx, List.filter_cons_of_pos hx]
      refine ⟨?_, by simp [h2], ?_⟩
      · intro p hp
        rcases List.mem_cons.mp hp with rfl | hp
        · simp
        · exact h1 p hp
      · cases hps : pieces d xs with
        | nil => exact absurd hps (pieces_ne_nil _ _)
        | cons p ps => rw [hps] at h3; simp [weave, h3]
    · rw [if_neg hx, List.filter_cons_of_neg hx]
      cases hps : pieces d xs with
      | nil => exact absurd hps (pieces_ne_nil _ _)
      | cons p ps =>
        rw [hps] at h1 h2 h3
        dsimp only
        refine ⟨?_, by simpa using h2, ?_⟩
        · intro q hq
          rcases List.mem_cons.mp hq with rfl | hq
          · intro c hc
            rcases List.mem_cons.mp hc with rfl | hc
            · simpa using hx
            · exact h1 p (by simp) c hc
          · exact h1 q (by simp [hq])
        · rw [weave_cons_cons, h3]

theorem isSplit_pieces (d : UInt8 → Bool) (l : List UInt8) : IsSplit (fun c => d c = true) l (pieces d l) := by
  obtain ⟨h1, h2, h3⟩ := pieces_weave d l
  refine ⟨fun p hp c hc => by simp [h1 p hp c hc], l.filter d, ?_, h2, h3⟩
  intro x hx
  exact (List.mem_filter.mp hx).2

theorem isSplit_eq_pieces (d : UInt8 → Bool) : ∀ (ps : List (List UInt8)) (l : List UInt8),
    IsSplit (fun c => d c = true) l ps → ps = pieces d l := by
  intro ps
  induction ps with
  | nil => rintro l ⟨_, ds, _, h, _⟩; simp at h
  | cons p ps ih =>
    rintro l ⟨h1, ds, h2, h3, h4⟩
    have hp : ∀ x ∈ p, d x = false := fun x hx => by simpa using h1 p (by simp) x hx
    cases ps with
    | nil =>
      simp only [weave] at h4
      subst h4
      exact (pieces_no_sep d p hp).symm
    | cons q qs =>
      cases ds with
      | nil => simp at h3
      | cons x ds =>
        have e : weave (p :: q :: qs) (x :: ds) = p ++ x :: weave (q :: qs) ds := by simp [weave]
        rw [e] at h4
        subst h4
        rw [pieces_append_sep d p _ x hp (h2 x (by simp)),
          ← ih _ ⟨fun r hr => h1 r (by simp [List.mem_cons.mp hr]), ds, fun y hy => h2 y (by simp [hy]), by simpa using h3, rfl⟩]

/-! ### library functions -/

theorem strchr_spec (rest : Buf) (c : UInt8) (hc : c ≠ 0) : ∀ cs : Buf, (∀ x ∈ cs, x ≠ 0) →
    strchr (cs ++ 0 :: rest) c = .ok (if c ∈ cs then some (cs.takeWhile (· ≠ c)).length else none) := by
  intro cs
  induction cs with
  | nil => intro _; simp [strchr, Ne.symm hc]
  | cons x cs ih =>
    intro h
    rw [List.cons_append, strchr]
    by_cases hx : x = c
    · subst hx; simp
    · rw [if_neg hx, if_neg (h x (by simp)), ih (fun y hy => h y (by simp [hy]))]
      by_cases hm : c ∈ cs
      · simp [hm, hx]
      · simp [hm, Ne.symm hx]

theorem strchr_zero (rest : Buf) : ∀ cs : Buf, (∀ x ∈ cs, x ≠ 0) → ∃ k, strchr (cs ++ 0 :: rest) 0 = .ok (some k) := by
  intro cs
  induction cs with
  | nil => intro _; exact ⟨0, rfl⟩
  | cons x cs ih =>
    intro h
    obtain ⟨k, hk⟩ := ih (fun y hy => h y (by simp [hy]))
    exact ⟨k + 1, by rw [List.cons_append, strchr, if_neg (h x (by simp)), if_neg (h x (by simp)), hk]; rfl⟩

/-! ### splitting -/

theorem slice_mid (pre cur rest : Buf) :
    ((pre ++ cur ++ rest).drop pre.length).take (pre.length + cur.length - pre.length) = cur := by
  rw [List.append_assoc, List.drop_append_of_le_length (Nat.le_refl _), List.drop_length, List.nil_append,
    Nat.add_sub_cancel_left, List.take_append_of_le_length (Nat.le_refl _), List.take_length]

theorem emit_spec (ig : Bool) (pre cur rest : Buf) (result : List Buf) :
    emit (pre ++ cur ++ rest) ig pre.length (pre.length + cur.length) result
      = result ++ (if ig then [cur].filter (· ≠ []) else [cur]) := by
  unfold emit
  rw [slice_mid]
  cases cur with
  | nil => cases ig <;> simp
  | cons x cur => cases ig <;> simp

/-- prepend to the first piece -/
def prep (cur : List UInt8) : List (List UInt8) → List (List UInt8)
  | [] => [cur]
  | p :: ps => (cur ++ p) :: ps

theorem pieces_prep (d : UInt8 → Bool) (cur l : List UInt8) (h : ∀ x ∈ cur, d x = false) :
    pieces d (cur ++ l) = prep cur (pieces d l) := by
  induction cur with
  | nil =>
    cases hp : pieces d l with
    | nil => exact absurd hp (pieces_ne_nil _ _)
    | cons p ps => simp [prep, hp]
  | cons x cur ih =>
    rw [List.cons_append, pieces, if_neg (by simp [h x (by simp)]), ih (fun y hy => h y (by simp [hy]))]
    cases pieces d l <;> rfl

def keep (ig : Bool) (ps : List (List UInt8)) : List (List UInt8) := if ig then ps.filter (· ≠ []) else ps

theorem keep_cons (ig p ps) : keep ig (p :: ps) = keep ig [p] ++ keep ig ps := by
  unfold keep
  cases ig
  · rfl
  · simp only [if_true]; rw [← List.filter_append]; rfl

theorem splitLoop_spec (delims al : Buf) (hd : CString delims al) (ig : Bool) (rest : Buf) :
    ∀ (l : Buf) (fuel : Nat) (pre cur : Buf) (result : List Buf), (∀ c ∈ l, c ≠ 0) → l.length < fuel →
      (∀ c ∈ cur, c ∉ al) →
      splitLoop (pre ++ cur ++ (l ++ 0 :: rest)) delims ig fuel (pre.length + cur.length) pre.length result
        = .ok (result ++ keep ig (pieces (fun c => decide (c ∈ al)) (cur ++ l))) := by
  intro l
  obtain ⟨hz, dr, rfl⟩ := hd
  induction l with
  | nil =>
    intro fuel pre cur result _ hf hcur
    cases fuel with
    | zero => simp at hf
    | succ fuel =>
      rw [splitLoop, List.nil_append, show pre.length + cur.length = (pre ++ cur).length by simp]
      rw [show rd (pre ++ cur ++ 0 :: rest) (pre ++ cur).length = .ok 0 by simp [rd]]
      rw [Res.ok_bind, if_pos rfl, List.length_append, emit_spec, List.append_nil,
        pieces_no_sep _ _ (fun x hx => by simpa using hcur x hx)]
      rfl
  | cons c l ih =>
    intro fuel pre cur result hl hf hcur
    cases fuel with
    | zero => simp at hf
    | succ fuel =>
      have hc0 : c ≠ 0 := hl c (by simp)
      have hl' : ∀ x ∈ l, x ≠ 0 := fun x hx => hl x (by simp [hx])
      rw [splitLoop]
      rw [show rd (pre ++ cur ++ (c :: l ++ 0 :: rest)) (pre.length + cur.length) = .ok c by
        rw [← List.length_append]; simp [rd]]
      rw [Res.ok_bind, if_neg hc0, strchr_spec dr c hc0 al hz, Res.ok_bind]
      by_cases hm : c ∈ al
      · rw [if_pos hm]
        dsimp only [Option.isSome]
        rw [if_pos rfl, emit_spec]
        have hi := ih fuel (pre ++ cur ++ [c]) [] (result ++ (if ig then [cur].filter (· ≠ []) else [cur])) hl'
          (by simp at hf; omega) (by simp)
        simp only [List.append_nil, List.length_append, List.length_cons, List.length_nil, Nat.add_zero, Nat.zero_add,
          List.append_assoc, List.cons_append, List.nil_append, Nat.add_assoc] at hi ⊢
        rw [hi, pieces_append_sep _ cur l c (fun x hx => by simpa using hcur x hx) (by simpa using hm), keep_cons]
        rfl
      · rw [if_neg hm]
        dsimp only [Option.isSome]
        rw [if_neg (by simp)]
        have hi := ih fuel pre (cur ++ [c]) result hl' (by simp at hf; omega)
          (fun x hx => by
            rcases List.mem_append.mp hx with h | h
            · exact hcur x h
            · simp at h; subst h; exact hm)
        simp only [List.length_append, List.length_cons, List.length_nil, Nat.zero_add, List.append_assoc, List.cons_append,
          List.nil_append, ← Nat.add_assoc] at hi ⊢
        rw [hi]

theorem splitSizedLoop_spec (delims al : Buf) (hd : CString delims al) (ig : Bool) (rest : Buf) :
    ∀ (l : Buf) (pre cur : Buf) (result : List Buf),
      (∀ c ∈ cur, ¬ (c = 0 ∨ c ∈ al)) →
      splitSizedLoop (pre ++ cur ++ (l ++ rest)) delims ig l.length (pre.length + cur.length) pre.length result
        = .ok (result ++ keep ig (pieces (fun c => decide (c = 0 ∨ c ∈ al)) (cur ++ l))) := by
  intro l
  obtain ⟨hz, dr, rfl⟩ := hd
  induction l with
  | nil =>
    intro pre cur result hcur
    rw [List.length_nil, splitSizedLoop, List.nil_append, emit_spec, List.append_nil,
        pieces_no_sep _ _ (fun x hx => by simpa using hcur x hx)]
    rfl
  | cons c l ih =>
    intro pre cur result hcur
    rw [List.length_cons, splitSizedLoop]
    rw [show rd (pre ++ cur ++ (c :: l ++ rest)) (pre.length + cur.length) = .ok c by
        rw [← List.length_append]; simp [rd]]
    have hs : ∃ r, strchr (al ++ 0 :: dr) c = .ok r ∧ (r.isSome = true ↔ (c = 0 ∨ c ∈ al)) := by
      by_cases hc0 : c = 0
      · subst hc0
        obtain ⟨k, hk⟩ := strchr_zero dr al hz
        exact ⟨_, hk, by simp⟩
      · refine ⟨_, strchr_spec dr c hc0 al hz, ?_⟩
        by_cases hm : c ∈ al <;> simp [hm, hc0]
    obtain ⟨r, hr, hiff⟩ := hs
    rw [Res.ok_bind, hr, Res.ok_bind]
    by_cases hm : c = 0 ∨ c ∈ al
    · rw [if_pos (hiff.mpr hm), emit_spec]
      have hi := ih (pre ++ cur ++ [c]) [] (result ++ (if ig then [cur].filter (· ≠ []) else [cur])) (by simp)
      simp only [List.append_nil, List.length_append, List.length_cons, List.length_nil, Nat.add_zero, Nat.zero_add,
          List.append_assoc, List.cons_append, List.nil_append, Nat.add_assoc] at hi ⊢
      rw [hi, pieces_append_sep _ cur l c (fun x hx => by simpa using hcur x hx) (by simpa using hm), keep_cons]
      rfl
    · rw [if_neg (fun h => hm (hiff.mp h))]
      have hi := ih pre (cur ++ [c]) result
          (fun x hx => by
            rcases List.mem_append.mp hx with h | h
            · exact hcur x h
            · simp at h; subst h; exact hm)
      simp only [List.length_append, List.length_cons, List.length_nil, Nat.zero_add, List.append_assoc, List.cons_append,
          List.nil_append, ← Nat.add_assoc] at hi ⊢
      rw [hi]

/-! ### sets -/

theorem takeWhile_append_dropWhile' (c : UInt8) (cs : Buf) (h : c ∈ cs) :
    ∃ q, cs = cs.takeWhile (· ≠ c) ++ c :: q ∧ ∀ x ∈ cs.takeWhile (· ≠ c), x ≠ c := by
  induction cs with
  | nil => simp at h
  | cons x cs ih =>
    by_cases hx : x = c
    · subst hx; exact ⟨cs, by simp⟩
    · obtain ⟨q, hq, hn⟩ := ih (by simpa [Ne.symm hx] using h)
      refine ⟨q, ?_, ?_⟩
      · rw [List.takeWhile_cons_of_pos (by simpa using hx), List.cons_append, ← hq]
      · rw [List.takeWhile_cons_of_pos (by simpa using hx)]
        intro y hy
        rcases List.mem_cons.mp hy with rfl | hy
        · exact hx
        · exact hn y hy

theorem stringsetLoop_spec (rest : Buf) : ∀ (fuel : Nat) (cs : Buf) (set : Buf → Bool), (∀ c ∈ cs, c ≠ 0) → cs.length < fuel →
    ∃ set', stringsetLoop fuel (cs ++ 0 :: rest) set = .ok set' ∧
      ∀ y, set' y = true ↔ (set y = true ∨ y ∈ pieces (fun c => decide (c = 44)) cs) := by
  intro fuel
  induction fuel with
  | zero => intro cs set _ h; simp at h
  | succ fuel ih =>
    intro cs set hz hf
    rw [stringsetLoop, strchr_spec rest 44 (by decide) cs hz, Res.ok_bind]
    by_cases hm : (44 : UInt8) ∈ cs
    · rw [if_pos hm]
      obtain ⟨q, hq, hn⟩ := takeWhile_append_dropWhile' 44 cs hm
      dsimp only
      generalize hp : cs.takeWhile (· ≠ (44 : UInt8)) = p at *
      subst hq
      have hq : ∀ c ∈ q, c ≠ 0 := fun c hc => hz c (by simp [hc])
      obtain ⟨s', h1, h2⟩ := ih q (insert set p) hq (by simp at hf; omega)
      refine ⟨s', ?_, ?_⟩
      · rw [← h1]
        congr 1
        · rw [← List.drop_drop]; simp
        · simp
      · intro y
        rw [h2, pieces_append_sep _ p q 44 (fun x hx => by simpa using hn x hx) (by simp)]
        simp only [insert, Bool.or_eq_true, decide_eq_true_eq, List.mem_cons]
        constructor
        · rintro ((h | h) | h) <;> simp [h]
        · rintro (h | h | h) <;> simp [h]
    · rw [if_neg hm]
      dsimp only
      rw [strlen_spec rest cs hz, Res.ok_bind]
      refine ⟨_, rfl, ?_⟩
      intro y
      rw [pieces_no_sep _ cs (fun x hx => by simp; intro h; subst h; exact hm hx)]
      simp [insert, or_comm]

theorem isspace_iff (c : UInt8) : isspace c = true ↔ IsSpace c := by
  have key : ∀ c : Fin 256, (isspace (UInt8.ofNat c.val) = true ↔
      (UInt8.ofNat c.val = 32 ∨ UInt8.ofNat c.val = 9 ∨ UInt8.ofNat c.val = 10 ∨ UInt8.ofNat c.val = 11 ∨
        UInt8.ofNat c.val = 12 ∨ UInt8.ofNat c.val = 13)) := by decide +kernel
  have := key ⟨c.toNat, c.toNat_lt⟩
  simpa [IsSpace] using this

theorem digit_iff (c : UInt8) : (48 ≤ c ∧ c ≤ 57) ↔ IsDigit c := by
  simp [IsDigit, UInt8.le_iff_toNat_le]

theorem skipSpace_spec (ws s : Buf) (c : UInt8) (h : ∀ x ∈ ws, IsSpace x) (hc : ¬ IsSpace c) :
    skipSpace (ws ++ c :: s) = .ok (c :: s) := by
  induction ws with
  | nil => simp [skipSpace, isspace_iff, hc]
  | cons x ws ih =>
    rw [List.cons_append, skipSpace, if_pos ((isspace_iff x).mpr (h x (by simp))), ih (fun y hy => h y (by simp [hy]))]

theorem scanDigits_spec (t : UInt8) (s : Buf) (ht : ¬ IsDigit t) : ∀ (ds : Buf) (acc : Nat) (seen : Bool),
    (∀ c ∈ ds, IsDigit c) →
    scanDigits (ds ++ t :: s) acc seen
      = .ok (if seen = true ∨ ds ≠ [] then some (ds.foldl (fun n c => n * 10 + (c.toNat - 48)) acc) else none) := by
  intro ds
  induction ds with
  | nil =>
    intro acc seen _
    rw [List.nil_append, scanDigits, if_neg (by rw [digit_iff]; exact ht)]
    cases seen <;> simp
  | cons c ds ih =>
    intro acc seen h
    rw [List.cons_append, scanDigits, if_pos ((digit_iff c).mpr (h c (by simp))), ih _ _ (fun x hx => h x (by simp [hx]))]
    simp

theorem digit_not_space {c : UInt8} (h : IsDigit c) : ¬ IsSpace c ∧ c ≠ 43 ∧ c ≠ 45 := by
  unfold IsDigit at h
  refine ⟨?_, ?_, ?_⟩
  · rintro (rfl | rfl | rfl | rfl | rfl | rfl) <;> revert h <;> decide
  · rintro rfl; revert h; decide
  · rintro rfl; revert h; decide

theorem sscanf_spec (p s : Buf) (t : UInt8) (v : UInt64) (hp : IsNumber p v) (ht : ¬ IsDigit t) :
    sscanfU64 (p ++ t :: s) = .ok (some v) := by
  obtain ⟨ws, sign, ds, tail, rfl, hws, hsign, hne, hds, htail, rfl⟩ := hp
  -- the byte after the digits
  obtain ⟨t', s', he, ht'⟩ : ∃ t' s', tail ++ t :: s = t' :: s' ∧ ¬ IsDigit t' := by
    cases tail with
    | nil => exact ⟨t, s, rfl, ht⟩
    | cons x tail => exact ⟨x, tail ++ t :: s, rfl, htail x rfl⟩
  have e : ws ++ sign ++ ds ++ tail ++ t :: s = ws ++ (sign ++ (ds ++ t' :: s')) := by
    rw [← he]; simp
  rw [e]
  unfold sscanfU64
  cases ds with
  | nil => exact absurd rfl hne
  | cons d0 ds =>
    have hd0 := digit_not_space (hds d0 (by simp))
    have hscan := scanDigits_spec t' s' ht' (d0 :: ds) 0 false hds
    rcases hsign with rfl | rfl | rfl
    · simp only [List.nil_append, List.cons_append] at hscan ⊢
      rw [skipSpace_spec ws _ d0 hws hd0.1, Res.ok_bind, rd_cons_zero, Res.ok_bind, if_neg (by simp [hd0.2]), hscan,
        Res.ok_bind]
      simp [decVal, hd0.2]
    · simp only [List.nil_append, List.cons_append] at hscan ⊢
      rw [skipSpace_spec ws _ 43 hws (by unfold IsSpace; decide), Res.ok_bind, rd_cons_zero, Res.ok_bind, if_pos (by simp),
        List.tail_cons, hscan, Res.ok_bind]
      simp [decVal]
    · simp only [List.nil_append, List.cons_append] at hscan ⊢
      rw [skipSpace_spec ws _ 45 hws (by unfold IsSpace; decide), Res.ok_bind, rd_cons_zero, Res.ok_bind, if_pos (by simp),
        List.tail_cons, hscan, Res.ok_bind]
      simp [decVal]

theorem isNumber_unique {p : Buf} {v w : UInt64} (hv : IsNumber p v) (hw : IsNumber p w) : v = w := by
  have h1 := sscanf_spec p [] 0 v hv (by unfold IsDigit; decide)
  have h2 := sscanf_spec p [] 0 w hw (by unfold IsDigit; decide)
  rw [h1] at h2
  simpa using h2

theorem uint64setLoop_spec (rest : Buf) : ∀ (fuel : Nat) (cs : Buf) (set : UInt64 → Bool), (∀ c ∈ cs, c ≠ 0) → cs.length < fuel →
    (∀ p ∈ pieces (fun c => decide (c = 44)) cs, ∃ v, IsNumber p v) →
    ∃ set', uint64setLoop fuel (cs ++ 0 :: rest) set = .ok set' ∧
      ∀ y, set' y = true ↔ (set y = true ∨ ∃ p ∈ pieces (fun c => decide (c = 44)) cs, IsNumber p y) := by
  intro fuel
  induction fuel with
  | zero => intro cs set _ h; simp at h
  | succ fuel ih =>
    intro cs set hz hf hnum
    rw [uint64setLoop]
    by_cases hm : (44 : UInt8) ∈ cs
    · obtain ⟨q, hq, hn⟩ := takeWhile_append_dropWhile' 44 cs hm
      have hch := strchr_spec rest 44 (by decide) cs hz
      rw [if_pos hm] at hch
      generalize hp : cs.takeWhile (· ≠ (44 : UInt8)) = p at *
      subst hq
      have hpc := pieces_append_sep (fun c => decide (c = 44)) p q 44 (fun x hx => by simpa using hn x hx) (by simp)
      rw [hpc] at hnum
      obtain ⟨v, hv⟩ := hnum p (by simp)
      have hsc := sscanf_spec p (q ++ 0 :: rest) 44 v hv (by unfold IsDigit; decide)
      simp only [List.append_assoc, List.cons_append] at hch hsc ⊢
      rw [hsc, Res.ok_bind]
      dsimp only
      rw [hch, Res.ok_bind]
      dsimp only
      have hq : ∀ c ∈ q, c ≠ 0 := fun c hc => hz c (by simp [hc])
      obtain ⟨s', h1, h2⟩ := ih q (insert set v) hq (by simp at hf; omega) (fun r hr => hnum r (by simp [hr]))
      refine ⟨s', ?_, ?_⟩
      · rw [← h1]
        congr 1
        rw [← List.drop_drop]; simp
      · intro y
        rw [h2, hpc]
        simp only [insert, Bool.or_eq_true, decide_eq_true_eq, List.mem_cons]
        constructor
        · rintro ((h | h) | ⟨r, hr, h⟩)
          · subst h; exact Or.inr ⟨p, Or.inl rfl, hv⟩
          · exact Or.inl h
          · exact Or.inr ⟨r, Or.inr hr, h⟩
        · rintro (h | ⟨r, rfl | hr, h⟩)
          · exact Or.inl (Or.inr h)
          · exact Or.inl (Or.inl (isNumber_unique h hv))
          · exact Or.inr ⟨r, hr, h⟩
    · have hpc := pieces_no_sep (fun c => decide (c = 44)) cs (fun x hx => by simp; intro h; subst h; exact hm hx)
      have hch := strchr_spec rest 44 (by decide) cs hz
      rw [if_neg hm] at hch
      rw [hpc] at hnum ⊢
      obtain ⟨v, hv⟩ := hnum cs (by simp)
      rw [sscanf_spec cs rest 0 v hv (by unfold IsDigit; decide), Res.ok_bind]
      dsimp only
      rw [hch, Res.ok_bind]
      refine ⟨_, rfl, ?_⟩
      intro y
      simp only [insert, Bool.or_eq_true, decide_eq_true_eq, List.mem_singleton]
      constructor
      · rintro (h | h)
        · subst h; exact Or.inr ⟨cs, rfl, hv⟩
        · exact Or.inl h
      · rintro (h | ⟨r, rfl, h⟩)
        · exact Or.inr h
        · exact Or.inl (isNumber_unique h hv)

/-! ### words -/

def isBlank (c : UInt8) : Bool := decide (c = 32 ∨ c = 9 ∨ c = 10 ∨ c = 13)

theorem skipBlank_spec (t : UInt8) (s : Buf) (ht : isBlank t = false) : ∀ ws : Buf, (∀ c ∈ ws, isBlank c = true) →
    skipBlank (ws ++ t :: s) = .ok ws.length := by
  intro ws
  induction ws with
  | nil => intro _; simp [isBlank] at ht; simp [skipBlank, ht]
  | cons c ws ih =>
    intro h
    have hc := h c (by simp)
    simp only [isBlank, decide_eq_true_eq] at hc
    rw [List.cons_append, skipBlank, if_pos hc, ih (fun x hx => h x (by simp [hx]))]
    rfl

theorem strpbrk_spec (rest : Buf) (acc : List UInt8) : ∀ w : Buf, (∀ c ∈ w, c ≠ 0 ∧ c ∉ acc) →
    strpbrk (w ++ 0 :: rest) acc = .ok none ∧
    ∀ t, t ≠ 0 → t ∈ acc → strpbrk (w ++ t :: rest) acc = .ok (some w.length) := by
  intro w
  induction w with
  | nil => intro _; refine ⟨by simp [strpbrk], fun t ht hm => by simp [strpbrk, ht, hm]⟩
  | cons c w ih =>
    intro h
    obtain ⟨i1, i2⟩ := ih (fun x hx => h x (by simp [hx]))
    have hc := h c (by simp)
    refine ⟨?_, fun t ht hm => ?_⟩
    · rw [List.cons_append, strpbrk, if_neg hc.1, if_neg hc.2, i1]; rfl
    · rw [List.cons_append, strpbrk, if_neg hc.1, if_neg hc.2, i2 t ht hm]; rfl

theorem isBlank_mem (c : UInt8) : isBlank c = true ↔ c ∈ ([32, 9, 10, 13] : List UInt8) := by
  simp [isBlank]

/-- leading separators give empty pieces only -/
theorem pieces_filter_skip (d : UInt8 → Bool) (ws l : List UInt8) (h : ∀ c ∈ ws, d c = true) :
    (pieces d (ws ++ l)).filter (· ≠ []) = (pieces d l).filter (· ≠ []) := by
  induction ws with
  | nil => rfl
  | cons c ws ih =>
    rw [List.cons_append, pieces, if_pos (h c (by simp)), List.filter_cons_of_neg (by simp), ih (fun x hx => h x (by simp [hx]))]

theorem span_list (p : UInt8 → Bool) : ∀ l : List UInt8, ∃ a b, l = a ++ b ∧ (∀ x ∈ a, p x = true) ∧
    ∀ x, b.head? = some x → p x = false := by
  intro l
  induction l with
  | nil => exact ⟨[], [], rfl, by simp, by simp⟩
  | cons x l ih =>
    cases hx : p x with
    | true =>
      obtain ⟨a, b, rfl, ha, hb⟩ := ih
      exact ⟨x :: a, b, rfl, by simpa [hx] using ha, hb⟩
    | false => exact ⟨[], x :: l, rfl, by simp, by simp [hx]⟩

theorem getNextWord_spec (cs rest : Buf) (hz : ∀ c ∈ cs, c ≠ 0) : ∃ ws w tl, cs = ws ++ w ++ tl ∧
    (∀ c ∈ ws, isBlank c = true) ∧ (∀ c ∈ w, isBlank c = false) ∧ (∀ x, tl.head? = some x → isBlank x = true) ∧ (w = [] → tl = []) ∧
    get_next_word (cs ++ 0 :: rest) = .ok (if w = [] then 0 else 1, ws.length, ws.length + w.length) := by
  obtain ⟨ws, b, rfl, hws, hb⟩ := span_list isBlank cs
  obtain ⟨w, tl, rfl, hw, htl⟩ := span_list (fun c => !isBlank c) b
  have hw' : ∀ c ∈ w, isBlank c = false := fun c hc => by simpa using hw c hc
  have htl' : ∀ x, tl.head? = some x → isBlank x = true := fun x hx => by simpa using htl x hx
  refine ⟨ws, w, tl, by simp, hws, hw', htl', ?_, ?_⟩
  · rintro rfl
    cases tl with
    | nil => rfl
    | cons x tl =>
      have h1 := hb x rfl
      have h2 := htl' x rfl
      rw [h1] at h2; exact absurd h2 (by simp)
  · unfold get_next_word
    -- first character after the blanks
    obtain ⟨t, s, he, ht⟩ : ∃ t s, w ++ (tl ++ 0 :: rest) = t :: s ∧ isBlank t = false := by
      cases w with
      | nil => cases tl with
        | nil => exact ⟨0, rest, rfl, by decide⟩
        | cons x tl => exact ⟨x, tl ++ 0 :: rest, rfl, hb x rfl⟩
      | cons x w => exact ⟨x, w ++ (tl ++ 0 :: rest), rfl, hw' x (by simp)⟩
    have e : ws ++ (w ++ tl) ++ 0 :: rest = ws ++ (w ++ (tl ++ 0 :: rest)) := by simp
    rw [e]
    rw [show skipBlank (ws ++ (w ++ (tl ++ 0 :: rest))) = .ok ws.length by rw [he]; exact skipBlank_spec t s ht ws hws]
    rw [Res.ok_bind]
    simp only [List.drop_append_of_le_length (Nat.le_refl _), List.drop_length, List.nil_append]
    have hwa : ∀ c ∈ w, c ≠ 0 ∧ c ∉ ([32, 9, 10, 13] : List UInt8) := fun c hc =>
      ⟨hz c (by simp [hc]), by rw [← isBlank_mem, hw' c hc]; simp⟩
    cases tl with
    | nil =>
      rw [List.nil_append, (strpbrk_spec rest _ w hwa).1, Res.ok_bind]
      dsimp only
      rw [strlen_spec rest w (fun c hc => (hwa c hc).1), Res.ok_bind, Res.ok_bind]
      cases w <;> simp
    | cons x tl =>
      have hx : isBlank x = true := htl' x rfl
      rw [List.cons_append, (strpbrk_spec (tl ++ 0 :: rest) _ w hwa).2 x (hz x (by simp)) ((isBlank_mem x).mp hx), Res.ok_bind]
      dsimp only
      rw [Res.ok_bind]
      cases w <;> simp

theorem allWords_spec (rest : Buf) : ∀ (fuel : Nat) (cs : Buf), (∀ c ∈ cs, c ≠ 0) → cs.length < fuel →
    allWords fuel (cs ++ 0 :: rest) = .ok ((pieces isBlank cs).filter (· ≠ [])) := by
  intro fuel
  induction fuel with
  | zero => intro cs _ h; simp at h
  | succ fuel ih =>
    intro cs hz hf
    obtain ⟨ws, w, tl, rfl, hws, hw, htl, hnil, hg⟩ := getNextWord_spec cs rest hz
    rw [allWords, hg, Res.ok_bind]
    dsimp only
    by_cases hwn : w = []
    · have := hnil hwn
      subst this; subst hwn
      rw [if_pos rfl, if_pos rfl, List.append_nil, pieces_filter_skip _ _ _ hws]
      simp [pieces]
    · rw [if_neg hwn, if_neg (by decide)]
      have e1 : (ws ++ w ++ tl ++ 0 :: rest).drop (ws.length + w.length) = tl ++ 0 :: rest := by
        rw [← List.drop_drop]; simp
      have e2 : ((ws ++ w ++ tl ++ 0 :: rest).drop ws.length).take (ws.length + w.length - ws.length) = w := by
        simp
      have hlen : 0 < w.length := List.length_pos_iff.mpr hwn
      rw [e1, e2, ih tl (fun c hc => hz c (by simp [hc])) (by simp at hf; omega), Res.ok_bind]
      rw [List.append_assoc, pieces_filter_skip _ _ _ hws]
      cases tl with
      | nil => rw [List.append_nil, pieces_no_sep _ w hw]; simp [pieces, hwn]
      | cons x tl =>
        rw [pieces_append_sep _ w tl x hw (htl x rfl), List.filter_cons_of_pos (by simpa using hwn), pieces, if_pos (htl x rfl),
          List.filter_cons_of_neg (by simp)]

/-! ### formatted output -/

theorem fresh_length (junk n) : (fresh junk n).length = n := by simp [fresh]

theorem vsnprintf_spec (buf t : Buf) (size : Nat) (hs : 0 < size) (hb : size ≤ buf.length) :
    vsnprintf buf size (some t) = .ok (patch buf 0 (t.take (size - 1) ++ [0]), t.length) := by
  unfold vsnprintf
  dsimp only
  rw [if_neg (by omega), Url.wrs_spec _ _ _ (by simp [List.length_take]; omega), Res.ok_bind]

theorem patch_zero_take (buf t : Buf) (m : Nat) (hm : m ≤ t.length) : (patch buf 0 (t ++ [0])).take m = t.take m := by
  unfold patch
  rw [List.take_zero, List.nil_append, List.append_assoc, List.take_append_of_le_length hm]

theorem takeWhile_split (f : UInt8 → Bool) : ∀ p : Buf, ∃ a b, p = a ++ b ∧ (∀ c ∈ a, f c = true) ∧ (∀ c, b.head? = some c → f c = false)
  | [] => ⟨[], [], rfl, by simp, by simp⟩
  | c :: p => by
    cases hc : f c with
    | false => exact ⟨[], c :: p, rfl, by simp, by simpa using hc⟩
    | true =>
      obtain ⟨a, b, rfl, h1, h2⟩ := takeWhile_split f p
      refine ⟨c :: a, b, rfl, ?_, h2⟩
      intro x hx
      rcases List.mem_cons.mp hx with rfl | hx
      · exact hc
      · exact h1 x hx

theorem scanDigits_none (q s : Buf) (t : UInt8) (ht : ¬ IsDigit t)
    (h : ∀ ds tail, q = ds ++ tail → (∀ c ∈ ds, IsDigit c) → (∀ c, tail.head? = some c → ¬ IsDigit c) → ds = []) :
    scanDigits (q ++ t :: s) 0 false = .ok none := by
  cases q with
  | nil => rw [List.nil_append, scanDigits, if_neg (by rw [digit_iff]; exact ht)]; rfl
  | cons c q =>
    by_cases hc : IsDigit c
    · exfalso
      obtain ⟨a, b, he, h1, h2⟩ := takeWhile_split (fun c => decide (48 ≤ c ∧ c ≤ 57)) (c :: q)
      have ha := h a b he (fun x hx => (digit_iff x).mp (of_decide_eq_true (h1 x hx)))
        (fun x hx hd => of_decide_eq_false (h2 x hx) ((digit_iff x).mpr hd))
      subst ha
      exact of_decide_eq_false (h2 c (by rw [List.nil_append] at he; rw [← he]; rfl)) ((digit_iff c).mpr hc)
    · rw [List.cons_append, scanDigits, if_neg (by rw [digit_iff]; exact hc)]; rfl

theorem sscanf_none (p s : Buf) (t : UInt8) (hp : ∀ v, ¬ IsNumber p v) (ht : ¬ IsDigit t) (hts : ¬ IsSpace t) (ht1 : t ≠ 43) (ht2 : t ≠ 45) :
    sscanfU64 (p ++ t :: s) = .ok none := by
  obtain ⟨ws, q, rfl, hws, hq⟩ := takeWhile_split isspace p
  have hws : ∀ c ∈ ws, IsSpace c := fun c hc => (isspace_iff c).mp (hws c hc)
  have body : ∀ sign b, (sign = [] ∨ sign = [43] ∨ sign = [45]) → q = sign ++ b → scanDigits (b ++ t :: s) 0 false = .ok none := by
    intro sign b hsg hb
    refine scanDigits_none b s t ht fun ds tail he hds htl => ?_
    refine Classical.byContradiction fun hne => ?_
    exact hp _ ⟨ws, sign, ds, tail, by rw [hb, he]; simp, hws, hsg, hne, hds, htl, rfl⟩
  unfold sscanfU64
  cases q with
  | nil =>
    rw [List.append_nil, skipSpace_spec ws s t hws hts, Res.ok_bind, rd_cons_zero, Res.ok_bind, if_neg (by simp [ht1, ht2])]
    have := body [] [] (Or.inl rfl) rfl
    rw [List.nil_append] at this
    rw [this]
    rfl
  | cons c q =>
    have hc : ¬ IsSpace c := by
      have := hq c rfl
      rw [← isspace_iff]; simp [this]
    rw [List.append_assoc, List.cons_append, skipSpace_spec ws _ c hws hc, Res.ok_bind, rd_cons_zero, Res.ok_bind]
    by_cases h : c = 43 ∨ c = 45
    · rw [if_pos h, List.tail_cons, body [c] q (by rcases h with rfl | rfl <;> simp) rfl]
      rfl
    · rw [if_neg h, ← List.cons_append, body [] (c :: q) (Or.inl rfl) rfl]
      rfl

theorem uint64setLoop_ub (rest : Buf) : ∀ (fuel : Nat) (cs : Buf) (set : UInt64 → Bool), (∀ c ∈ cs, c ≠ 0) → cs.length < fuel →
    (∃ p ∈ pieces (fun c => decide (c = 44)) cs, ∀ v, ¬ IsNumber p v) → uint64setLoop fuel (cs ++ 0 :: rest) set = .ub := by
  intro fuel
  induction fuel with
  | zero => intro cs set _ h; simp at h
  | succ fuel ih =>
    intro cs set hz hf hnum
    rw [uint64setLoop]
    by_cases hm : (44 : UInt8) ∈ cs
    · obtain ⟨q, hq, hn⟩ := takeWhile_append_dropWhile' 44 cs hm
      have hch := strchr_spec rest 44 (by decide) cs hz
      rw [if_pos hm] at hch
      generalize hp : cs.takeWhile (· ≠ (44 : UInt8)) = p at *
      subst hq
      have hpc := pieces_append_sep (fun c => decide (c = 44)) p q 44 (fun x hx => by simpa using hn x hx) (by simp)
      rw [hpc] at hnum
      by_cases hv : ∃ v, IsNumber p v
      · obtain ⟨v, hv⟩ := hv
        have hsc := sscanf_spec p (q ++ 0 :: rest) 44 v hv (by unfold IsDigit; decide)
        simp only [List.append_assoc, List.cons_append] at hch hsc ⊢
        rw [hsc, Res.ok_bind]
        dsimp only
        rw [hch, Res.ok_bind]
        dsimp only
        have hq : ∀ c ∈ q, c ≠ 0 := fun c hc => hz c (by simp [hc])
        have hnum' : ∃ r ∈ pieces (fun c => decide (c = 44)) q, ∀ v, ¬ IsNumber r v := by
          obtain ⟨r, hr, h⟩ := hnum
          rcases List.mem_cons.mp hr with rfl | hr
          · exact absurd hv (h v)
          · exact ⟨r, hr, h⟩
        rw [← ih q (insert set v) hq (by simp at hf; omega) hnum']
        congr 1
        rw [← List.drop_drop]; simp
      · have hsc := sscanf_none p (q ++ 0 :: rest) 44 (fun v h => hv ⟨v, h⟩) (by unfold IsDigit; decide) (by unfold IsSpace; decide)
          (by decide) (by decide)
        simp only [List.append_assoc, List.cons_append] at hsc ⊢
        rw [hsc, Res.ok_bind]
    · have hpc := pieces_no_sep (fun c => decide (c = 44)) cs (fun x hx => by simp; intro h; subst h; exact hm hx)
      rw [hpc] at hnum
      obtain ⟨r, hr, h⟩ := hnum
      rw [List.mem_singleton] at hr
      subst hr
      rw [sscanf_none r rest 0 h (by unfold IsDigit; decide) (by unfold IsSpace; decide) (by decide) (by decide), Res.ok_bind]

end Verif.StrCpp
