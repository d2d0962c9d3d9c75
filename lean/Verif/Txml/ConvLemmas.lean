/-
  Lemmas about texts as numbers and switches, and about reading of files.
-/
import Verif.Txml.Conv
import Verif.Txml.ConvSpec

set_option linter.unusedSimpArgs false
set_option linter.unusedVariables false

namespace Verif.Txml
open Spec

theorem isDigit_iff (c : UInt8) : isDigit c = true ↔ Digit c := by
  simp [isDigit, Digit, UInt8.le_iff_toNat_le]

theorem isSpace_iff (c : UInt8) : isSpace c = true ↔ White c := by
  simp only [isSpace, White, Bool.or_eq_true, Bool.and_eq_true, decide_eq_true_eq, UInt8.le_iff_toNat_le, ← UInt8.toNat_inj]
  have h1 : (9 : UInt8).toNat = 9 := rfl
  have h2 : (13 : UInt8).toNat = 13 := rfl
  have h3 : (32 : UInt8).toNat = 32 := rfl
  rw [h1, h2, h3]
  omega

theorem scan_digits (ds tail : Text) (h1 : ∀ c ∈ ds, Digit c) (h2 : ∀ c ∈ tail.head?, ¬ Digit c) :
    ∀ acc, scan acc (ds ++ tail) = acc * 10 ^ ds.length + value ds := by
  induction ds with
  | nil =>
    intro acc
    cases tail with
    | nil => simp [scan, value]
    | cons c t =>
      have : ¬ isDigit c = true := fun h => h2 c (by simp) ((isDigit_iff c).mp h)
      simp [scan, value, this]
  | cons d ds ih =>
    intro acc
    have hd := (isDigit_iff d).mpr (h1 d (by simp))
    have ih' := ih (fun c hc => h1 c (by simp [hc]))
    simp only [List.cons_append, scan, hd, if_true, ih', value, List.length_cons, Nat.pow_succ]
    rw [Nat.add_mul, Nat.mul_comm 10 acc, Nat.mul_assoc, Nat.mul_comm 10, ← Nat.add_assoc]

theorem digits_split (u : Text) : ∃ ds tail, u = ds ++ tail ∧ (∀ c ∈ ds, Digit c) ∧ (∀ c ∈ tail.head?, ¬ Digit c) := by
  induction u with
  | nil => exact ⟨[], [], rfl, by simp, by simp⟩
  | cons c u ih =>
    by_cases h : Digit c
    · obtain ⟨ds, tail, rfl, h1, h2⟩ := ih
      refine ⟨c :: ds, tail, rfl, ?_, h2⟩
      intro x hx
      rcases List.mem_cons.mp hx with rfl | hx
      · exact h
      · exact h1 x hx
    · exact ⟨[], c :: u, rfl, by simp, by simpa using h⟩

theorem cstr_append (a b : Text) (h : ∀ c ∈ a, c ≠ 0) : cstr (a ++ b) = a ++ cstr b := by
  induction a with
  | nil => rfl
  | cons c a ih =>
    simp only [List.cons_append, cstr]
    rw [if_neg (h c (by simp)), ih (fun x hx => h x (by simp [hx]))]

theorem cstr_noz (t : Text) (h : ∀ c ∈ t, c ≠ 0) : cstr t = t := by
  have := cstr_append t [] h
  simpa [cstr] using this

theorem cstr_head (t : Text) : ∀ c ∈ (cstr t).head?, c ∈ t.head? := by
  cases t with
  | nil => simp [cstr]
  | cons x t =>
    simp only [cstr]
    split
    · simp
    · simp

theorem cstr_split (t : Text) : ∃ r, t = cstr t ++ r ∧ ∀ c ∈ r.head?, c = 0 := by
  induction t with
  | nil => exact ⟨[], rfl, by simp⟩
  | cons x t ih =>
    simp only [cstr]
    split
    · rename_i h
      exact ⟨x :: t, rfl, by simpa using h⟩
    · obtain ⟨r, h1, h2⟩ := ih
      exact ⟨r, by rw [List.cons_append, ← h1], h2⟩

theorem skip_append (ws r : Text) (h1 : ∀ c ∈ ws, White c) (h2 : ∀ c ∈ r.head?, ¬ White c) : skipSpace (ws ++ r) = r := by
  induction ws with
  | nil =>
    cases r with
    | nil => rfl
    | cons c r =>
      have : ¬ isSpace c = true := fun h => h2 c (by simp) ((isSpace_iff c).mp h)
      simp [skipSpace, this]
  | cons w ws ih =>
    have := (isSpace_iff w).mpr (h1 w (by simp))
    simp only [List.cons_append, skipSpace, this, if_true]
    exact ih (fun x hx => h1 x (by simp [hx]))

theorem skip_split (u : Text) : ∃ ws, u = ws ++ skipSpace u ∧ ∀ c ∈ ws, White c := by
  induction u with
  | nil => exact ⟨[], rfl, by simp⟩
  | cons c u ih =>
    simp only [skipSpace]
    split
    · rename_i h
      obtain ⟨ws, h1, h2⟩ := ih
      refine ⟨c :: ws, by rw [List.cons_append, ← h1], ?_⟩
      intro x hx
      rcases List.mem_cons.mp hx with rfl | hx
      · exact (isSpace_iff _).mp h
      · exact h2 x hx
    · exact ⟨[], rfl, by simp⟩

theorem white_ne {c : UInt8} (h : White c) : c ≠ 0 := by
  rintro rfl
  rcases h with h | h
  · exact absurd h (by decide)
  · exact absurd h.1 (by decide)

theorem digit_ne {c : UInt8} (h : Digit c) : c ≠ 0 ∧ c ≠ 45 ∧ c ≠ 43 ∧ ¬ White c := by
  refine ⟨?_, ?_, ?_, ?_⟩
  · rintro rfl; exact absurd h.1 (by decide)
  · rintro rfl; exact absurd h.1 (by decide)
  · rintro rfl; exact absurd h.1 (by decide)
  · intro hw; unfold Digit at h; unfold White at hw; omega

/-- The sign and the number that a text begins with. -/
def signed (neg : Bool) (m : Nat) : Int := if neg then -(m : Int) else m

theorem scan_denotes (t : Text) (n : Int) (h : Denotes t n) :
    ∃ neg m, scanSigned (skipSpace (cstr t)) = (neg, m) ∧ n = signed neg m := by
  obtain ⟨ws, sign, ds, tail, rfl, hw, hne, hd, ht, hs⟩ := h
  obtain ⟨d, ds', rfl⟩ : ∃ d ds', ds = d :: ds' := by
    cases ds with
    | nil => exact absurd rfl hne
    | cons d ds' => exact ⟨d, ds', rfl⟩
  have hd0 := digit_ne (hd d (by simp))
  have hsg : ∀ c ∈ sign, c ≠ 0 := by
    intro c hc
    rcases hs with ⟨rfl | rfl, -⟩ | ⟨rfl, -⟩
    · simp at hc
    · simp at hc; subst hc; decide
    · simp at hc; subst hc; decide
  have hz : ∀ c ∈ ws ++ sign ++ (d :: ds'), c ≠ 0 := by
    intro c hc
    rcases List.mem_append.mp hc with hc | hc
    · rcases List.mem_append.mp hc with hc | hc
      · exact white_ne (hw c hc)
      · exact hsg c hc
    · exact (digit_ne (hd c hc)).1
  rw [cstr_append _ _ hz, List.append_assoc, List.append_assoc]
  have hh : ∀ c ∈ (sign ++ (d :: ds' ++ cstr tail)).head?, ¬ White c := by
    intro c hc
    rcases hs with ⟨rfl | rfl, -⟩ | ⟨rfl, -⟩
    · simp at hc; subst hc; exact hd0.2.2.2
    · simp at hc; subst hc; unfold White; decide
    · simp at hc; subst hc; unfold White; decide
  rw [skip_append ws _ hw hh]
  have htl : ∀ c ∈ (cstr tail).head?, ¬ Digit c := fun c hc => ht c (cstr_head tail c hc)
  have hsc := scan_digits (d :: ds') (cstr tail) hd htl 0
  rw [Nat.zero_mul, Nat.zero_add] at hsc
  rcases hs with ⟨rfl | rfl, rfl⟩ | ⟨rfl, rfl⟩
  · refine ⟨false, value (d :: ds'), ?_, rfl⟩
    simp only [List.nil_append, List.cons_append, scanSigned] at hsc ⊢
    rw [if_neg hd0.2.1, if_neg hd0.2.2.1, hsc]
  · refine ⟨false, value (d :: ds'), ?_, rfl⟩
    simp only [List.nil_append, List.cons_append, scanSigned] at hsc ⊢
    rw [if_neg (by decide), if_pos trivial, hsc]
  · refine ⟨true, value (d :: ds'), ?_, rfl⟩
    simp only [List.nil_append, List.cons_append, scanSigned] at hsc ⊢
    rw [if_pos trivial, hsc]

theorem scan_number (u : Text) : scan 0 u = 0 ∨ ∃ ds tail, u = ds ++ tail ∧ ds ≠ [] ∧ (∀ c ∈ ds, Digit c) ∧ (∀ c ∈ tail.head?, ¬ Digit c) ∧ scan 0 u = value ds := by
  obtain ⟨ds, tail, rfl, h1, h2⟩ := digits_split u
  have := scan_digits ds tail h1 h2 0
  rw [Nat.zero_mul, Nat.zero_add] at this
  by_cases h : ds = []
  · left; subst h; rw [this]; rfl
  · exact .inr ⟨ds, tail, rfl, h, h1, h2, this⟩

theorem head_append_zero (tail r : Text) (h1 : ∀ c ∈ tail.head?, ¬ Digit c) (h2 : ∀ c ∈ r.head?, c = 0) : ∀ c ∈ (tail ++ r).head?, ¬ Digit c := by
  cases tail with
  | nil =>
    intro c hc
    have := h2 c hc
    subst this
    intro hd
    exact (digit_ne hd).1 rfl
  | cons x tail => simpa using h1

theorem denotes_scan (t : Text) (neg : Bool) (m : Nat) (h : scanSigned (skipSpace (cstr t)) = (neg, m)) (hm : m ≠ 0) : Denotes t (signed neg m) := by
  obtain ⟨r, h1, h2⟩ := cstr_split t
  obtain ⟨ws, h3, h4⟩ := skip_split (cstr t)
  rw [h3] at h1
  generalize skipSpace (cstr t) = u at *
  cases u with
  | nil => simp only [scanSigned, Prod.mk.injEq] at h; exact absurd h.2.symm hm
  | cons c u =>
    simp only [scanSigned] at h
    split at h
    · rename_i hc
      simp only [Prod.mk.injEq] at h
      obtain ⟨rfl, rfl⟩ := h
      rcases scan_number u with h | ⟨ds, tail, rfl, a1, a2, a3, a4⟩
      · exact absurd h hm
      · refine ⟨ws, [45], ds, tail ++ r, ?_, h4, a1, a2, head_append_zero tail r a3 h2, .inr ⟨rfl, by rw [a4]; rfl⟩⟩
        rw [h1, hc]; simp
    · split at h
      · rename_i _ hc
        simp only [Prod.mk.injEq] at h
        obtain ⟨rfl, rfl⟩ := h
        rcases scan_number u with h | ⟨ds, tail, rfl, a1, a2, a3, a4⟩
        · exact absurd h hm
        · refine ⟨ws, [43], ds, tail ++ r, ?_, h4, a1, a2, head_append_zero tail r a3 h2, .inl ⟨.inr rfl, by rw [a4]; rfl⟩⟩
          rw [h1, hc]; simp
      · simp only [Prod.mk.injEq] at h
        obtain ⟨rfl, rfl⟩ := h
        rcases scan_number (c :: u) with h | ⟨ds, tail, he, a1, a2, a3, a4⟩
        · exact absurd h hm
        · refine ⟨ws, [], ds, tail ++ r, ?_, h4, a1, a2, head_append_zero tail r a3 h2, .inl ⟨.inl rfl, by rw [a4]; rfl⟩⟩
          rw [h1, he]; simp

/-- The nearest value of a signed 64 bit number. -/
def near64 (n : Int) : Int := if n < -(2 ^ 63) then -(2 ^ 63) else if 2 ^ 63 - 1 < n then 2 ^ 63 - 1 else n

theorem strtol_scan (t : Text) (neg : Bool) (m : Nat) (h : scanSigned (skipSpace (cstr t)) = (neg, m)) : strtol t = near64 (signed neg m) := by
  unfold strtol near64 signed
  rw [h]
  cases neg
  · simp only [Bool.false_eq_true, if_false]
    split <;> split <;> omega
  · simp only [if_true]
    split <;> split <;> omega

theorem strtoul_scan (t : Text) (neg : Bool) (m : Nat) (h : scanSigned (skipSpace (cstr t)) = (neg, m)) :
    (0 ≤ signed neg m → signed neg m < 2 ^ 64 → (strtoul t : Int) = signed neg m) ∧ (2 ^ 64 ≤ signed neg m → strtoul t = 2 ^ 64 - 1) ∧
    (signed neg m < 0 → -(2 ^ 64) < signed neg m → (strtoul t : Int) = 2 ^ 64 + signed neg m) := by
  unfold strtoul signed
  rw [h]
  cases neg
  · simp only [Bool.false_eq_true, if_false]
    refine ⟨fun _ _ => ?_, fun _ => ?_, fun _ => ?_⟩ <;> first | omega | (split <;> omega)
  · simp only [if_true]
    refine ⟨fun _ _ => ?_, fun _ => ?_, fun _ _ => ?_⟩ <;> first | omega | (split <;> omega)

/-! ### Switches -/

theorem tolower_small (c : UInt8) : tolower c = if 65 ≤ c.toNat ∧ c.toNat ≤ 90 then c + 32 else c := by
  have : (65 ≤ c && c ≤ 90) = true ↔ 65 ≤ c.toNat ∧ c.toNat ≤ 90 := by simp [UInt8.le_iff_toNat_le]
  unfold tolower
  by_cases h : 65 ≤ c.toNat ∧ c.toNat ≤ 90
  · rw [if_pos (this.mpr h), if_pos h]
  · rw [if_neg (fun x => h (this.mp x)), if_neg h]

theorem tolower_zero : ∀ c : UInt8, tolower c = 0 → c = 0 := by
  have h : ∀ c : Fin 256, tolower (UInt8.ofNat c.val) = 0 → UInt8.ofNat c.val = 0 := by decide +kernel
  intro c hc
  have := h ⟨c.toNat, c.toNat_lt⟩
  simp only [UInt8.ofNat_toNat] at this
  exact this hc

/-- Comparison with a word in small letters. -/
theorem caseEq_prefix (t : Text) : ∀ (w : Text), (∀ c ∈ t, c ≠ 0) → (∀ c ∈ w, tolower c = c) → (caseEq t.length t w = true ↔ small t <+: w) := by
  induction t with
  | nil => intro w _ _; simp [caseEq, small]
  | cons c t ih =>
    intro w h1 h2
    have hc := h1 c (by simp)
    cases w with
    | nil =>
      simp only [List.length_cons, caseEq, List.headD_cons, List.headD_nil]
      have : tolower c ≠ tolower 0 := by
        intro h
        exact hc (tolower_zero c (h.trans (by decide)))
      simp [this, small]
    | cons d w =>
      have hd := h2 d (by simp)
      have := ih w (fun x hx => h1 x (by simp [hx])) (fun x hx => h2 x (by simp [hx]))
      simp only [List.length_cons, caseEq, List.headD_cons, List.tail_cons, hd, if_neg hc]
      have hs : small (c :: t) = tolower c :: small t := by simp only [small, List.map_cons, tolower_small]
      rw [hs, List.cons_prefix_cons, ← this]
      by_cases he : tolower c = d
      · simp [he, hc]
      · simp [he]

theorem near64_zero (n : Int) : near64 n = 0 ↔ n = 0 := by
  unfold near64
  split
  · omega
  · split <;> omega

/-! ### Files -/

/-- The loop does not run out of fuel. -/
theorem loop_fuel {σ : Type} (P : σ → List UInt8 → Bool → Option σ) : ∀ (n : Nat) (x : σ) (f : File), (if f.eof then 1 else f.rest.length + 2) ≤ n →
    loop P (n + 1) x f = loop P n x f := by
  intro n
  induction n with
  | zero => intro x f h; split at h <;> omega
  | succ n ih =>
    intro x f h
    have hne : ∀ (x : σ) (chunk : List UInt8) (f' : File), fread f = some (chunk, f') → f.eof = false → loop P (n + 1) x f' = loop P n x f' := by
      intro x chunk f' hf he
      apply ih
      rw [he] at h
      simp only [Bool.false_eq_true, if_false] at h
      have : f'.rest = f.rest.drop BUFSZ ∧ f'.eof = decide (f.rest.length < BUFSZ) := by
        unfold fread at hf
        split at hf
        · cases hf
        · simp only [Option.some.injEq, Prod.mk.injEq] at hf; rw [← hf.2]; exact ⟨rfl, rfl⟩
        · simp only [Option.some.injEq, Prod.mk.injEq] at hf; rw [← hf.2]; exact ⟨rfl, rfl⟩
      rw [this.1, this.2]
      by_cases hl : f.rest.length < BUFSZ
      · simp [hl]; omega
      · simp [hl]; unfold BUFSZ at *; omega
    rw [loop, loop]
    split
    · rfl
    · rename_i he
      cases hf : fread f with
      | none => rfl
      | some y =>
        obtain ⟨chunk, f'⟩ := y
        simp only
        cases hp : P x chunk f'.eof with
        | none => rfl
        | some x' =>
          simp only
          rw [hne x' chunk f' hf (by simpa using he)]

theorem fread_some (f : File) (chunk : List UInt8) (f' : File) (h : fread f = some (chunk, f')) :
    chunk = f.rest.take BUFSZ ∧ f'.rest = f.rest.drop BUFSZ ∧ f'.eof = decide (f.rest.length < BUFSZ) ∧
    ((f.failIn = none → f'.failIn = none)) := by
  unfold fread at h
  split at h
  · cases h
  · rename_i hq
    simp only [Option.some.injEq, Prod.mk.injEq] at h
    obtain ⟨rfl, rfl⟩ := h
    exact ⟨rfl, rfl, rfl, by rw [hq]; simp⟩
  · simp only [Option.some.injEq, Prod.mk.injEq] at h
    obtain ⟨rfl, rfl⟩ := h
    exact ⟨rfl, rfl, rfl, fun _ => rfl⟩

theorem loop_spec {σ : Type} (P : σ → List UInt8 → Bool → Option σ) : ∀ (n : Nat) (x : σ) (f : File), f.eof = false → f.rest.length + 2 ≤ n →
    ∃ cs, (loop P n x f).1 = acts cs ∧ (cs.map (·.1)).flatten <+: f.rest ∧ (∀ c ∈ cs, c.1.length ≤ BUFSZ) ∧
      (((loop P n x f).2.1 = .done ∧ (∃ (pre : List (List UInt8)) (last : List UInt8), cs = pre.map (fun c => (c, false)) ++ [(last, true)] ∧ pre.flatten ++ last = f.rest) ∧ feed P x cs = some (loop P n x f).2.2) ∨
       ((loop P n x f).2.1 = .badXml ∧ feed P x cs = none ∧ feed P x cs.dropLast = some (loop P n x f).2.2) ∨
       ((loop P n x f).2.1 = .cantRead ∧ (∀ c ∈ cs, c.2 = false) ∧ feed P x cs = some (loop P n x f).2.2 ∧ f.failIn ≠ none)) := by
  intro n
  induction n with
  | zero => intro x f _ h; omega
  | succ n ih =>
    intro x f he hn
    rw [loop]
    simp only [he, Bool.false_eq_true, if_false]
    cases hf : fread f with
    | none =>
      refine ⟨[], rfl, by simp, by simp, .inr (.inr ⟨rfl, by simp, rfl, ?_⟩)⟩
      intro hq
      unfold fread at hf
      rw [hq] at hf
      cases hf
    | some y =>
      obtain ⟨chunk, f'⟩ := y
      obtain ⟨rfl, h2, h3, h4⟩ := fread_some f _ f' hf
      simp only
      cases hp : P x (f.rest.take BUFSZ) f'.eof with
      | none =>
        refine ⟨[(f.rest.take BUFSZ, f'.eof)], rfl, ?_, ?_, .inr (.inl ⟨rfl, ?_, rfl⟩)⟩
        · simp [List.take_prefix]
        · simp [List.length_take]; omega
        · simp only [feed, hp]
      | some x' =>
        simp only
        by_cases hl : f.rest.length < BUFSZ
        · have he' : f'.eof = true := by rw [h3]; simpa using hl
          obtain ⟨m, rfl⟩ : ∃ m, n = m + 1 := ⟨n - 1, by omega⟩
          have hlp : loop P (m + 1) x' f' = ([.close], .done, x') := by rw [loop, he']; rfl
          rw [hlp, he']
          rw [he'] at hp
          refine ⟨[(f.rest.take BUFSZ, true)], rfl, ?_, ?_, .inl ⟨rfl, ⟨[], f.rest.take BUFSZ, rfl, ?_⟩, ?_⟩⟩
          · simp [List.take_prefix]
          · simp [List.length_take]; omega
          · rw [List.take_of_length_le (by omega)]; rfl
          · simp only [feed, hp]
        · have he' : f'.eof = false := by rw [h3]; simpa using hl
          obtain ⟨cs, a1, a2, a3, a4⟩ := ih x' f' he' (by rw [h2, List.length_drop]; unfold BUFSZ at *; omega)
          rw [he'] at hp ⊢
          have hst : ∀ cs, feed P x ((f.rest.take BUFSZ, false) :: cs) = feed P x' cs := by
            intro cs; simp only [feed, hp]
          have htd : f.rest.take BUFSZ ++ f'.rest = f.rest := by rw [h2, List.take_append_drop]
          refine ⟨(f.rest.take BUFSZ, false) :: cs, ?_, ?_, ?_, ?_⟩
          · simp only [a1, acts, List.map_cons, List.cons_append]
          · rw [List.map_cons, List.flatten_cons]
            obtain ⟨r, hr⟩ := a2
            exact ⟨r, by rw [List.append_assoc, hr, htd]⟩
          · intro c hc
            rcases List.mem_cons.mp hc with rfl | hc
            · simp [List.length_take]; omega
            · exact a3 c hc
          · rcases a4 with ⟨b1, ⟨pre, last, b2, b3⟩, b4⟩ | ⟨b1, b2, b3⟩ | ⟨b1, b2, b3, b4⟩
            · refine .inl ⟨b1, ⟨f.rest.take BUFSZ :: pre, last, by rw [b2]; rfl, ?_⟩, by rw [hst]; exact b4⟩
              rw [List.flatten_cons, List.append_assoc, b3, htd]
            · refine .inr (.inl ⟨b1, by rw [hst]; exact b2, ?_⟩)
              cases cs with
              | nil => simp [feed] at b2
              | cons c cs => rw [List.dropLast_cons_cons, hst]; exact b3
            · refine .inr (.inr ⟨b1, ?_, by rw [hst]; exact b3, fun hq => b4 (h4 hq)⟩)
              intro c hc
              rcases List.mem_cons.mp hc with rfl | hc
              · rfl
              · exact b2 c hc

end Verif.Txml
