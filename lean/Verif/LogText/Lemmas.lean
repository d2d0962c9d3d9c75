/-
  Lemmas about printf, lines and decimal numbers.
-/
import Verif.LogText.Spec

namespace Verif.LogText

theorem map_ok {α β : Type} (f : α → β) (a : α) : Res.map f (Res.ok a) = Res.ok (f a) := rfl

theorem map_map' {α β γ : Type} (f : α → β) (g : β → γ) (x : Res α) : Res.map g (Res.map f x) = Res.map (fun a => g (f a)) x := by
  cases x <;> rfl

theorem map_inv {α β : Type} {f : α → β} {x : Res α} {b : β} (h : Res.map f x = .ok b) : ∃ a, x = .ok a ∧ f a = b := by
  cases x with
  | ok a => exact ⟨a, rfl, by simpa [Res.map] using h⟩
  | ub => cases h

theorem bind_inv {α β : Type} {f : α → Res β} {x : Res α} {b : β} (h : Res.bind x f = .ok b) : ∃ a, x = .ok a ∧ f a = .ok b := by
  cases x with
  | ok a => exact ⟨a, rfl, h⟩
  | ub => cases h

theorem convNext_append {z : Bool} {w : Nat} {c : UInt8} {as as' bs : List Arg} {t : List UInt8} (h : convNext z w c as = .ok (t, as')) :
    convNext z w c (as ++ bs) = .ok (t, as' ++ bs) := by
  cases as with
  | nil => cases h
  | cons a as =>
    obtain ⟨t', e1, e2⟩ := map_inv h
    simp only [Prod.mk.injEq] at e2
    obtain ⟨rfl, rfl⟩ := e2
    rw [List.cons_append, convNext, e1]
    rfl

theorem convLong_append {z : Bool} {w : Nat} {c : UInt8} {as as' bs : List Arg} {t : List UInt8} (h : convLong z w c as = .ok (t, as')) :
    convLong z w c (as ++ bs) = .ok (t, as' ++ bs) := by
  match as, h with
  | .ulong n :: as, h =>
    rw [convLong] at h
    rw [List.cons_append, convLong]
    by_cases hc : c = 117
    · rw [if_pos hc] at *
      simp only [Res.ok.injEq, Prod.mk.injEq] at h
      rw [← h.1, ← h.2]
    · rw [if_neg hc] at h; cases h

/-- A format that is complete in itself can be followed by another one. -/
theorem printf_append (g : List UInt8) (bs : List Arg) : ∀ (f : List UInt8) (st : St) (as rest : List Arg) (m : List UInt8),
    printf st f as = .ok (m, rest) →
    printf st (f ++ g) (as ++ bs) = (printf .text g (rest ++ bs)).map fun r => (m ++ r.1, r.2) := by
  intro f
  induction f with
  | nil =>
    intro st as rest m h
    cases st with
    | text =>
      simp only [printf, Res.ok.injEq, Prod.mk.injEq] at h
      obtain ⟨rfl, rfl⟩ := h
      rw [List.nil_append]
      cases printf .text g (as ++ bs) <;> rfl
    | pct => simp [printf] at h
    | width z w => simp [printf] at h
    | long z w => simp [printf] at h
  | cons c f ih =>
    intro st as rest m h
    -- one more piece of text, then the rest of the format
    have key : ∀ (t : List UInt8) (as : List Arg),
        (printf .text f as).map (fun r => (t ++ r.1, r.2)) = .ok (m, rest) →
        (printf .text (f ++ g) (as ++ bs)).map (fun r => (t ++ r.1, r.2)) =
          (printf .text g (rest ++ bs)).map fun r => (m ++ r.1, r.2) := by
      intro t as h
      obtain ⟨⟨m', rest'⟩, h1, h2⟩ := map_inv h
      simp only [Prod.mk.injEq] at h2
      obtain ⟨rfl, rfl⟩ := h2
      rw [ih _ _ _ _ h1, map_map']
      simp only [List.append_assoc]
    cases st with
    | text =>
      rw [List.cons_append, printf] at *
      by_cases hc : c = 37
      · rw [if_pos hc] at *; exact ih _ _ _ _ h
      · rw [if_neg hc] at *; exact key [c] as h
    | pct =>
      rw [List.cons_append, printf] at *
      by_cases h1 : c = 37
      · rw [if_pos h1] at *; exact key [37] as h
      rw [if_neg h1] at *
      by_cases h2 : c = 48
      · rw [if_pos h2] at *; exact ih _ _ _ _ h
      rw [if_neg h2] at *
      by_cases h3 : 49 ≤ c ∧ c ≤ 57
      · rw [if_pos h3] at *; exact ih _ _ _ _ h
      rw [if_neg h3] at *
      by_cases h4 : c = 108
      · rw [if_pos h4] at *; exact ih _ _ _ _ h
      rw [if_neg h4] at *
      obtain ⟨⟨t, as'⟩, e1, e2⟩ := bind_inv h
      rw [convNext_append e1]
      exact key t as' e2
    | width z w =>
      rw [List.cons_append, printf] at *
      by_cases h1 : 48 ≤ c ∧ c ≤ 57
      · rw [if_pos h1] at *; exact ih _ _ _ _ h
      rw [if_neg h1] at *
      by_cases h2 : c = 108
      · rw [if_pos h2] at *; exact ih _ _ _ _ h
      rw [if_neg h2] at *
      obtain ⟨⟨t, as'⟩, e1, e2⟩ := bind_inv h
      rw [convNext_append e1]
      exact key t as' e2
    | long z w =>
      rw [List.cons_append, printf] at *
      obtain ⟨⟨t, as'⟩, e1, e2⟩ := bind_inv h
      rw [convLong_append e1]
      exact key t as' e2

/-- Text without % stands for itself. -/
theorem printf_lit (g : List UInt8) (as : List Arg) : ∀ (f : List UInt8), 37 ∉ f →
    printf .text (f ++ g) as = (printf .text g as).map fun r => (f ++ r.1, r.2) := by
  intro f
  induction f with
  | nil => intro _; rw [List.nil_append]; cases printf .text g as <;> rfl
  | cons c f ih =>
    intro h
    simp only [List.mem_cons, not_or] at h
    rw [List.cons_append, printf, if_neg (fun e => h.1 e.symm), ih h.2, map_map']
    rfl

/-- The text of stampFormat. -/
def stamp (t : Clock) : List UInt8 :=
  field true 4 (dec (u32 (t.tm_year + 1900))) ++ [45] ++ field true 2 (dec (u32 (t.tm_mon + 1))) ++ [45] ++
  field true 2 (dec (u32 t.tm_mday)) ++ [32] ++ field true 2 (dec (u32 t.tm_hour)) ++ [58] ++ field true 2 (dec (u32 t.tm_min)) ++ [58] ++
  field true 2 (dec (u32 t.tm_sec)) ++ [46] ++ field true 3 (dec (t.tv_usec % 2^32 / 1000)) ++ [32]

/-- One directive `%0Nu` for an int, followed by one byte. -/
theorem printf_0u (n c : UInt8) (f : List UInt8) (i : Int) (as : List Arg) (hn : 49 ≤ n ∧ n ≤ 57) (hc : c ≠ 37) :
    printf .text (37 :: 48 :: n :: 117 :: c :: f) (.int i :: as) =
      (printf .text f as).map fun r => (field true (n.toNat - 48) (dec (u32 i)) ++ [c] ++ r.1, r.2) := by
  have hn' : 48 ≤ n ∧ n ≤ 57 := ⟨UInt8.le_trans (by decide) hn.1, hn.2⟩
  simp only [printf]
  rw [if_pos trivial, if_neg (by decide), if_pos trivial, if_pos hn', if_neg (by decide), if_neg (by decide)]
  simp only [convNext, conv]
  rw [if_pos trivial]
  simp only [map_ok, Res.bind]
  rw [if_neg hc]
  simp only [map_map', Nat.mul_zero, Nat.zero_add]
  simp only [List.append_assoc, List.cons_append, List.nil_append]

theorem printf_0u' (n c : UInt8) (f : List UInt8) (i : Nat) (as : List Arg) (hn : 49 ≤ n ∧ n ≤ 57) (hc : c ≠ 37) :
    printf .text (37 :: 48 :: n :: 117 :: c :: f) (.uint i :: as) =
      (printf .text f as).map fun r => (field true (n.toNat - 48) (dec i) ++ [c] ++ r.1, r.2) := by
  have hn' : 48 ≤ n ∧ n ≤ 57 := ⟨UInt8.le_trans (by decide) hn.1, hn.2⟩
  simp only [printf]
  rw [if_pos trivial, if_neg (by decide), if_pos trivial, if_pos hn', if_neg (by decide), if_neg (by decide)]
  simp only [convNext, conv]
  rw [if_pos trivial]
  simp only [map_ok, Res.bind]
  rw [if_neg hc]
  simp only [map_map', Nat.mul_zero, Nat.zero_add]
  simp only [List.append_assoc, List.cons_append, List.nil_append]

theorem printf_stamp (t : Clock) (f : List UInt8) (a : Arg) (as : List Arg) :
    printf .text (stampFormat ++ f) (LOG_VALUES t a as) = (printf .text f (a :: as)).map fun r => (stamp t ++ r.1, r.2) := by
  simp only [stampFormat, LOG_VALUES, List.cons_append, List.nil_append]
  rw [printf_0u _ _ _ _ _ (by decide) (by decide), printf_0u _ _ _ _ _ (by decide) (by decide), printf_0u _ _ _ _ _ (by decide) (by decide),
    printf_0u _ _ _ _ _ (by decide) (by decide), printf_0u _ _ _ _ _ (by decide) (by decide), printf_0u _ _ _ _ _ (by decide) (by decide),
    printf_0u' _ _ _ _ _ (by decide) (by decide)]
  simp only [map_map', stamp, List.append_assoc]
  rfl

/-! Decimal numbers of fixed width -/

/-- The last `w` digits. -/
def digs : Nat → Nat → List UInt8
  | 0, _ => []
  | w + 1, n => digs w (n / 10) ++ [UInt8.ofNat (48 + n % 10)]

theorem digs_length (w : Nat) : ∀ n, (digs w n).length = w := by
  induction w with
  | zero => intro n; rfl
  | succ w ih => intro n; simp [digs, ih]

theorem digs_zero (w : Nat) : digs w 0 = List.replicate w 48 := by
  induction w with
  | zero => rfl
  | succ w ih => rw [digs, Nat.zero_div, ih, List.replicate_succ']; rfl

theorem field_digs (w : Nat) : ∀ n, n < 10 ^ (w + 1) → field true (w + 1) (dec n) = digs (w + 1) n := by
  induction w with
  | zero =>
    intro n h
    have h : n < 10 := by simpa using h
    rw [dec, if_pos h]
    simp only [field, digs, List.length_singleton, Nat.zero_add, Nat.sub_self, List.replicate_zero, List.nil_append]
    rw [Nat.mod_eq_of_lt h]
  | succ w ih =>
    intro n h
    by_cases h1 : n < 10
    · rw [dec, if_pos h1]
      simp only [field, List.length_singleton, digs]
      rw [show n / 10 = 0 by omega, Nat.mod_eq_of_lt h1]
      have := digs_zero (w + 1)
      simp only [digs, Nat.zero_div, Nat.zero_mod] at this
      simp only [Nat.zero_div, Nat.zero_mod, this]
      rfl
    · have h2 : n / 10 < 10 ^ (w + 1) := by
        rw [Nat.pow_succ] at h
        omega
      have := ih _ h2
      rw [dec, if_neg h1, digs, ← this]
      simp only [field, List.length_append, List.length_singleton, List.append_assoc]
      rw [show w + 1 + 1 - ((dec (n / 10)).length + 1) = w + 1 - (dec (n / 10)).length by omega]

theorem numberFrom_append : ∀ (a b : List UInt8) (acc : Nat), numberFrom acc (a ++ b) = (numberFrom acc a).bind fun x => numberFrom x b := by
  intro a
  induction a with
  | nil => intro b acc; rfl
  | cons c a ih =>
    intro b acc
    rw [List.cons_append, numberFrom, numberFrom]
    by_cases h : 48 ≤ c ∧ c ≤ 57
    · rw [if_pos h, if_pos h, ih]
    · rw [if_neg h, if_neg h]; rfl

theorem digit_toNat (d : Nat) (h : d < 10) : (UInt8.ofNat (48 + d)).toNat = 48 + d := by
  rw [UInt8.toNat_ofNat']
  omega

theorem digit_ok (d : Nat) (h : d < 10) : 48 ≤ UInt8.ofNat (48 + d) ∧ UInt8.ofNat (48 + d) ≤ 57 := by
  rw [UInt8.le_iff_toNat_le, UInt8.le_iff_toNat_le, digit_toNat d h]
  simp
  omega

theorem numberFrom_digit (acc d : Nat) (h : d < 10) : numberFrom acc [UInt8.ofNat (48 + d)] = some (10 * acc + d) := by
  rw [numberFrom, if_pos (digit_ok d h), numberFrom, digit_toNat d h]
  simp

theorem numberFrom_digs (w : Nat) : ∀ (n acc : Nat), n < 10 ^ w → numberFrom acc (digs w n) = some (10 ^ w * acc + n) := by
  induction w with
  | zero => intro n acc h; simp only [Nat.pow_zero, Nat.lt_one_iff] at h; simp [digs, numberFrom, h]
  | succ w ih =>
    intro n acc h
    rw [Nat.pow_succ] at h
    rw [digs, numberFrom_append, ih _ _ (by omega), Option.bind_some, numberFrom_digit _ _ (Nat.mod_lt _ (by omega))]
    congr 1
    rw [Nat.pow_succ, Nat.mul_add, ← Nat.mul_assoc, Nat.mul_comm 10 (10 ^ w)]
    omega

theorem number_digs (w n : Nat) (h : n < 10 ^ (w + 1)) : number (digs (w + 1) n) = some n := by
  rw [number, if_neg, numberFrom_digs _ _ _ h]
  · simp
  · intro e
    have := digs_length (w + 1) n
    rw [e] at this
    cases this

theorem dec_mem (n : Nat) : ∀ c ∈ dec n, 48 ≤ c ∧ c ≤ 57 := by
  induction n using Nat.strongRecOn with
  | ind n ih =>
    intro c hc
    rw [dec] at hc
    by_cases h : n < 10
    · rw [if_pos h] at hc
      simp only [List.mem_singleton] at hc
      rw [hc]; exact digit_ok n h
    · rw [if_neg h] at hc
      rcases List.mem_append.mp hc with h1 | h1
      · exact ih _ (by omega) c h1
      · simp only [List.mem_singleton] at h1
        rw [h1]; exact digit_ok _ (Nat.mod_lt _ (by omega))

/-! Lines -/

theorem lines_line : ∀ (l r : List UInt8), 10 ∉ l → lines (l ++ 10 :: r) = l :: lines r := by
  intro l
  induction l with
  | nil => intro r _; rw [List.nil_append, lines, if_pos rfl]
  | cons c l ih =>
    intro r h
    simp only [List.mem_cons, not_or] at h
    rw [List.cons_append, lines, if_neg (fun e => h.1 e.symm), ih r h.2]

theorem word_blank : ∀ (a r : List UInt8), 32 ∉ a → word (a ++ 32 :: r) = some (a, r) := by
  intro a
  induction a with
  | nil => intro r _; rw [List.nil_append, word, if_pos rfl]
  | cons c a ih =>
    intro r h
    simp only [List.mem_cons, not_or] at h
    rw [List.cons_append, word, if_neg (fun e => h.1 e.symm), ih r h.2]
    rfl

/-! The stamp -/

theorem u32_nonneg (i : Int) (h0 : 0 ≤ i) (h : i < 4294967296) : u32 i = i.toNat := by
  unfold u32
  rw [show (2 : Int) ^ 32 = 4294967296 by decide, Int.emod_eq_of_lt h0 h]

/-- The stamp of a valid time. -/
theorem stamp_eq (t : Clock) (h : t.Valid) : stamp t =
    digs 4 (t.tm_year + 1900).toNat ++ [45] ++ digs 2 (t.tm_mon + 1).toNat ++ [45] ++ digs 2 t.tm_mday.toNat ++ [32] ++
    digs 2 t.tm_hour.toNat ++ [58] ++ digs 2 t.tm_min.toNat ++ [58] ++ digs 2 t.tm_sec.toNat ++ [46] ++ digs 3 (t.tv_usec / 1000) ++ [32] := by
  obtain ⟨h1, h2, h3, h4, h5, h6, h7, h8, h9, h10, h11, h12, h13⟩ := h
  unfold stamp
  rw [u32_nonneg _ (by omega) (by omega), u32_nonneg _ (by omega) (by omega), u32_nonneg _ (by omega) (by omega),
    u32_nonneg _ (by omega) (by omega), u32_nonneg _ (by omega) (by omega), u32_nonneg _ (by omega) (by omega)]
  rw [show t.tv_usec % 2^32 = t.tv_usec from Nat.mod_eq_of_lt (by rw [show 2^32 = 4294967296 by decide]; omega)]
  rw [field_digs 3 _ (by rw [show 10 ^ (3 + 1) = 10000 by decide]; omega),
    field_digs 1 _ (by rw [show 10 ^ (1 + 1) = 100 by decide]; omega), field_digs 1 _ (by rw [show 10 ^ (1 + 1) = 100 by decide]; omega),
    field_digs 1 _ (by rw [show 10 ^ (1 + 1) = 100 by decide]; omega), field_digs 1 _ (by rw [show 10 ^ (1 + 1) = 100 by decide]; omega),
    field_digs 1 _ (by rw [show 10 ^ (1 + 1) = 100 by decide]; omega), field_digs 2 _ (by rw [show 10 ^ (2 + 1) = 1000 by decide]; omega)]

theorem stamp_length (t : Clock) (h : t.Valid) : (stamp t).length = 24 := by
  rw [stamp_eq t h]
  simp [digs_length]

theorem len2 {l : List UInt8} (h : l.length = 2) : ∃ a b, l = [a, b] := by
  match l, h with
  | [a, b], _ => exact ⟨a, b, rfl⟩

theorem len3 {l : List UInt8} (h : l.length = 3) : ∃ a b c, l = [a, b, c] := by
  match l, h with
  | [a, b, c], _ => exact ⟨a, b, c, rfl⟩

/-- Seven numbers of fixed width at their columns. -/
theorem cols (y mo d h mi s ms r : List UInt8) (hy : y.length = 4) (hmo : mo.length = 2) (hd : d.length = 2) (hh : h.length = 2)
    (hmi : mi.length = 2) (hs : s.length = 2) (hms : ms.length = 3) (l : List UInt8)
    (e : l = y ++ [45] ++ mo ++ [45] ++ d ++ [32] ++ h ++ [58] ++ mi ++ [58] ++ s ++ [46] ++ ms ++ [32] ++ r) :
    col l 0 4 = y ∧ col l 5 2 = mo ∧ col l 8 2 = d ∧ col l 11 2 = h ∧ col l 14 2 = mi ∧ col l 17 2 = s ∧ col l 20 3 = ms ∧
    (l[4]? = some 45 ∧ l[7]? = some 45 ∧ l[10]? = some 32 ∧ l[13]? = some 58 ∧ l[16]? = some 58 ∧ l[19]? = some 46 ∧ l[23]? = some 32) ∧
    l.drop 24 = r := by
  obtain ⟨a0, a1, rfl⟩ := len2 hmo
  obtain ⟨b0, b1, rfl⟩ := len2 hd
  obtain ⟨c0, c1, rfl⟩ := len2 hh
  obtain ⟨d0, d1, rfl⟩ := len2 hmi
  obtain ⟨e0, e1, rfl⟩ := len2 hs
  obtain ⟨f0, f1, f2, rfl⟩ := len3 hms
  obtain ⟨y0, y1, y2, y3, rfl⟩ : ∃ a b c d, y = [a, b, c, d] := by
    match y, hy with
    | [a, b, c, d], _ => exact ⟨a, b, c, d, rfl⟩
  simp only [List.cons_append, List.nil_append] at e
  subst e
  simp [col]

theorem levelName_eq (l : Logger.Level) (t : Clock) (th m : List UInt8) : (entry t l th m).level = levelName l := by
  cases l <;> rfl

/-- A reader finds the entry in the line. -/
theorem read_line (t : Clock) (h : t.Valid) (l : Logger.Level) (th m : List UInt8) (hth : 32 ∉ th) :
    readEntry (stamp t ++ (levelName l ++ 32 :: (th ++ 32 :: m))) = some (entry t l th m) := by
  have hv := h
  obtain ⟨h1, h2, h3, h4, h5, h6, h7, h8, h9, h10, h11, h12, h13⟩ := h
  rw [stamp_eq t hv]
  obtain ⟨e1, e2, e3, e4, e5, e6, e7, e8, e9⟩ := cols (digs 4 (t.tm_year + 1900).toNat) (digs 2 (t.tm_mon + 1).toNat)
    (digs 2 t.tm_mday.toNat) (digs 2 t.tm_hour.toNat) (digs 2 t.tm_min.toNat) (digs 2 t.tm_sec.toNat) (digs 3 (t.tv_usec / 1000))
    (levelName l ++ 32 :: (th ++ 32 :: m)) (digs_length _ _) (digs_length _ _) (digs_length _ _) (digs_length _ _) (digs_length _ _)
    (digs_length _ _) (digs_length _ _) _ rfl
  unfold readEntry
  rw [e1, e2, e3, e4, e5, e6, e7]
  rw [number_digs 3 _ (by rw [show 10 ^ (3 + 1) = 10000 by decide]; omega),
    number_digs 1 _ (by rw [show 10 ^ (1 + 1) = 100 by decide]; omega), number_digs 1 _ (by rw [show 10 ^ (1 + 1) = 100 by decide]; omega),
    number_digs 1 _ (by rw [show 10 ^ (1 + 1) = 100 by decide]; omega), number_digs 1 _ (by rw [show 10 ^ (1 + 1) = 100 by decide]; omega),
    number_digs 1 _ (by rw [show 10 ^ (1 + 1) = 100 by decide]; omega), number_digs 2 _ (by rw [show 10 ^ (2 + 1) = 1000 by decide]; omega)]
  simp only []
  rw [if_pos e8, e9, word_blank _ _ (by cases l <;> decide)]
  simp only []
  rw [word_blank _ _ hth]
  cases l <;> rfl

theorem digs_mem (w : Nat) : ∀ n, ∀ c ∈ digs w n, 48 ≤ c ∧ c ≤ 57 := by
  induction w with
  | zero => intro n c hc; cases hc
  | succ w ih =>
    intro n c hc
    rcases List.mem_append.mp hc with h | h
    · exact ih _ c h
    · simp only [List.mem_singleton] at h
      rw [h]; exact digit_ok _ (Nat.mod_lt _ (by omega))

theorem not_digit {c : UInt8} {l : List UInt8} (h : ∀ c ∈ l, 48 ≤ c ∧ c ≤ 57) (hc : ¬(48 ≤ c ∧ c ≤ 57)) : c ∉ l := fun m => hc (h c m)

theorem stamp_nl (t : Clock) (h : t.Valid) : 10 ∉ stamp t := by
  have d : ∀ w n, (10 : UInt8) ∉ digs w n := fun w n => not_digit (digs_mem w n) (by decide)
  rw [stamp_eq t h]
  simp only [List.mem_append, List.mem_singleton, d, false_or, or_false, not_or]
  refine ⟨⟨⟨⟨⟨⟨?_, ?_⟩, ?_⟩, ?_⟩, ?_⟩, ?_⟩, ?_⟩ <;> decide

/-! One message -/

/-- The line of a message. -/
def line (t : Clock) (l : Logger.Level) (th m : List UInt8) : List UInt8 := stamp t ++ (levelName l ++ 32 :: (th ++ 32 :: m)) ++ [10]

theorem field_zero (z : Bool) (t : List UInt8) : field z 0 t = t := by
  simp [field]

theorem printf_line_name (t : Clock) (l : Logger.Level) (name fmt m : List UInt8) (args : List Arg)
    (h : printf .text fmt args = .ok (m, [])) :
    printf .text (LOG_FORMAT (levelName l) [37, 115] fmt) (LOG_VALUES t (.str name) args) = .ok (line t l name m, []) := by
  simp only [LOG_FORMAT, List.append_assoc]
  rw [printf_stamp, printf_lit _ _ _ (by cases l <;> decide), map_map']
  simp only [List.cons_append, List.nil_append]
  rw [printf, if_neg (by decide)]
  rw [printf, if_pos rfl, printf, if_neg (by decide), if_neg (by decide), if_neg (by decide), if_neg (by decide)]
  simp only [convNext, conv]
  rw [if_pos trivial, field_zero]
  simp only [map_ok, Res.bind]
  rw [printf, if_neg (by decide)]
  have := printf_append [10] [] fmt .text args [] m h
  rw [List.append_nil] at this
  rw [this]
  simp [printf, map_ok, line]

theorem printf_line_num (t : Clock) (l : Logger.Level) (n : Nat) (fmt m : List UInt8) (args : List Arg)
    (h : printf .text fmt args = .ok (m, [])) :
    printf .text (LOG_FORMAT (levelName l) [37, 108, 117] fmt) (LOG_VALUES t (.ulong n) args) = .ok (line t l (dec n) m, []) := by
  simp only [LOG_FORMAT, List.append_assoc]
  rw [printf_stamp, printf_lit _ _ _ (by cases l <;> decide), map_map']
  simp only [List.cons_append, List.nil_append]
  rw [printf, if_neg (by decide)]
  rw [printf, if_pos rfl, printf, if_neg (by decide), if_neg (by decide), if_neg (by decide), if_pos rfl, printf]
  simp only [convLong]
  rw [if_pos trivial, field_zero]
  simp only [Res.bind]
  rw [ printf, if_neg (by decide)]
  have := printf_append [10] [] fmt .text args [] m h
  rw [List.append_nil] at this
  rw [this]
  simp [printf, map_ok, line]

theorem signed_zero (i : Int) : signed false 0 i = intText i := by
  unfold signed intText
  by_cases h : 0 ≤ i
  · rw [if_pos h, if_pos h, field_zero]
  · rw [if_neg h, if_neg h, if_neg (by decide), field_zero]

/-- The suffix of log_err and coda_errno. -/
theorem printf_err (fmt m text tail : List UInt8) (args : List Arg) (e : Int) (h : printf .text fmt args = .ok (m, [])) (ht : 37 ∉ tail) :
    printf .text (fmt ++ errSuffix ++ tail) (args ++ [.int e, .str text]) =
      .ok (m ++ [32, 40] ++ intText e ++ [58, 32] ++ text ++ [41] ++ tail, []) := by
  rw [List.append_assoc, printf_append _ _ _ _ _ _ _ h]
  have e1 : printf .text (tail ++ []) [] = (printf .text [] []).map fun r => (tail ++ r.1, r.2) := printf_lit [] [] tail ht
  simp only [errSuffix, List.cons_append, List.nil_append]
  rw [printf, if_neg (by decide), printf, if_neg (by decide), printf, if_pos rfl]
  rw [printf, if_neg (by decide), if_neg (by decide), if_neg (by decide), if_neg (by decide)]
  simp only [convNext, conv]
  rw [if_neg (by decide), if_pos trivial]
  simp only [map_ok, Res.bind]
  rw [printf, if_neg (by decide), printf, if_neg (by decide), printf, if_pos rfl]
  rw [printf, if_neg (by decide), if_neg (by decide), if_neg (by decide), if_neg (by decide)]
  simp only [convNext, conv]
  rw [if_pos trivial]
  simp only [map_ok, Res.bind]
  rw [printf, if_neg (by decide)]
  rw [List.append_nil] at e1
  rw [e1]
  simp [printf, map_ok, signed_zero, field_zero]

/-! Order -/

theorem lex_append : ∀ (x y u v : List UInt8), x.length = y.length → (x ++ u < y ++ v ↔ x < y ∨ x = y ∧ u < v) := by
  intro x
  induction x with
  | nil =>
    intro y u v h
    cases y with
    | nil => simp
    | cons b y => cases h
  | cons a x ih =>
    intro y u v h
    cases y with
    | nil => cases h
    | cons b y =>
      have := ih y u v (by simpa using h)
      rw [List.cons_append, List.cons_append, List.cons_lt_cons_iff, List.cons_lt_cons_iff, this]
      constructor
      · rintro (h1 | ⟨h1, h2 | ⟨h2, h3⟩⟩)
        · exact Or.inl (Or.inl h1)
        · exact Or.inl (Or.inr ⟨h1, h2⟩)
        · exact Or.inr ⟨by rw [h1, h2], h3⟩
      · rintro ((h1 | ⟨h1, h2⟩) | ⟨h1, h2⟩)
        · exact Or.inl h1
        · exact Or.inr ⟨h1, Or.inl h2⟩
        · simp only [List.cons.injEq] at h1
          exact Or.inr ⟨h1.1, Or.inr ⟨h1.2, h2⟩⟩

theorem lex_same (c : UInt8) (u v : List UInt8) : c :: u < c :: v ↔ u < v := by
  rw [List.cons_lt_cons_iff]
  constructor
  · rintro (h | h)
    · exact absurd h (UInt8.lt_irrefl c)
    · exact h.2
  · exact fun h => Or.inr ⟨rfl, h⟩

theorem digit_lt (a b : Nat) (ha : a < 10) (hb : b < 10) : UInt8.ofNat (48 + a) < UInt8.ofNat (48 + b) ↔ a < b := by
  rw [UInt8.lt_iff_toNat_lt, digit_toNat a ha, digit_toNat b hb]
  omega

theorem digs_inj (w : Nat) : ∀ a b, a < 10 ^ w → b < 10 ^ w → (digs w a = digs w b ↔ a = b) := by
  intro a b ha hb
  constructor
  · intro h
    have h1 := numberFrom_digs w a 0 ha
    have h2 := numberFrom_digs w b 0 hb
    rw [h, h2] at h1
    simpa using h1.symm
  · intro h; rw [h]

theorem digs_lt (w : Nat) : ∀ a b, a < 10 ^ w → b < 10 ^ w → (digs w a < digs w b ↔ a < b) := by
  induction w with
  | zero =>
    intro a b ha hb
    simp only [Nat.pow_zero, Nat.lt_one_iff] at ha hb
    subst ha; subst hb
    simp [digs]
  | succ w ih =>
    intro a b ha hb
    rw [Nat.pow_succ] at ha hb
    have ha' : a / 10 < 10 ^ w := by omega
    have hb' : b / 10 < 10 ^ w := by omega
    rw [digs, digs, lex_append _ _ _ _ (by rw [digs_length, digs_length]), ih _ _ ha' hb', digs_inj w _ _ ha' hb', List.cons_lt_cons_iff,
      digit_lt _ _ (Nat.mod_lt _ (by omega)) (Nat.mod_lt _ (by omega))]
    simp only [List.lt_irrefl, and_false, or_false]
    omega

/-- The stamp without its last blank. -/
def core (t : Clock) : List UInt8 :=
  digs 4 (t.tm_year + 1900).toNat ++ 45 :: (digs 2 (t.tm_mon + 1).toNat ++ 45 :: (digs 2 t.tm_mday.toNat ++ 32 ::
  (digs 2 t.tm_hour.toNat ++ 58 :: (digs 2 t.tm_min.toNat ++ 58 :: (digs 2 t.tm_sec.toNat ++ 46 :: digs 3 (t.tv_usec / 1000))))))

theorem stamp_core (t : Clock) (h : t.Valid) : stamp t = core t ++ [32] := by
  rw [stamp_eq t h, core]
  simp only [List.append_assoc, List.cons_append, List.nil_append]

theorem core_length (t : Clock) : (core t).length = 23 := by simp [core, digs_length]

theorem core_lt (a b : Clock) (ha : a.Valid) (hb : b.Valid) : core a < core b ↔ Before a b := by
  obtain ⟨a1, a2, a3, a4, a5, a6, a7, a8, a9, a10, a11, a12, a13⟩ := ha
  obtain ⟨b1, b2, b3, b4, b5, b6, b7, b8, b9, b10, b11, b12, b13⟩ := hb
  have p4 : 10 ^ 4 = 10000 := by decide
  have p2 : 10 ^ 2 = 100 := by decide
  have p3 : 10 ^ 3 = 1000 := by decide
  have L : ∀ w (x y : Nat) (u v : List UInt8) (c : UInt8), x < 10 ^ w → y < 10 ^ w →
      (digs w x ++ c :: u < digs w y ++ c :: v ↔ x < y ∨ x = y ∧ u < v) := by
    intro w x y u v c hx hy
    rw [lex_append _ _ _ _ (by rw [digs_length, digs_length]), digs_lt w x y hx hy, digs_inj w x y hx hy, lex_same]
  unfold core Before
  rw [L 4 _ _ _ _ _ (by omega) (by omega), L 2 _ _ _ _ _ (by omega) (by omega), L 2 _ _ _ _ _ (by omega) (by omega),
    L 2 _ _ _ _ _ (by omega) (by omega), L 2 _ _ _ _ _ (by omega) (by omega), L 2 _ _ _ _ _ (by omega) (by omega),
    digs_lt 3 _ _ (by omega) (by omega)]
  rw [show ((a.tm_year + 1900).toNat < (b.tm_year + 1900).toNat) = (a.tm_year < b.tm_year) from propext (by omega),
    show ((a.tm_year + 1900).toNat = (b.tm_year + 1900).toNat) = (a.tm_year = b.tm_year) from propext (by omega),
    show ((a.tm_mon + 1).toNat < (b.tm_mon + 1).toNat) = (a.tm_mon < b.tm_mon) from propext (by omega),
    show ((a.tm_mon + 1).toNat = (b.tm_mon + 1).toNat) = (a.tm_mon = b.tm_mon) from propext (by omega),
    show (a.tm_mday.toNat < b.tm_mday.toNat) = (a.tm_mday < b.tm_mday) from propext (by omega),
    show (a.tm_mday.toNat = b.tm_mday.toNat) = (a.tm_mday = b.tm_mday) from propext (by omega),
    show (a.tm_hour.toNat < b.tm_hour.toNat) = (a.tm_hour < b.tm_hour) from propext (by omega),
    show (a.tm_hour.toNat = b.tm_hour.toNat) = (a.tm_hour = b.tm_hour) from propext (by omega),
    show (a.tm_min.toNat < b.tm_min.toNat) = (a.tm_min < b.tm_min) from propext (by omega),
    show (a.tm_min.toNat = b.tm_min.toNat) = (a.tm_min = b.tm_min) from propext (by omega),
    show (a.tm_sec.toNat < b.tm_sec.toNat) = (a.tm_sec < b.tm_sec) from propext (by omega),
    show (a.tm_sec.toNat = b.tm_sec.toNat) = (a.tm_sec = b.tm_sec) from propext (by omega)]

/-- Whatever is logged starts with the stamp. -/
theorem log_fmt_out (w w' : World) (thr : Nat) (l : Logger.Level) (fmt : List UInt8) (args : List Arg) (t : Clock)
    (hl : l.num ≤ w.log_level) (h : log_fmt w thr l fmt args t = .ok w') : ∃ r, w'.out = w.out ++ (stamp t ++ r) := by
  unfold log_fmt Logger.written at h
  rw [if_pos (by simpa using hl)] at h
  cases e : w.names thr with
  | none =>
    rw [e] at h
    simp only [LOG_FORMAT, List.append_assoc] at h
    rw [printf_stamp, map_map'] at h
    obtain ⟨r, _, h2⟩ := map_inv h
    exact ⟨r.1, by rw [← h2]⟩
  | some p =>
    rw [e] at h
    simp only [] at h
    cases e2 : w.mem p with
    | none => rw [e2] at h; cases h
    | some name =>
      rw [e2] at h
      simp only [LOG_FORMAT, List.append_assoc] at h
      rw [printf_stamp, map_map'] at h
      obtain ⟨r, _, h2⟩ := map_inv h
      exact ⟨r.1, by rw [← h2]⟩

/-! Strings -/

theorem cstr_nul : ∀ (a r : List UInt8), 0 ∉ a → cstr (a ++ 0 :: r) = .ok a := by
  intro a
  induction a with
  | nil => intro r _; rw [List.nil_append, cstr, if_pos rfl]
  | cons c a ih =>
    intro r h
    simp only [List.mem_cons, not_or] at h
    rw [List.cons_append, cstr, if_neg (fun e => h.1 e.symm), ih r h.2]
    rfl

end Verif.LogText
