/-
  C66: log level names.
-/
import Verif.Logger.Model

namespace Verif.Logger

def txt (s : String) : List UInt8 := s.toUTF8.toList

/-- The names of the levels (spelled in ASCII; the examples show the texts). -/
def name : Level → List UInt8
  | .access => [97, 99, 99, 101, 115, 115]
  | .emerg => [101, 109, 101, 114, 103]
  | .alert => [97, 108, 101, 114, 116]
  | .crit => [99, 114, 105, 116]
  | .error => [101, 114, 114, 111, 114]
  | .warn => [119, 97, 114, 110]
  | .notice => [110, 111, 116, 105, 99, 101]
  | .info => [105, 110, 102, 111]
  | .debug => [100, 101, 98, 117, 103]

example : name .access = txt "access" ∧ name .emerg = txt "emerg" ∧ name .alert = txt "alert" ∧ name .crit = txt "crit" ∧ name .error = txt "error" := by decide +kernel
example : name .warn = txt "warn" ∧ name .notice = txt "notice" ∧ name .info = txt "info" ∧ name .debug = txt "debug" := by decide +kernel

/-- ac, al, d, c, em, er, n, w. -/
def starts : List (List UInt8) := [[97, 99], [97, 108], [100], [99], [101, 109], [101, 114], [110], [119]]

example : starts = [txt "ac", txt "al", txt "d", txt "c", txt "em", txt "er", txt "n", txt "w"] := by decide +kernel

/-- Lower case of an ASCII letter. -/
def low (c : UInt8) : UInt8 := if 65 ≤ c ∧ c ≤ 90 then c + 32 else c

theorem two_letters (l : Level) : ∃ a b r, name l = a :: b :: r := by cases l <;> exact ⟨_, _, _, rfl⟩

theorem low_cases : ∀ c : Fin 256, low (UInt8.ofNat c.val) = UInt8.ofNat c.val ∨
    (65 ≤ c.val ∧ c.val ≤ 90 ∧ low (UInt8.ofNat c.val) = UInt8.ofNat (c.val + 32)) := by decide +kernel

/-- the level depends on the first two letters -/
def byTwo (a b : UInt8) : Level :=
  if low a = 97 then (if low b = 99 then .access else if low b = 108 then .alert else .info)
  else if low a = 100 then .debug
  else if low a = 99 then .crit
  else if low a = 101 then (if low b = 109 then .emerg else if low b = 114 then .error else .info)
  else if low a = 110 then .notice
  else if low a = 119 then .warn
  else .info

theorem low_eq : ∀ c : Fin 256, ∀ k : Fin 26, (low (UInt8.ofNat c.val) = UInt8.ofNat (97 + k.val)) ↔
    (UInt8.ofNat c.val = UInt8.ofNat (97 + k.val) ∨ UInt8.ofNat c.val = UInt8.ofNat (65 + k.val)) := by decide +kernel

theorem ofNat_toNat (c : UInt8) : UInt8.ofNat c.toNat = c := by simp

theorem low_iff (c : UInt8) (k : Nat) (hk : k < 26) : (c = UInt8.ofNat (97 + k) ∨ c = UInt8.ofNat (65 + k)) ↔ low c = UInt8.ofNat (97 + k) := by
  have := low_eq ⟨c.toNat, c.toNat_lt⟩ ⟨k, hk⟩
  simp only [ofNat_toNat] at this
  exact this.symm

theorem ifc {α} {p q : Prop} [Decidable p] [Decidable q] (h : p ↔ q) (a b : α) : (if p then a else b) = (if q then a else b) := by
  by_cases hp : p
  · rw [if_pos hp, if_pos (h.mp hp)]
  · rw [if_neg hp, if_neg (fun hq => hp (h.mpr hq))]

theorem log_levels_two (a b : UInt8) (r : List UInt8) : log_levels (a :: b :: r) = .ok (byTwo a b) := by
  have e0 : rd (a :: b :: r) 0 = .ok a := rfl
  have e1 : rd (a :: b :: r) 1 = .ok b := rfl
  unfold log_levels byTwo
  simp only [e0, e1, Res.ok_bind]
  have la : (a = 97 ∨ a = 65) ↔ low a = 97 := low_iff a 0 (by omega)
  have ld : (a = 100 ∨ a = 68) ↔ low a = 100 := low_iff a 3 (by omega)
  have lc : (a = 99 ∨ a = 67) ↔ low a = 99 := low_iff a 2 (by omega)
  have le : (a = 101 ∨ a = 69) ↔ low a = 101 := low_iff a 4 (by omega)
  have li : (a = 105 ∨ a = 73) ↔ low a = 105 := low_iff a 8 (by omega)
  have ln : (a = 110 ∨ a = 78) ↔ low a = 110 := low_iff a 13 (by omega)
  have lw : (a = 119 ∨ a = 87) ↔ low a = 119 := low_iff a 22 (by omega)
  have bc : (b = 99 ∨ b = 67) ↔ low b = 99 := low_iff b 2 (by omega)
  have bl : (b = 108 ∨ b = 76) ↔ low b = 108 := low_iff b 11 (by omega)
  have bm : (b = 109 ∨ b = 77) ↔ low b = 109 := low_iff b 12 (by omega)
  have br : (b = 114 ∨ b = 82) ↔ low b = 114 := low_iff b 17 (by omega)
  rw [ifc la, ifc ld, ifc lc, ifc le, ifc li, ifc ln, ifc lw, ifc bc, ifc bl, ifc bm, ifc br]
  split
  · split
    · rfl
    · split <;> rfl
  · split
    · rfl
    · split
      · rfl
      · split
        · split
          · rfl
          · split <;> rfl
        · split
          · rename_i h8
            have h9 : low a = 105 := h8
            rw [if_neg (by rw [h9]; decide), if_neg (by rw [h9]; decide)]; rfl
          · split
            · rfl
            · split <;> rfl

/-- C66, partial: every level name, in any combination of upper and lower case and with any suffix, yields its level.  Missing: "anything else
yields info", which is false (`C66_refuted`). -/
theorem C66_names_partial (l : Level) (s : List UInt8) (h : name l <+: s.map low) : log_levels s = .ok l := by
  obtain ⟨a, b, r, hn⟩ := two_letters l
  obtain ⟨t, ht⟩ := h
  rw [hn] at ht
  match s, ht with
  | x :: y :: s', ht =>
    simp only [List.cons_append, List.map_cons, List.cons.injEq] at ht
    obtain ⟨hx, hy, _⟩ := ht
    rw [log_levels_two]
    unfold byTwo
    rw [← hx, ← hy]
    cases l <;> (simp only [name] at hn; injection hn with h1 hn; injection hn with h2 _; subst h1; subst h2; rfl)

/-- C66: log_levels never reads past the end of a C string, and yields a level for every C string. -/
theorem C66_no_overread (s : List UInt8) : ∃ l, log_levels (s ++ [0]) = .ok l := by
  match s with
  | [] => exact ⟨.info, rfl⟩
  | [a] => exact ⟨byTwo a 0, log_levels_two a 0 []⟩
  | a :: b :: r => exact ⟨byTwo a b, log_levels_two a b _⟩

/-- C66: a string that yields another level than info starts (in any case) with ac, al, d, c, em, er, n or w.  The converse is
`C66_starts`. -/
theorem C66_others (s : List UInt8) (l : Level) (h : log_levels (s ++ [0]) = .ok l) (hl : l ≠ .info) :
    ∃ p ∈ starts, p <+: s.map low := by
  have key : ∀ a b : UInt8, ∀ r : List UInt8, byTwo a b = l →
      ∃ p ∈ starts, p <+: low a :: low b :: r := by
    intro a b r hb
    unfold byTwo at hb
    split at hb
    · rename_i h1
      split at hb
      · rename_i h2; exact ⟨[97, 99], by simp [starts], by rw [h1, h2]; exact List.prefix_append [97, 99] r⟩
      · split at hb
        · rename_i h2; exact ⟨[97, 108], by simp [starts], by rw [h1, h2]; exact List.prefix_append [97, 108] r⟩
        · exact absurd hb.symm hl
    · split at hb
      · rename_i h1; exact ⟨[100], by simp [starts], by rw [h1]; exact List.prefix_append [100] _⟩
      · split at hb
        · rename_i h1; exact ⟨[99], by simp [starts], by rw [h1]; exact List.prefix_append [99] _⟩
        · split at hb
          · rename_i h1
            split at hb
            · rename_i h2; exact ⟨[101, 109], by simp [starts], by rw [h1, h2]; exact List.prefix_append [101, 109] r⟩
            · split at hb
              · rename_i h2; exact ⟨[101, 114], by simp [starts], by rw [h1, h2]; exact List.prefix_append [101, 114] r⟩
              · exact absurd hb.symm hl
          · split at hb
            · rename_i h1; exact ⟨[110], by simp [starts], by rw [h1]; exact List.prefix_append [110] _⟩
            · split at hb
              · rename_i h1; exact ⟨[119], by simp [starts], by rw [h1]; exact List.prefix_append [119] _⟩
              · exact absurd hb.symm hl
  match s with
  | [] =>
    have : log_levels ([] ++ [0]) = .ok .info := rfl
    rw [this] at h
    simp only [Res.ok.injEq] at h
    exact absurd h.symm hl
  | [a] =>
    rw [show [a] ++ [0] = [a, (0 : UInt8)] from rfl, log_levels_two] at h
    simp only [Res.ok.injEq] at h
    obtain ⟨p, hp, hpre⟩ := key a 0 [] h
    refine ⟨p, hp, ?_⟩
    have h0 : low 0 = 0 := by decide
    rw [h0] at hpre
    simp only [starts, List.mem_cons, List.not_mem_nil, or_false] at hp
    rcases hp with rfl | rfl | rfl | rfl | rfl | rfl | rfl | rfl
    all_goals first
      | (exfalso; obtain ⟨t, ht⟩ := hpre; injection ht with _ ht; injection ht with ht _; exact absurd ht (by decide))
      | (obtain ⟨t, ht⟩ := hpre; injection ht with ht _; exact ⟨[], by rw [List.map_cons, List.map_nil, ← ht]; rfl⟩)
  | a :: b :: r =>
    rw [List.cons_append, List.cons_append, log_levels_two] at h
    simp only [Res.ok.injEq] at h
    exact key a b (r.map low) h

/-- C66: every string that starts (in any case) with one of these yields another level than info. -/
theorem C66_starts (s p : List UInt8) (hp : p ∈ starts) (h : p <+: s.map low) :
    ∃ l, log_levels (s ++ [0]) = .ok l ∧ l ≠ .info := by
  have h0 : low 0 = 0 := by decide
  simp only [starts, List.mem_cons, List.not_mem_nil, or_false] at hp
  match s with
  | [] =>
    obtain ⟨t, ht⟩ := h
    rcases hp with rfl | rfl | rfl | rfl | rfl | rfl | rfl | rfl <;> exact absurd ht (by simp)
  | [a] =>
    refine ⟨byTwo a 0, log_levels_two a 0 [], ?_⟩
    obtain ⟨t, ht⟩ := h
    unfold byTwo
    rw [h0]
    rcases hp with rfl | rfl | rfl | rfl | rfl | rfl | rfl | rfl
    all_goals first
      | (exfalso; injection ht with _ ht; cases ht; done)
      | (injection ht with ht _; rw [← ht]; decide)
  | a :: b :: r =>
    refine ⟨byTwo a b, log_levels_two a b _, ?_⟩
    obtain ⟨t, ht⟩ := h
    unfold byTwo
    rcases hp with rfl | rfl | rfl | rfl | rfl | rfl | rfl | rfl
    all_goals first
      | (injection ht with h1 ht; injection ht with h2 _; rw [← h1, ← h2]; decide)
      | (injection ht with h1 ht; rw [← h1]; simp)

example : name .crit <+: (txt "CRITical").map low ∧ log_levels (txt "CRITical" ++ [0]) = .ok .crit := by decide +kernel

/-- C66 is false: a text that merely starts with the letter of a level name is that level. -/
theorem C66_refuted : log_levels (txt "cool" ++ [0]) = .ok .crit ∧ log_levels (txt "default" ++ [0]) = .ok .debug := by decide +kernel

/-- C66 is false for every text that starts, in any case, with the letters by which a level is told from the others (ac, al, d, c, em, er, n
or w), whatever follows: it is that level, also if it does not start with the name of the level or of any other. -/
theorem C66_refuted_all (l : Level) (s p : List UInt8) (hp : p ∈ starts) (hl : p <+: name l) (h : p <+: s.map low) :
    log_levels (s ++ [0]) = .ok l := by
  have h0 : low 0 = 0 := by decide
  simp only [starts, List.mem_cons, List.not_mem_nil, or_false] at hp
  match s with
  | [] =>
    obtain ⟨t, ht⟩ := h
    rcases hp with rfl | rfl | rfl | rfl | rfl | rfl | rfl | rfl <;> exact absurd ht (by simp)
  | [a] =>
    refine (log_levels_two a 0 []).trans (congrArg _ ?_)
    obtain ⟨t, ht⟩ := h
    unfold byTwo
    rw [h0]
    rcases hp with rfl | rfl | rfl | rfl | rfl | rfl | rfl | rfl
    all_goals first
      | (exfalso; injection ht with _ ht; cases ht; done)
      | (injection ht with ht _; rw [← ht]; revert hl; cases l <;> decide)
  | a :: b :: r =>
    refine (log_levels_two a b _).trans (congrArg _ ?_)
    obtain ⟨t, ht⟩ := h
    unfold byTwo
    rcases hp with rfl | rfl | rfl | rfl | rfl | rfl | rfl | rfl
    all_goals first
      | (injection ht with h1 ht; injection ht with h2 _; rw [← h1, ← h2]; revert hl; cases l <;> decide)
      | (injection ht with h1 ht; rw [← h1]; revert hl; cases l <;> simp [name] <;> decide)

example : [119] ∈ starts ∧ [119] <+: name .warn ∧ [119] <+: (txt "What").map low ∧ ∀ l, ¬ name l <+: (txt "What").map low := by
  refine ⟨by decide, by decide +kernel, by decide +kernel, fun l => ?_⟩
  cases l <;> decide +kernel

/-- The levels, the most important first. -/
def severity : List Level := [.access, .emerg, .alert, .crit, .error, .warn, .notice, .info, .debug]

/-- C66: after a successful log_create_from_str with a level name, exactly the messages of this level and the more important ones are
written; access messages always. -/
theorem C66_filter (l m : Level) (s : List UInt8) (h : name l <+: s.map low) (old : Int) :
    ∃ r, log_create_from_str s old true = .ok r ∧ (written m r.1 = true ↔ severity.idxOf m ≤ severity.idxOf l) ∧ r.2 = 2 := by
  unfold log_create_from_str
  rw [C66_names_partial l s h]
  refine ⟨_, rfl, ?_, rfl⟩
  rw [if_pos rfl]
  clear h old
  cases m <;> cases l <;> decide

/-- C66: a failed log_create_from_str leaves the level as it was. -/
theorem C66_failed (s : List UInt8) (old : Int) (r : Int × Int) (h : log_create_from_str (s ++ [0]) old false = .ok r) : r = (old, -1) := by
  obtain ⟨l, hl⟩ := C66_no_overread s
  unfold log_create_from_str at h
  rw [hl] at h
  simp only [Res.ok_bind] at h
  injection h with h
  exact h.symm

example : log_create_from_str (txt "warn" ++ [0]) 7 true = .ok (5, 2) ∧ written .error 5 = true ∧ written .notice 5 = false := by decide +kernel

end Verif.Logger
