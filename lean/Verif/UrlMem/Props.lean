/-
  C171: URLs when memory runs out.
-/
import Verif.UrlMem.Spec

set_option linter.unusedSimpArgs false

namespace Verif.UrlMem
open Verif.UrlParser Verif.Str

theorem copyFromM_true (h : List (Option Buf)) (u : Obj) : copyFromM true h u = copyFrom h u := by
  simp only [copyFromM, copyFrom, block, if_true]
  split
  · rfl
  · cases u.blk <;> rfl

theorem step_true (s : St) (op : Op) : step s true op = UrlParser.step s op := by
  cases op <;> simp only [step, copyFromM_true, if_true] <;> rfl

theorem step_unneeded {s : St} {σ : Store} {op : Op} (h : Inv s σ) (hn : ¬ Needs σ op) (ok : Bool) : step s ok op = UrlParser.step s op := by
  have hc : ∀ (hp : List (Option Buf)) (u : Obj), u.len = 0 → copyFromM ok hp u = copyFrom hp u := by
    intro hp u hu
    simp only [copyFromM, copyFrom, hu, if_true]
  have ho : ∀ (y : Nat) (u : Obj), σ y = some ([], []) → s.obj y = some u → u.len = 0 := by
    intro y u hy hu
    obtain ⟨o, ho, hown⟩ := h.live y _ hy
    rw [hu] at ho; cases ho
    rcases hown with ⟨-, rfl⟩ | ⟨hne, -⟩
    · rfl
    · exact absurd rfl hne
  cases op with
  | make x u => exact absurd trivial hn
  | copy x y =>
    have hy : σ y = some ([], []) := by simpa [Needs] using hn
    simp only [step, UrlParser.step]
    cases hx : s.obj x with
    | some _ => rfl
    | none =>
      cases hu : s.obj y with
      | none => rfl
      | some u => simp only [hc s.heap u (ho y u hy hu)]
  | assign x y =>
    have hy : σ y = some ([], []) := by simpa [Needs] using hn
    simp only [step, UrlParser.step]
    cases hx : s.obj x with
    | none => rfl
    | some o =>
      cases hu : s.obj y with
      | none => rfl
      | some u => simp only [hc _ u (ho y u hy hu)]
  | new x => rfl
  | reset x => rfl
  | destroy x => rfl

theorem run_inv {s : St} {σ σ' : Store} {ops : List (Bool × Op)} (h : Inv s σ) (r : MRun σ ops σ') : ∃ s', run s ops = .ok s' ∧ Inv s' σ' := by
  induction r generalizing s with
  | nil σ => exact ⟨s, rfl, h⟩
  | @cons σ σ1 σ2 ok op ops hn hs hv _ ih =>
    obtain ⟨s1, e1, h1⟩ := step_inv h hv hs
    have e : step s ok op = .ok s1 := by
      by_cases hN : Needs σ op
      · rw [hn hN, step_true]; exact e1
      · rw [step_unneeded h hN]; exact e1
    obtain ⟨s2, e2, h2⟩ := ih h1
    exact ⟨s2, by simp only [run, e, Res.ok_bind]; exact e2, h2⟩

theorem inv_view {s : St} {σ : Store} (hi : Inv s σ) {x : Nat} {v : List UInt8 × List UInt8} (hx : σ x = some v) : ∃ u, view s x = .ok u ∧ Shows u v := by
  obtain ⟨o, ho, hown⟩ := hi.live x v hx
  rcases hown with ⟨rfl, rfl⟩ | ⟨hne, i, z, rfl, hh⟩
  · exact ⟨.null, by simp [view, ho, Url.null], Or.inl ⟨rfl, rfl⟩⟩
  · exact ⟨_, by simp [view, ho, bytesOf, hh]; rfl, Or.inr ⟨hne, rfl, rfl, rfl, z, by simp⟩⟩

/-- C171 (part): if malloc fails only in calls that store no text, nothing undefined happens and every object has the text and the domain it should have.
Missing: failures of malloc in the other calls, see `C171_refuted_abs`, `C171_refuted_rel`, `C171_refuted_copy`. -/
theorem C171_run_partial (ops : List (Bool × Op)) (σ : Store) (r : MRun (fun _ => none) ops σ) :
    ∃ s, run St.init ops = .ok s ∧ ∀ x v, σ x = some v → ∃ u, view s x = .ok u ∧ Shows u v := by
  obtain ⟨s, e, h⟩ := run_inv inv_init r
  exact ⟨s, e, fun x v hx => inv_view h hx⟩

/-- Memory runs out after the creation: copies of empty objects, assignments from them, failing creations and destructions go on. -/
example (u : Url) (t d : Buf) (hu : Holds u t d) (ht : t ≠ []) :
    ∃ σ, MRun (fun _ => none) [(false, .new 0), (true, .make 0 u), (false, .new 1), (false, .copy 2 1), (true, .assign 1 0), (false, .assign 0 2)] σ ∧
      σ 1 = some (t, d) ∧ σ 0 = some ([], []) :=
  ⟨_, .cons (by simp [Needs]) trivial (.new _ 0 rfl) (.cons (by simp) trivial (.make _ 0 u t d rfl hu ht) (.cons (by simp [Needs]) trivial (.new _ 1 rfl)
    (.cons (by simp [Needs, setVal]) trivial (.copy _ 2 1 ([], []) rfl rfl) (.cons (by simp) (fun h => by cases h) (.assign _ 1 0 (t, d) ([], []) rfl rfl)
    (.cons (by simp [Needs, setVal]) (fun h => by cases h) (.assign _ 0 2 ([], []) (t, d) rfl rfl) (.nil _)))))), rfl, rfl⟩

theorem bind_ok {α β : Type} {r : Res α} {k : α → Res β} {b : β} (h : (r >>= k) = .ok b) : ∃ a, r = .ok a ∧ k a = .ok b := by
  cases r with
  | ok a => exact ⟨a, rfl, h⟩
  | ub => cases h

theorem memcpy_null (s : Buf) (n : Nat) (h : n ≠ 0) (d : Nat) : memcpy [] d s n = .ub := by
  simp only [memcpy]
  rw [if_neg (by simp; omega)]

theorem scheme_null (u : Buf) (sz : Nat) (f : Bool) (h : sz ≠ 0) : create_scheme [] u sz f = .ub := by
  have hub : ∀ y, create_scheme [] u sz f ≠ .ok y := by
    intro y e
    simp only [create_scheme] at e
    obtain ⟨a, -, e⟩ := bind_ok e
    split at e
    · rw [memcpy_null u sz h] at e; cases e
    · obtain ⟨b, -, e⟩ := bind_ok e
      split at e
      · rw [memcpy_null u sz h] at e; cases e
      · rw [memcpy_null httpText 7 (by decide)] at e; cases e
  cases e : create_scheme [] u sz f with
  | ok y => exact absurd e (hub y)
  | ub => rfl

theorem suburl_null (u : Buf) (sz : Nat) (f : Bool) (pv : Buf) (p : Url) (y : Url) : create_suburl [] u sz f pv p ≠ .ok (some y) := by
  intro e
  simp only [create_suburl] at e
  obtain ⟨m, -, e⟩ := bind_ok e
  split at e
  · cases e
  · obtain ⟨j, -, e⟩ := bind_ok e
    split at e
    · cases e
    · obtain ⟨c, -, e⟩ := bind_ok e
      split at e
      · cases e
      · obtain ⟨s4, -, e⟩ := bind_ok e
        obtain ⟨n, -, e⟩ := bind_ok e
        obtain ⟨sl, -, e⟩ := bind_ok e
        cases sl with
        | none => cases e
        | some sl =>
          obtain ⟨h, -, e⟩ := bind_ok e
          obtain ⟨q, hq, e⟩ := bind_ok e
          have hq0 : q ≠ 0 := by
            simp only [pubLen] at hq
            split at hq
            · obtain ⟨k, -, hq⟩ := bind_ok hq
              obtain ⟨r, -, hq⟩ := bind_ok hq
              cases r with
              | none => cases hq
              | some r => cases hq; omega
            · cases hq
              split <;> omega
          rw [memcpy_null pv q hq0] at e
          cases e

/-- Whether the reference is rejected does not depend on the block. -/
theorem suburl_none {b b' u : Buf} {sz : Nat} {f : Bool} {pv : Buf} {p y : Url} (e : create_suburl b u sz f pv p = .ok (some y)) :
    create_suburl b' u sz f pv p ≠ .ok none := by
  intro e'
  simp only [create_suburl] at e e'
  obtain ⟨m, hm, e⟩ := bind_ok e
  rw [hm, Res.ok_bind] at e'
  split at e
  · cases e
  · rename_i h1
    rw [if_neg h1] at e'
    obtain ⟨j, hj, e⟩ := bind_ok e
    rw [hj, Res.ok_bind] at e'
    split at e
    · cases e
    · rename_i h2
      rw [if_neg h2] at e'
      obtain ⟨c, hc, e⟩ := bind_ok e
      rw [hc, Res.ok_bind] at e'
      split at e
      · cases e
      · rename_i h3
        rw [if_neg h3] at e'
        obtain ⟨s4, -, e'⟩ := bind_ok e'
        obtain ⟨n, -, e'⟩ := bind_ok e'
        obtain ⟨sl, -, e'⟩ := bind_ok e'
        cases sl with
        | none => cases e'
        | some sl =>
          obtain ⟨h, -, e'⟩ := bind_ok e'
          obtain ⟨q, hq, e'⟩ := bind_ok e'
          obtain ⟨b1, hb1, e'⟩ := bind_ok e'
          obtain ⟨b2, hb2, e'⟩ := bind_ok e'
          obtain ⟨z, hz, e'⟩ := bind_ok e'
          cases e'

/-- C171 is refuted: whenever memory runs out in create_absolute, whatever text (of at least one byte) is given, the behaviour is undefined. -/
theorem C171_refuted_abs (x : Url) (hx : x.empty = true) (u : Buf) (sz : Nat) (h : 0 < sz) (f : Flags) : createAbs noMemory x (some u) sz f = .ub := by
  simp only [createAbs, create_absolute, hx, noMemory, block]
  rw [if_neg (by simp; omega), scheme_null u sz _ (by omega)]
  rfl

/-- C171 is refuted: create_relative never succeeds without memory; where it would have succeeded with memory, the behaviour is undefined. -/
theorem C171_refuted_rel (x : Url) (u : Option Buf) (sz : Nat) (f : Flags) (p : Url) (m : Nat → Option Buf) (y : Url) (e : createRel m x u sz f p = .ok (0, y)) :
    createRel noMemory x u sz f p = .ub := by
  simp only [createRel, create_relative] at e ⊢
  cases u with
  | none => cases e
  | some u =>
    simp only at e ⊢
    split at e
    · cases e
    · rename_i hc
      rw [if_neg hc]
      have hsz : sz ≠ 0 := by rintro rfl; simp at hc
      cases hp : p.val with
      | none => rfl
      | some pv =>
        simp only [hp] at e ⊢
        simp only [noMemory, block]
        obtain ⟨s, hs, e⟩ := bind_ok e
        rw [hs, Res.ok_bind]
        cases s with
        | true =>
          simp only [if_true]
          rw [scheme_null u sz _ hsz]
          rfl
        | false =>
          simp only [Bool.false_eq_true, if_false] at e ⊢
          obtain ⟨r, hr, e⟩ := bind_ok e
          cases r with
          | none => cases e
          | some y' =>
            cases e2 : create_suburl [] u sz f.fetchable pv p with
            | ub => rfl
            | ok r2 =>
              cases r2 with
              | some y2 => exact absurd e2 (suburl_null _ _ _ _ _ _)
              | none => exact absurd e2 (suburl_none hr)

/-- A reference that is rejected is rejected whatever the block is. -/
theorem suburl_rejects {b b' u : Buf} {sz : Nat} {f : Bool} {pv : Buf} {p : Url} (e : create_suburl b u sz f pv p = .ok none) :
    create_suburl b' u sz f pv p = .ok none := by
  simp only [create_suburl] at e ⊢
  obtain ⟨m, hm, e⟩ := bind_ok e
  rw [hm, Res.ok_bind]
  split at e
  · rename_i h; rw [if_pos h]
  · rename_i h1
    rw [if_neg h1]
    obtain ⟨j, hj, e⟩ := bind_ok e
    rw [hj, Res.ok_bind]
    split at e
    · rename_i h; rw [if_pos h]
    · rename_i h2
      rw [if_neg h2]
      obtain ⟨c, hc, e⟩ := bind_ok e
      rw [hc, Res.ok_bind]
      split at e
      · rename_i h; rw [if_pos h]
      · obtain ⟨s4, -, e⟩ := bind_ok e
        obtain ⟨n, -, e⟩ := bind_ok e
        obtain ⟨sl, -, e⟩ := bind_ok e
        cases sl with
        | none => cases e
        | some sl =>
          obtain ⟨h, -, e⟩ := bind_ok e
          obtain ⟨q, hq, e⟩ := bind_ok e
          obtain ⟨b1, hb1, e⟩ := bind_ok e
          obtain ⟨b2, hb2, e⟩ := bind_ok e
          obtain ⟨z, hz, e⟩ := bind_ok e
          cases e

/-- C171 (part): calls that fail for another reason fail in the same way without memory: every failing create_absolute, and every failing create_relative
whose text has no scheme (for the others see `C171_refuted_subdomain`). -/
theorem C171_fails_partial (m m' : Nat → Option Buf) (x : Url) (u : Option Buf) (sz : Nat) (f : Flags) (p y : Url) (r : Int) (hr : r ≠ 0) :
    (createAbs m x u sz f = .ok (r, y) → createAbs m' x u sz f = .ok (-1, .null)) ∧
    ((∀ v, u = some v → hasScheme v = .ok false) → createRel m x u sz f p = .ok (r, y) → createRel m' x u sz f p = .ok (-1, .null)) := by
  constructor
  · intro e
    simp only [createAbs, create_absolute] at e ⊢
    cases u with
    | none => rfl
    | some u =>
      simp only at e ⊢
      split at e
      · rename_i h; rw [if_pos h]
      · obtain ⟨z, -, e⟩ := bind_ok e
        cases e; exact absurd rfl hr
  · intro hs e
    simp only [createRel, create_relative] at e ⊢
    cases u with
    | none => rfl
    | some u =>
      simp only at e ⊢
      split at e
      · rename_i h; rw [if_pos h]
      · rename_i hc
        rw [if_neg hc]
        cases hp : p.val with
        | none => simp only [hp] at e; cases e
        | some pv =>
          simp only [hp, hs u rfl, Res.ok_bind, Bool.false_eq_true, if_false] at e ⊢
          obtain ⟨r', hr', e⟩ := bind_ok e
          cases r' with
          | none => rw [suburl_rejects hr']; rfl
          | some z => cases e; exact absurd rfl hr

/-- `mailto:` without a byte of memory. -/
example : (match createRel noMemory .null (some (bytes "mailto:me" ++ [0])) 9 ⟨false, false⟩ (exampleUrl "http://www.host.com/d/e" "host.com") with
    | .ok (r, y) => decide (r = -1) && y.empty
    | .ub => false) = true := by decide +kernel

/-- C171 is refuted: a text whose domain is to be compared is created first, so that even a call that should fail is undefined without memory. -/
theorem C171_refuted_subdomain (x : Url) (hx : x.empty = true) (u : Buf) (hu : hasScheme u = .ok true) (sz : Nat) (h : 0 < sz) (f : Flags) (p : Url) (hp : p.empty = false) :
    createRel noMemory x (some u) sz f p = .ub := by
  simp only [createRel, create_relative, hx, hp, noMemory, block]
  rw [if_neg (by simp; omega)]
  cases p.val with
  | none => rfl
  | some pv =>
    simp only [hu, Res.ok_bind, if_true]
    rw [scheme_null u sz _ (by omega)]
    rfl

example : hasScheme (bytes "http://host.org/x" ++ [0]) = .ok true := by decide +kernel

/-- C171 is refuted: after any run in which memory was there when it was needed, a copy or an assignment of any object that is not empty is undefined if malloc fails. -/
theorem C171_refuted_copy (ops : List (Bool × Op)) (σ : Store) (r : MRun (fun _ => none) ops σ) (s : St) (e : run St.init ops = .ok s)
    (x y : Nat) (v : List UInt8 × List UInt8) (hy : σ y = some v) (hv : v ≠ ([], [])) :
    (σ x = none → step s false (.copy x y) = .ub) ∧ (∀ w, σ x = some w → step s false (.assign x y) = .ub) := by
  obtain ⟨s', e', h⟩ := run_inv inv_init r
  rw [e] at e'; cases e'
  obtain ⟨o, ho, hown⟩ := h.live y v hy
  rcases hown with ⟨rfl, -⟩ | ⟨hne, i, z, rfl, hi⟩
  · exact absurd rfl hv
  · have hl : v.1.length ≠ 0 := by simpa using hne
    have hub : ∀ hp, copyFromM false hp ⟨some i, v.1.length, v.1.length + 1, v.2.length⟩ = .ub := by
      intro hp
      simp only [copyFromM]
      rw [if_neg hl]
      cases bytesOf hp i with
      | ub => rfl
      | ok b =>
        simp only [Res.ok_bind, Bool.false_eq_true, if_false, block]
        rw [memcpy_null _ _ (by omega)]
        rfl
    constructor
    · intro hx
      simp only [step, h.dead x hx, ho]
      rw [hub]; rfl
    · intro w hx
      obtain ⟨ox, hox, -⟩ := h.live x w hx
      simp only [step, hox, ho]
      cases release s.heap ox with
      | ub => rfl
      | ok hp => simp only [Res.ok_bind]; rw [hub]; rfl

example : (match run St.init [(true, .new 0), (true, .make 0 (exampleUrl "http://www.host.com/d/e" "host.com")), (true, .new 1)] with
    | .ok s => (match step s false (.assign 1 0), step s true (.assign 1 0) with
      | .ub, .ok _ => true
      | _, _ => false)
    | .ub => false) = true := by decide +kernel

end Verif.UrlMem
