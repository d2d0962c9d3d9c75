import Verif.MapSys.Sim
/-
  The system is simulated by the atomic map: a call takes effect when its process releases the lock (or is killed).
-/
set_option linter.unusedVariables false
set_option linter.unusedSimpArgs false

namespace Verif.MapSys

open Verif.ShmPool Verif.ShmMap

variable {V : Type} {N H : Nat}

section low

open RwLock

variable {M L : Type} {wb : M → L → M × L} {rb : M → L → L} {s s' : RwLock.State M L} {i : Nat}

theorem get_some (h : RwLock.step wb rb s (.get i) = some s') : ∃ p, s.procs[i]? = some p ∧ p.mode = .fresh ∧ s' = s.upd i { p with mode := .out } := by
  simp only [RwLock.step] at h
  cases hp : s.procs[i]? with
  | none => simp [hp] at h
  | some p =>
    simp only [hp] at h
    split at h
    · rename_i hc; cases h; exact ⟨p, rfl, hc.1, rfl⟩
    · cases h

theorem lockR_some {l : L} (h : RwLock.step wb rb s (.lockR i l) = some s') : ∃ p v adj, s.procs[i]? = some p ∧ p.mode = .out ∧ s' = { s with sem := v }.upd i ⟨.reading, l, adj⟩ := by
  simp only [RwLock.step] at h
  cases hp : s.procs[i]? with
  | none => simp [hp] at h
  | some p =>
    simp only [hp] at h
    split at h
    · rename_i hc
      obtain ⟨v, adj, rfl⟩ := doSem_some h
      exact ⟨p, v, adj, rfl, hc, rfl⟩
    · cases h

theorem lockW_some {l : L} (h : RwLock.step wb rb s (.lockW i l) = some s') : ∃ p v adj, s.procs[i]? = some p ∧ p.mode = .out ∧ s' = { s with sem := v }.upd i ⟨.writing, l, adj⟩ := by
  simp only [RwLock.step] at h
  cases hp : s.procs[i]? with
  | none => simp [hp] at h
  | some p =>
    simp only [hp] at h
    split at h
    · rename_i hc
      obtain ⟨v, adj, rfl⟩ := doSem_some h
      exact ⟨p, v, adj, rfl, hc, rfl⟩
    · cases h

theorem body_some (h : RwLock.step wb rb s (.body i) = some s') : ∃ p, s.procs[i]? = some p ∧
    ((p.mode = .writing ∧ s' = { s with mem := (wb s.mem p.loc).1 }.upd i { p with loc := (wb s.mem p.loc).2 }) ∨
      (p.mode = .reading ∧ s' = s.upd i { p with loc := rb s.mem p.loc })) := by
  simp only [RwLock.step] at h
  cases hp : s.procs[i]? with
  | none => simp [hp] at h
  | some p =>
    simp only [hp] at h
    split at h
    · rename_i hc; cases h; exact ⟨p, rfl, Or.inl ⟨hc, rfl⟩⟩
    · split at h
      · rename_i hc; cases h; exact ⟨p, rfl, Or.inr ⟨hc, rfl⟩⟩
      · cases h

theorem unlock_some (h : RwLock.step wb rb s (.unlock i) = some s') : ∃ p v adj, s.procs[i]? = some p ∧ (p.mode = .writing ∨ p.mode = .reading) ∧
    s' = { s with sem := v }.upd i ⟨.out, p.loc, adj⟩ := by
  simp only [RwLock.step] at h
  cases hp : s.procs[i]? with
  | none => simp [hp] at h
  | some p =>
    simp only [hp] at h
    split at h
    · rename_i hc
      obtain ⟨v, adj, rfl⟩ := doSem_some h
      exact ⟨p, v, adj, rfl, Or.inl hc, rfl⟩
    · split at h
      · rename_i hc
        obtain ⟨v, adj, rfl⟩ := doSem_some h
        exact ⟨p, v, adj, rfl, Or.inr hc, rfl⟩
      · cases h

theorem kill_some (h : RwLock.step wb rb s (.kill i) = some s') : ∃ p v, s.procs[i]? = some p ∧ s' = { s with sem := v }.upd i { p with mode := .dead, adj := ⟨0, 0⟩ } := by
  simp only [RwLock.step] at h
  cases hp : s.procs[i]? with
  | none => simp [hp] at h
  | some p =>
    simp only [hp] at h
    split at h
    · cases h
    · cases h; exact ⟨p, _, rfl, rfl⟩

theorem spawn_some (h : RwLock.step wb rb s (.spawn i) = some s') : ∃ p, s.procs[i]? = some p ∧ p.mode = .dead ∧ s' = s.upd i { p with mode := .fresh } := by
  simp only [RwLock.step] at h
  cases hp : s.procs[i]? with
  | none => simp [hp] at h
  | some p =>
    simp only [hp] at h
    split at h
    · rename_i hc; cases h; exact ⟨p, rfl, hc, rfl⟩
    · cases h

theorem upd_same {p q : RwLock.Proc L} (h : s.procs[i]? = some p) : (s.upd i q).procs[i]? = some q := by
  have hi : i < s.procs.length := (List.getElem?_eq_some_iff.mp h).1
  simp [State.upd, hi]

theorem upd_other {q : RwLock.Proc L} {j : Nat} (h : j ≠ i) : (s.upd i q).procs[j]? = s.procs[j]? := by
  simp only [State.upd]
  rw [List.getElem?_set, if_neg (fun e => h e.symm)]

end low

/-- The process is in a critical section. -/
def inSection (p : RwLock.Proc (Loc V)) : Prop := p.mode = .writing ∨ p.mode = .reading

/-- What is known of one process: its pending call, its status in the atomic map, and where it is. -/
def Ok (N H : Nat) (a : Spec.State V) (m : Map V) : Pend V → Spec.Status V → Option (RwLock.Proc (Loc V)) → Prop
  | .idle, st, p => st = .out ∧ ∀ q, p = some q → ¬ inSection q
  | .called c, st, p => st = .before c ∧ ∃ q, p = some q ∧
      (q.mode = .out ∨ (q.mode = .writing ∧ c.reads = false ∧ Within N H a c m q.loc) ∨ (q.mode = .reading ∧ c.reads = true ∧ Within N H a c m q.loc))
  | .returning r, st, p => st = .after r ∧ ∃ q, p = some q ∧ q.mode = .out

structure Sim (N H : Nat) (s : Sys V) (a : Spec.State V) : Prop where
  inv : RwLock.Inv s.rw
  ok : ∀ i, Ok N H a s.rw.mem (s.pend i) (a.st i) (s.rw.procs[i]?)
  rep : (∀ (i : Nat) (p : RwLock.Proc (Loc V)), s.rw.procs[i]? = some p → p.mode ≠ .writing) → ∃ f fr, Rep N H s.rw.mem f fr a.lost a.map

theorem within_congr {a a' : Spec.State V} {c : Call V} {m : Map V} {l : Loc V} (h1 : a'.map = a.map) (h2 : a'.lost = a.lost) (h : Within N H a c m l) : Within N H a' c m l := by
  obtain ⟨k, h⟩ := h
  refine ⟨k, ?_⟩
  cases h with
  | between hp b hb =>
    refine .between hp ⟨b.ops, ?_, ?_, ?_, ?_⟩ hb <;> rw [h1, h2]
    · exact b.rep
    · exact b.last
    · exact b.cnt
    · exact b.rets
  | during d hb =>
    refine .during ⟨d.ops, ?_, ?_, d.writes, d.done, d.rest, ?_, d.track, ?_, ?_, ?_⟩ hb <;> rw [h1, h2]
    · exact d.rep0
    · exact d.rep1
    · exact d.path
    · exact d.last
    · exact d.cnt
    · exact d.rets

theorem ok_congr {a a' : Spec.State V} {m : Map V} {x : Pend V} {st : Spec.Status V} {p : Option (RwLock.Proc (Loc V))} (h1 : a'.map = a.map) (h2 : a'.lost = a.lost) (h : Ok N H a m x st p) :
    Ok N H a' m x st p := by
  cases x with
  | idle => exact h
  | returning r => exact h
  | called c =>
    obtain ⟨h, q, hq, hm⟩ := h
    refine ⟨h, q, hq, ?_⟩
    rcases hm with hm | ⟨hm, hc, hi⟩ | ⟨hm, hc, hi⟩
    · exact Or.inl hm
    · exact Or.inr (Or.inl ⟨hm, hc, within_congr h1 h2 hi⟩)
    · exact Or.inr (Or.inr ⟨hm, hc, within_congr h1 h2 hi⟩)

/-- A process outside does not depend on the memory. -/
theorem ok_outside {a a' : Spec.State V} {m m' : Map V} {x : Pend V} {st : Spec.Status V} {p : Option (RwLock.Proc (Loc V))} (h : Ok N H a m x st p) (hp : ∀ q, p = some q → ¬ inSection q) :
    Ok N H a' m' x st p := by
  cases x with
  | idle => exact h
  | returning r => exact h
  | called c =>
    obtain ⟨h, q, hq, hm⟩ := h
    refine ⟨h, q, hq, Or.inl ?_⟩
    rcases hm with hm | ⟨hm, _⟩ | ⟨hm, _⟩
    · exact hm
    · exact absurd (Or.inl hm) (hp q hq)
    · exact absurd (Or.inr hm) (hp q hq)

/-- When one process writes, every other is outside. -/
theorem excl {s : RwLock.State (Map V) (Loc V)} (hinv : RwLock.Inv s) {i j : Nat} {p : RwLock.Proc (Loc V)} (hp : s.procs[i]? = some p) (hm : p.mode = .writing) (hij : j ≠ i)
    (q : RwLock.Proc (Loc V)) (hq : s.procs[j]? = some q) : ¬ inSection q := by
  have := RwLock.inv_excl hinv hp hq (fun e => hij e.symm) hm
  rintro (h | h)
  · exact this.1 h
  · exact this.2 h

/-- A kill at this place leaves the map usable. -/
def SafeKill (H : Nat) (s : Sys V) : Act V → Prop
  | .kill i => ∀ p, s.rw.procs[i]? = some p → p.mode = .writing → ¬ p.loc.pc.fragile H
  | _ => True

theorem set_same' (a : Spec.State V) (i : Nat) (x : Spec.Status V) : (a.set i x).st i = x := by simp [Spec.State.set]
theorem set_other' (a : Spec.State V) {i j : Nat} (x : Spec.Status V) (h : j ≠ i) : (a.set i x).st j = a.st j := by simp [Spec.State.set, h]
theorem pend_same (s : Sys V) (i : Nat) (x : Pend V) : (s.setPend i x).pend i = x := by simp [Sys.setPend]
theorem pend_other (s : Sys V) {i j : Nat} (x : Pend V) (h : j ≠ i) : (s.setPend i x).pend j = s.pend j := by simp [Sys.setPend, h]

theorem low_some {s s' : Sys V} {a : RwLock.Label (Loc V)} (h : s.low N H a = some s') : ∃ rw, RwLock.step (wbody N H) (rbody N H) s.rw a = some rw ∧ s' = { s with rw := rw } := by
  unfold Sys.low at h
  rw [Option.map_eq_some_iff] at h
  obtain ⟨rw, h1, h2⟩ := h
  exact ⟨rw, h1, h2.symm⟩

theorem map_some' {α β} {x : Option α} {f : α → β} {y : β} (h : x.map f = some y) : ∃ z, x = some z ∧ y = f z := by
  rw [Option.map_eq_some_iff] at h
  obtain ⟨z, h1, h2⟩ := h
  exact ⟨z, h1, h2.symm⟩

theorem sim_step (hN : N < NONE) (hH : 0 < H) {s s' : Sys V} {a : Spec.State V} {x : Act V} {es : List (Event V)} (h : Sim N H s a) (hk : SafeKill H s x) (hs : step N H s x = some (s', es)) :
    ∃ a', Sim N H s' a' ∧ ∀ es', Spec.Atomic N a' es' → Spec.Atomic N a (es ++ es') := by
  cases x with
  | connect i =>
    simp only [step] at hs
    obtain ⟨s1, h1, h2⟩ := map_some' hs
    cases h2
    obtain ⟨rw', e, rfl⟩ := low_some h1
    obtain ⟨p, hp, hm, rfl⟩ := get_some e
    refine ⟨a, ⟨RwLock.inv_step h.inv e, ?_, ?_⟩, fun es' he => he⟩
    · intro j
      by_cases hj : j = i
      · subst hj
        have := h.ok j
        rw [hp] at this
        rw [upd_same hp]
        cases hx : s.pend j with
        | idle => rw [hx] at this; exact ⟨this.1, by rintro q hq; cases hq; rintro (h | h) <;> cases h⟩
        | called c => rw [hx] at this; obtain ⟨_, q, hq, hm'⟩ := this; cases hq; rw [hm] at hm'; simp at hm'
        | returning r => rw [hx] at this; obtain ⟨_, q, hq, hm'⟩ := this; cases hq; rw [hm] at hm'; cases hm'
      · rw [upd_other hj]; exact h.ok j
    · intro hw
      refine h.rep ?_
      intro j q hq
      by_cases hj : j = i
      · subst hj; rw [hp] at hq; cases hq; rw [hm]; simp
      · exact hw j q (by rw [upd_other hj]; exact hq)
  | call i c =>
    simp only [step] at hs
    cases hx : s.pend i with
    | called c' => rw [hx] at hs; cases hs
    | returning r => rw [hx] at hs; cases hs
    | idle =>
      rw [hx] at hs
      simp only at hs
      split at hs
      · rename_i hm
        cases hs
        have hi := h.ok i
        rw [hx] at hi
        refine ⟨a.set i (.before c), ⟨h.inv, ?_, h.rep⟩, fun es' he => .call hi.1 he⟩
        intro j
        by_cases hj : j = i
        · subst hj
          rw [set_same', pend_same]
          unfold RwLock.State.mode at hm
          rw [Option.map_eq_some_iff] at hm
          obtain ⟨p, hp, hm⟩ := hm
          exact ⟨rfl, p, hp, Or.inl hm⟩
        · rw [set_other' _ _ hj, pend_other _ _ hj]
          exact ok_congr (a := a) rfl rfl (h.ok j)
      · cases hs
  | lock i =>
    simp only [step] at hs
    cases hx : s.pend i with
    | idle => rw [hx] at hs; cases hs
    | returning r => rw [hx] at hs; cases hs
    | called c =>
      rw [hx] at hs
      simp only at hs
      obtain ⟨s1, h1, h2⟩ := map_some' hs
      cases h2
      obtain ⟨rw', e, rfl⟩ := low_some h1
      have hi := h.ok i
      rw [hx] at hi
      have hinv' := RwLock.inv_step h.inv e
      cases hc : c.reads with
      | true =>
        rw [hc, if_pos rfl] at e
        obtain ⟨p, v, adj, hp, hm, rfl⟩ := lockR_some e
        have hnw : ∀ (j : Nat) (q : RwLock.Proc (Loc V)), s.rw.procs[j]? = some q → q.mode ≠ .writing := by
          intro j q hq hw
          by_cases hj : j = i
          · subst hj; rw [hp] at hq; cases hq; rw [hm] at hw; cases hw
          · have := excl hinv' (i := j) (j := i) (p := q) (by rw [upd_other hj]; exact hq) hw (fun e => hj e.symm) _ (upd_same hp)
            exact this (Or.inr rfl)
        obtain ⟨f, fr, hrep⟩ := h.rep hnw
        refine ⟨a, ⟨hinv', ?_, fun _ => ⟨f, fr, hrep⟩⟩, fun es' he => he⟩
        intro j
        by_cases hj : j = i
        · subst hj
          rw [hx, upd_same (s := { s.rw with sem := v }) hp]
          exact ⟨hi.1, _, rfl, Or.inr (Or.inr ⟨rfl, hc, within_begin hrep⟩)⟩
        · rw [upd_other hj]; exact h.ok j
      | false =>
        rw [hc, if_neg (by decide)] at e
        obtain ⟨p, v, adj, hp, hm, rfl⟩ := lockW_some e
        have hnw : ∀ (j : Nat) (q : RwLock.Proc (Loc V)), s.rw.procs[j]? = some q → q.mode ≠ .writing := by
          intro j q hq hw
          by_cases hj : j = i
          · subst hj; rw [hp] at hq; cases hq; rw [hm] at hw; cases hw
          · have := excl hinv' (i := j) (j := i) (p := q) (by rw [upd_other hj]; exact hq) hw (fun e => hj e.symm) _ (upd_same hp)
            exact this (Or.inl rfl)
        obtain ⟨f, fr, hrep⟩ := h.rep hnw
        refine ⟨a, ⟨hinv', ?_, fun _ => ⟨f, fr, hrep⟩⟩, fun es' he => he⟩
        intro j
        by_cases hj : j = i
        · subst hj
          rw [hx, upd_same (s := { s.rw with sem := v }) hp]
          exact ⟨hi.1, _, rfl, Or.inr (Or.inl ⟨rfl, hc, within_begin hrep⟩)⟩
        · rw [upd_other hj]; exact h.ok j
  | body i =>
    simp only [step] at hs
    obtain ⟨s1, h1, h2⟩ := map_some' hs
    cases h2
    obtain ⟨rw', e, rfl⟩ := low_some h1
    have hinv' := RwLock.inv_step h.inv e
    obtain ⟨p, hp, hcase⟩ := body_some e
    have hi := h.ok i
    rw [hp] at hi
    have hcalled : inSection p → ∃ c, s.pend i = .called c := by
      intro hsec
      cases hx : s.pend i with
      | idle => rw [hx] at hi; exact absurd hsec (hi.2 p rfl)
      | called c => exact ⟨c, rfl⟩
      | returning r =>
        rw [hx] at hi
        obtain ⟨_, q, hq, hm⟩ := hi
        cases hq
        rcases hsec with h' | h' <;> rw [hm] at h' <;> cases h'
    rcases hcase with ⟨hm, rfl⟩ | ⟨hm, rfl⟩
    · obtain ⟨c, hx⟩ := hcalled (Or.inl hm)
      rw [hx] at hi
      obtain ⟨hst, q, hq, hmode⟩ := hi
      cases hq
      have hin : c.reads = false ∧ Within N H a c s.rw.mem p.loc := by
        rcases hmode with hm' | ⟨_, h1, h2⟩ | ⟨hm', _⟩
        · rw [hm] at hm'; cases hm'
        · exact ⟨h1, h2⟩
        · rw [hm] at hm'; cases hm'
      refine ⟨a, ⟨hinv', ?_, ?_⟩, fun es' he => he⟩
      · intro j
        by_cases hj : j = i
        · subst hj
          rw [hx, upd_same (s := { s.rw with mem := (wbody N H s.rw.mem p.loc).1 }) hp]
          exact ⟨hst, _, rfl, Or.inr (Or.inl ⟨hm, hin.1, within_step hN hH hin.2⟩)⟩
        · rw [upd_other hj]
          exact ok_outside (h.ok j) (fun q hq => excl h.inv hp hm hj q hq)
      · intro hw
        exact absurd hm (hw i { p with loc := (wbody N H s.rw.mem p.loc).2 } (upd_same (s := { s.rw with mem := (wbody N H s.rw.mem p.loc).1 }) hp))
    · obtain ⟨c, hx⟩ := hcalled (Or.inr hm)
      rw [hx] at hi
      obtain ⟨hst, q, hq, hmode⟩ := hi
      cases hq
      have hin : c.reads = true ∧ Within N H a c s.rw.mem p.loc := by
        rcases hmode with hm' | ⟨hm', _⟩ | ⟨_, h1, h2⟩
        · rw [hm] at hm'; cases hm'
        · rw [hm] at hm'; cases hm'
        · exact ⟨h1, h2⟩
      have hnext := within_step hN hH hin.2
      rw [reads_step hN hH hin.2.choose_spec hin.1] at hnext
      refine ⟨a, ⟨hinv', ?_, ?_⟩, fun es' he => he⟩
      · intro j
        by_cases hj : j = i
        · subst hj
          rw [hx, upd_same hp]
          exact ⟨hst, _, rfl, Or.inr (Or.inr ⟨hm, hin.1, hnext⟩)⟩
        · rw [upd_other hj]; exact h.ok j
      · intro hw
        refine h.rep ?_
        intro j q hq
        by_cases hj : j = i
        · subst hj; rw [hp] at hq; cases hq; rw [hm]; simp
        · exact hw j q (by rw [upd_other hj]; exact hq)
  | unlock i =>
    simp only [step] at hs
    cases hx : s.pend i with
    | idle => rw [hx] at hs; cases hs
    | returning r => rw [hx] at hs; cases hs
    | called c =>
      have hi := h.ok i
      rw [hx] at hi
      obtain ⟨hst, p, hp, hmode⟩ := hi
      rw [hx, hp] at hs
      simp only at hs
      split at hs
      · rename_i hfin
        obtain ⟨s1, h1, h2⟩ := map_some' hs
        cases h2
        obtain ⟨rw', e, rfl⟩ := low_some h1
        have hinv' := RwLock.inv_step h.inv e
        obtain ⟨q, v, adj, hq, hm, rfl⟩ := unlock_some e
        rw [hp] at hq
        cases hq
        have hin : Within N H a c s.rw.mem p.loc := by
          rcases hmode with hm' | ⟨_, _, h2⟩ | ⟨_, _, h2⟩
          · rcases hm with h | h <;> rw [hm'] at h <;> cases h
          · exact h2
          · exact h2
        obtain ⟨hrep, hres⟩ := inside_end hin.choose_spec hfin
        refine ⟨(a.effect N c).set i (.after (a.result N c)), ⟨hinv', ?_, fun _ => hrep⟩, fun es' he => .effect hst he⟩
        intro j
        by_cases hj : j = i
        · subst hj
          rw [set_same', pend_same]
          refine ⟨by rw [hres], _, upd_same (s := { s.rw with sem := v }) hp, rfl⟩
        · rw [set_other' _ _ hj, pend_other _ _ hj]
          refine Eq.subst (motive := fun z => Ok N H _ _ _ _ z) (upd_other (s := { s.rw with sem := v }) hj).symm ?_
          have hj' := h.ok j
          rcases hmode with hm' | ⟨hm', _⟩ | ⟨hm', hr, _⟩
          · rcases hm with h | h <;> rw [hm'] at h <;> cases h
          · exact ok_outside hj' (fun q hq => excl h.inv hp hm' hj q hq)
          · have := reads_steps hr N a.lost a.map
            exact ok_congr this.1 this.2 hj'
      · cases hs
  | ret i =>
    simp only [step] at hs
    cases hx : s.pend i with
    | idle => rw [hx] at hs; cases hs
    | called c => rw [hx] at hs; cases hs
    | returning r =>
      rw [hx] at hs
      simp only at hs
      cases hs
      have hi := h.ok i
      rw [hx] at hi
      obtain ⟨hst, p, hp, hm⟩ := hi
      refine ⟨a.set i .out, ⟨h.inv, ?_, h.rep⟩, fun es' he => .ret hst he⟩
      intro j
      by_cases hj : j = i
      · subst hj
        rw [set_same', pend_same]
        refine ⟨rfl, ?_⟩
        intro q hq
        have hq' : some p = some q := hp.symm.trans hq
        cases hq'
        rintro (h' | h') <;> rw [hm] at h' <;> cases h'
      · rw [set_other' _ _ hj, pend_other _ _ hj]
        exact ok_congr (a := a) rfl rfl (h.ok j)
  | kill i =>
    simp only [step] at hs
    obtain ⟨s1, h1, h2⟩ := map_some' hs
    cases h2
    obtain ⟨rw', e, rfl⟩ := low_some h1
    have hinv' := RwLock.inv_step h.inv e
    obtain ⟨p, v, hp, rfl⟩ := kill_some e
    have hi := h.ok i
    have hdead : ∀ a' : Spec.State V, Ok N H a' s.rw.mem .idle .out (some { p with mode := .dead, adj := ⟨0, 0⟩ }) := by
      intro a'
      refine ⟨rfl, ?_⟩
      rintro q hq
      cases hq
      rintro (h' | h') <;> cases h'
    -- the general shape: the abstract map becomes that of `a'`
    have fin : ∀ a' : Spec.State V, a'.st = a.st → (∀ j, j ≠ i → Ok N H a' s.rw.mem (s.pend j) (a.st j) (s.rw.procs[j]?)) →
        ((∀ j q, j ≠ i → s.rw.procs[j]? = some q → q.mode ≠ .writing) → ∃ f fr, Rep N H s.rw.mem f fr a'.lost a'.map) →
        Sim N H (({ s with rw := { s.rw with sem := v }.upd i { p with mode := .dead, adj := ⟨0, 0⟩ } } : Sys V).setPend i .idle) (a'.set i .out) := by
      intro a' hst hok hrep
      refine ⟨hinv', ?_, ?_⟩
      · intro j
        by_cases hj : j = i
        · subst hj
          rw [set_same', pend_same]
          refine Eq.subst (motive := fun z => Ok N H _ _ _ _ z) (upd_same (s := { s.rw with sem := v }) hp).symm ?_
          exact hdead _
        · rw [set_other' _ _ hj, pend_other _ _ hj, hst]
          refine Eq.subst (motive := fun z => Ok N H _ _ _ _ z) (upd_other (s := { s.rw with sem := v }) hj).symm ?_
          exact ok_congr (a := a') rfl rfl (hok j hj)
      · intro hw
        refine hrep ?_
        intro j q hj hq
        exact hw j q ((upd_other (s := { s.rw with sem := v }) hj).trans hq)
    -- nothing happened to the map
    have same : p.mode ≠ .writing → Sim N H (({ s with rw := { s.rw with sem := v }.upd i { p with mode := .dead, adj := ⟨0, 0⟩ } } : Sys V).setPend i .idle) (a.set i .out) := by
      intro hnw
      refine fin a rfl (fun j _ => h.ok j) (fun hw => h.rep ?_)
      intro j q hq
      by_cases hj : j = i
      · subst hj; rw [hp] at hq; cases hq; exact hnw
      · exact hw j q hj hq
    cases hx : s.pend i with
    | idle =>
      rw [hx, hp] at hi
      refine ⟨a.set i .out, same (fun hw => hi.2 p rfl (Or.inl hw)), fun es' he => .killedOut ?_ he⟩
      intro c; rw [hi.1]; simp
    | returning r =>
      rw [hx, hp] at hi
      obtain ⟨hst, q, hq, hm⟩ := hi
      cases hq
      refine ⟨a.set i .out, same (by rw [hm]; simp), fun es' he => .killedOut ?_ he⟩
      intro c; rw [hst]; simp
    | called c =>
      rw [hx, hp] at hi
      obtain ⟨hst, q, hq, hmode⟩ := hi
      cases hq
      by_cases hw : p.mode = .writing
      · have hin : Within N H a c s.rw.mem p.loc := by
          rcases hmode with hm' | ⟨_, _, h2⟩ | ⟨_, _, h2⟩
          · rw [hw] at hm'; cases hm'
          · exact h2
          · exact h2
        obtain ⟨a', hpart, hst', hrep⟩ := inside_kill hN hH hin.choose_spec (hk p hp hw)
        refine ⟨a'.set i .out, fin a' hst' (fun j hj => ok_outside (h.ok j) (fun q hq => excl h.inv hp hw hj q hq)) (fun _ => hrep), fun es' he => .killedIn hst hpart he⟩
      · refine ⟨a.set i .out, same hw, fun es' he => .killedIn hst ?_ he⟩
        exact Spec.Partial.pre (pre := []) (post := (Spec.meaning c)) rfl
  | spawn i =>
    simp only [step] at hs
    obtain ⟨s1, h1, h2⟩ := map_some' hs
    cases h2
    obtain ⟨rw', e, rfl⟩ := low_some h1
    obtain ⟨p, hp, hm, rfl⟩ := spawn_some e
    refine ⟨a, ⟨RwLock.inv_step h.inv e, ?_, ?_⟩, fun es' he => he⟩
    · intro j
      by_cases hj : j = i
      · subst hj
        have := h.ok j
        rw [hp] at this
        rw [upd_same hp]
        cases hx : s.pend j with
        | idle => rw [hx] at this; exact ⟨this.1, by rintro q hq; cases hq; rintro (h | h) <;> cases h⟩
        | called c => rw [hx] at this; obtain ⟨_, q, hq, hm'⟩ := this; cases hq; rw [hm] at hm'; simp at hm'
        | returning r => rw [hx] at this; obtain ⟨_, q, hq, hm'⟩ := this; cases hq; rw [hm] at hm'; cases hm'
      · rw [upd_other hj]; exact h.ok j
    · intro hw
      refine h.rep ?_
      intro j q hq
      by_cases hj : j = i
      · subst hj; rw [hp] at hq; cases hq; rw [hm]; simp
      · exact hw j q (by rw [upd_other hj]; exact hq)

end Verif.MapSys
