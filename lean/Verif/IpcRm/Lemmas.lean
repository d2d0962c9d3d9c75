import Verif.IpcRm.Spec
import Verif.RwLock.Lemmas

namespace Verif.IpcRm

/-- Processes in mode `m` with the set `g`. -/
def cnt (m : Mode) (g : Nat) (ps : List Proc) : Nat := ps.countP (fun p => decide (p.mode = m ∧ p.gen = g))

theorem cnt_set {m : Mode} {g : Nat} {ps : List Proc} {i : Nat} {p q : Proc} (h : ps[i]? = some p) :
    cnt m g (ps.set i q) + (if p.mode = m ∧ p.gen = g then 1 else 0) = cnt m g ps + (if q.mode = m ∧ q.gen = g then 1 else 0) := by
  induction ps generalizing i with
  | nil => simp at h
  | cons x xs ih =>
    cases i with
    | zero =>
      simp only [List.getElem?_cons_zero, Option.some.injEq] at h
      subst h
      simp only [cnt, List.set_cons_zero, List.countP_cons, decide_eq_true_eq]
      omega
    | succ n =>
      have := ih (i := n) (by simpa using h)
      simp only [cnt, List.set_cons_succ, List.countP_cons] at this ⊢
      omega

theorem cnt_pos {m : Mode} {g : Nat} {ps : List Proc} {i : Nat} {p : Proc} (h : ps[i]? = some p) (hm : p.mode = m) (hg : p.gen = g) : 0 < cnt m g ps := by
  have := cnt_set (m := m) (g := g) (q := ⟨.dead, g + 1, ⟨0, 0⟩⟩) h
  rw [if_pos ⟨hm, hg⟩, if_neg (by simp)] at this
  omega

theorem cnt_two {m : Mode} {g : Nat} {ps : List Proc} {i j : Nat} {p q : Proc} (hij : i ≠ j) (h : ps[i]? = some p) (h' : ps[j]? = some q)
    (hm : p.mode = m) (hg : p.gen = g) (hm' : q.mode = m) (hg' : q.gen = g) : 2 ≤ cnt m g ps := by
  have h1 := cnt_set (m := m) (g := g) (q := ⟨.dead, g + 1, ⟨0, 0⟩⟩) h
  rw [if_pos ⟨hm, hg⟩, if_neg (by simp)] at h1
  have h2 : 0 < cnt m g (ps.set i ⟨.dead, g + 1, ⟨0, 0⟩⟩) := cnt_pos (by rw [List.getElem?_set_ne hij]; exact h') hm' hg'
  omega

theorem cnt_zero {m : Mode} {g : Nat} {ps : List Proc} (h : ∀ p ∈ ps, p.mode = m → p.gen ≠ g) : cnt m g ps = 0 := by
  simp only [cnt, List.countP_eq_zero, decide_eq_true_eq]
  intro p hp hc
  exact h p hp hc.1 hc.2

theorem semop_lr {v a v' a' : RwLock.Vals} (h : RwLock.semop v a RwLock.lock_read_rw = some (v', a')) :
    v.w = 0 ∧ v' = ⟨v.r + 1, v.w⟩ ∧ a' = ⟨a.r - 1, a.w⟩ := by
  obtain ⟨r, w⟩ := v
  obtain ⟨ar, aw⟩ := a
  simp only [RwLock.lock_read_rw, RwLock.semop, RwLock.Vals.get, RwLock.Vals.set, if_true] at h
  by_cases hw : w = 0
  · subst hw
    rw [RwLock.semop1_zero] at h
    simp only at h
    by_cases hr : 0 ≤ r + 1 ∧ r + 1 ≤ RwLock.SEMVMX
    · rw [RwLock.semop1_ok (by decide) hr] at h
      simp only [Option.some.injEq, Prod.mk.injEq] at h
      exact ⟨rfl, h.1.symm, by rw [← h.2]; simp⟩
    · rw [RwLock.semop1_no (by decide) hr] at h; simp at h
  · rw [RwLock.semop1_wait hw] at h; simp at h

theorem semop_lw {v a v' a' : RwLock.Vals} (h : RwLock.semop v a RwLock.lock_write_rw = some (v', a')) :
    v.w = 0 ∧ v.r = 0 ∧ v' = ⟨v.r, v.w + 1⟩ ∧ a' = ⟨a.r, a.w - 1⟩ := by
  obtain ⟨r, w⟩ := v
  obtain ⟨ar, aw⟩ := a
  simp only [RwLock.lock_write_rw, RwLock.semop, RwLock.Vals.get, RwLock.Vals.set, if_true] at h
  by_cases hr : r = 0
  · subst hr
    rw [RwLock.semop1_zero] at h
    simp only at h
    by_cases hw : w = 0
    · subst hw
      rw [RwLock.semop1_zero] at h
      simp only at h
      rw [RwLock.semop1_ok (by decide) (by decide)] at h
      simp only [Option.some.injEq, Prod.mk.injEq] at h
      exact ⟨rfl, rfl, h.1.symm, by rw [← h.2]; simp⟩
    · rw [RwLock.semop1_wait hw] at h; simp at h
  · rw [RwLock.semop1_wait hr] at h; simp at h

theorem semop_ur {v a v' a' : RwLock.Vals} (h : RwLock.semop v a RwLock.unlock_read_rw = some (v', a')) :
    v' = ⟨v.r - 1, v.w⟩ ∧ a' = ⟨a.r + 1, a.w⟩ := by
  obtain ⟨r, w⟩ := v
  obtain ⟨ar, aw⟩ := a
  simp only [RwLock.unlock_read_rw, RwLock.semop, RwLock.Vals.get, RwLock.Vals.set, if_true] at h
  by_cases hr : 0 ≤ r + -1 ∧ r + -1 ≤ RwLock.SEMVMX
  · rw [RwLock.semop1_ok (by decide) hr] at h
    simp only [Option.some.injEq, Prod.mk.injEq] at h
    exact ⟨h.1.symm, by rw [← h.2]; simp⟩
  · rw [RwLock.semop1_no (by decide) hr] at h; simp at h

theorem semop_uw {v a v' a' : RwLock.Vals} (h : RwLock.semop v a RwLock.unlock_write_rw = some (v', a')) :
    v' = ⟨v.r, v.w - 1⟩ ∧ a' = ⟨a.r, a.w + 1⟩ := by
  obtain ⟨r, w⟩ := v
  obtain ⟨ar, aw⟩ := a
  simp only [RwLock.unlock_write_rw, RwLock.semop, RwLock.Vals.get, RwLock.Vals.set, if_true] at h
  by_cases hr : 0 ≤ w + -1 ∧ w + -1 ≤ RwLock.SEMVMX
  · rw [RwLock.semop1_ok (by decide) hr] at h
    simp only [Option.some.injEq, Prod.mk.injEq] at h
    exact ⟨h.1.symm, by rw [← h.2]; simp⟩
  · rw [RwLock.semop1_no (by decide) hr] at h; simp at h

/-- The adjustments of a process, by its mode. -/
def adjOf : Mode → RwLock.Vals
  | .reading => ⟨-1, 0⟩
  | .writing => ⟨0, -1⟩
  | _ => ⟨0, 0⟩

/-- Holds in every state that a run reaches. -/
structure Inv (s : Map) : Prop where
  cur : ∀ g, s.cur = some g → g < s.next
  gen : ∀ p ∈ s.procs, Inside p → p.gen < s.next
  adj : ∀ p ∈ s.procs, p.adj = adjOf p.mode
  vals : ∀ g, s.cur = some g → s.vals g = ⟨cnt .reading g s.procs, cnt .writing g s.procs⟩
  one : ∀ g, cnt .writing g s.procs ≤ 1
  excl : ∀ g, 0 < cnt .writing g s.procs → cnt .reading g s.procs = 0

theorem mem_set {α} {ps : List α} {i : Nat} {q x : α} (h : x ∈ ps.set i q) : x ∈ ps ∨ x = q :=
  List.mem_or_eq_of_mem_set h

/-- A process goes from one mode outside of the sections to another one outside. -/
theorem inv_outside {s : Map} {i : Nat} {p q : Proc} (h : Inv s) (hi : s.procs[i]? = some p) (hp : ¬ Inside p) (hq : ¬ Inside q) (ha : q.adj = ⟨0, 0⟩) :
    Inv { s with procs := s.procs.set i q } := by
  have hr : ∀ g, cnt .reading g (s.procs.set i q) = cnt .reading g s.procs := by
    intro g
    have := cnt_set (m := .reading) (g := g) (q := q) hi
    rw [if_neg (fun c => hp (Or.inl c.1)), if_neg (fun c => hq (Or.inl c.1))] at this
    omega
  have hw : ∀ g, cnt .writing g (s.procs.set i q) = cnt .writing g s.procs := by
    intro g
    have := cnt_set (m := .writing) (g := g) (q := q) hi
    rw [if_neg (fun c => hp (Or.inr c.1)), if_neg (fun c => hq (Or.inr c.1))] at this
    omega
  refine ⟨h.cur, ?_, ?_, ?_, ?_, ?_⟩
  · intro x hx hin
    rcases mem_set hx with h1 | h1
    · exact h.gen x h1 hin
    · subst h1; exact absurd hin hq
  · intro x hx
    rcases mem_set hx with h1 | h1
    · exact h.adj x h1
    · subst h1
      rw [ha]
      cases hm : x.mode <;> simp [adjOf]
      · exact absurd (Or.inl hm) hq
      · exact absurd (Or.inr hm) hq
  · intro g hg
    simp only [hr, hw]
    exact h.vals g hg
  · intro g; simp only [hw]; exact h.one g
  · intro g; simp only [hr, hw]; exact h.excl g

/-- The set of the process is gone: the process leaves. -/
theorem inv_leave {s : Map} {i : Nat} {p : Proc} {m : Mode} (h : Inv s) (hi : s.procs[i]? = some p) (hg : s.cur ≠ some p.gen) (hm : m = .out ∨ m = .dead) :
    Inv { s with procs := s.procs.set i { p with mode := m, adj := ⟨0, 0⟩ } } := by
  have hr := fun g => cnt_set (m := .reading) (g := g) (q := { p with mode := m, adj := ⟨0, 0⟩ }) hi
  have hw := fun g => cnt_set (m := .writing) (g := g) (q := { p with mode := m, adj := ⟨0, 0⟩ }) hi
  have er : ∀ g, (if ({ p with mode := m, adj := ⟨0, 0⟩ } : Proc).mode = .reading ∧ p.gen = g then 1 else 0) = 0 := by
    intro g; rcases hm with rfl | rfl <;> simp
  have ew : ∀ g, (if ({ p with mode := m, adj := ⟨0, 0⟩ } : Proc).mode = .writing ∧ p.gen = g then 1 else 0) = 0 := by
    intro g; rcases hm with rfl | rfl <;> simp
  simp only [er, ew] at hr hw
  refine ⟨h.cur, ?_, ?_, ?_, ?_, ?_⟩
  · intro x hx hin
    rcases mem_set hx with h1 | h1
    · exact h.gen x h1 hin
    · subst h1; rcases hm with rfl | rfl <;> simp [Inside] at hin
  · intro x hx
    rcases mem_set hx with h1 | h1
    · exact h.adj x h1
    · subst h1; rcases hm with rfl | rfl <;> simp [adjOf]
  · intro g hcg
    have hne : p.gen ≠ g := fun c => hg (by rw [c]; exact hcg)
    have h1 := hr g; have h2 := hw g
    rw [if_neg (fun c => hne c.2)] at h1 h2
    simp only at hcg ⊢
    rw [h.vals g hcg]
    simp only [RwLock.Vals.mk.injEq]
    exact ⟨by omega, by omega⟩
  · intro g
    have h1 := hw g; have h2 := h.one g
    simp only; omega
  · intro g hpos
    have h1 := hw g; have h2 := hr g; have h3 := h.excl g
    simp only at hpos ⊢; omega

/-- A process with the existing set changes its mode; the values follow. -/
theorem inv_live {s : Map} {i : Nat} {p : Proc} {m : Mode} {v : RwLock.Vals} (h : Inv s) (hi : s.procs[i]? = some p) (hg : s.cur = some p.gen)
    (hv : v = ⟨cnt .reading p.gen (s.procs.set i ⟨m, p.gen, adjOf m⟩), cnt .writing p.gen (s.procs.set i ⟨m, p.gen, adjOf m⟩)⟩)
    (h1 : cnt .writing p.gen (s.procs.set i ⟨m, p.gen, adjOf m⟩) ≤ 1)
    (h2 : 0 < cnt .writing p.gen (s.procs.set i ⟨m, p.gen, adjOf m⟩) → cnt .reading p.gen (s.procs.set i ⟨m, p.gen, adjOf m⟩) = 0) :
    Inv { s with vals := fun g => if g = p.gen then v else s.vals g, procs := s.procs.set i ⟨m, p.gen, adjOf m⟩ } := by
  have hoth : ∀ (k : Mode) (g : Nat), p.gen ≠ g → cnt k g (s.procs.set i ⟨m, p.gen, adjOf m⟩) = cnt k g s.procs := by
    intro k g hne
    have := cnt_set (m := k) (g := g) (q := ⟨m, p.gen, adjOf m⟩) hi
    rw [if_neg (fun c => hne c.2), if_neg (fun c => hne c.2)] at this
    omega
  refine ⟨h.cur, ?_, ?_, ?_, ?_, ?_⟩
  · intro x hx hin
    rcases mem_set hx with h3 | h3
    · exact h.gen x h3 hin
    · subst h3; exact h.cur _ hg
  · intro x hx
    rcases mem_set hx with h3 | h3
    · exact h.adj x h3
    · subst h3; rfl
  · intro g hcg
    have : g = p.gen := by
      have := hcg.symm.trans hg
      simpa using this
    subst this
    simp only [if_true]
    exact hv
  · intro g
    by_cases e : p.gen = g
    · subst e; exact h1
    · simp only [hoth _ g e]; exact h.one g
  · intro g
    by_cases e : p.gen = g
    · subst e; exact h2
    · simp only [hoth _ g e]; exact h.excl g

/-- The two counts of the set of process `i = p` when its mode becomes `m`. -/
theorem cnt_mode {ps : List Proc} {i : Nat} {p : Proc} {m : Mode} {a : RwLock.Vals} (k : Mode) (hi : ps[i]? = some p) :
    cnt k p.gen (ps.set i ⟨m, p.gen, a⟩) + (if p.mode = k then 1 else 0) = cnt k p.gen ps + (if m = k then 1 else 0) := by
  have := cnt_set (m := k) (g := p.gen) (q := ⟨m, p.gen, a⟩) hi
  simpa using this

theorem connect_some {s : Map} {i g : Nat} (hc : s.cur = some g) : s.connect i = { s with procs := s.procs.set i ⟨.out, g, ⟨0, 0⟩⟩ } := by
  unfold Map.connect
  split
  · next k e => rw [hc] at e; cases e; rfl
  · next e => rw [hc] at e; cases e

theorem lconnect_some {s : Lock} {i g : Nat} (hc : s.cur = some g) : s.connect i = { s with procs := s.procs.set i (false, some g) } := by
  unfold Lock.connect
  split
  · next k e => rw [hc] at e; cases e; rfl
  · next e => rw [hc] at e; cases e

theorem connect_none {s : Map} {i : Nat} (hc : s.cur = none) : s.connect i = { s with cur := some s.next, next := s.next + 1, vals := fun g => if g = s.next then ⟨0, 0⟩ else s.vals g, procs := s.procs.set i ⟨.out, s.next, ⟨0, 0⟩⟩ } := by
  unfold Map.connect
  split
  · next k e => rw [hc] at e; cases e
  · rfl

theorem lconnect_none {s : Lock} {i : Nat} (hc : s.cur = none) : s.connect i = { s with cur := some s.next, next := s.next + 1, val := fun h => if h = s.next then 1 else s.val h, procs := s.procs.set i (false, some s.next) } := by
  unfold Lock.connect
  split
  · next k e => rw [hc] at e; cases e
  · rfl

theorem undo1_nn {v a : Int} (h : 0 ≤ v + a) : RwLock.undo1 v a = v + a := by
  simp only [RwLock.undo1]; omega

theorem inv_step {s s' : Map} {a : Label} {b : Bool} (h : Inv s) (e : s.step a = some (s', b)) : Inv s' := by
  cases a with
  | connect i =>
    simp only [Map.step] at e
    cases hi : s.procs[i]? with
    | none => rw [hi] at e; simp at e
    | some p =>
      rw [hi] at e
      simp only at e
      by_cases hm : p.mode = .fresh
      · rw [if_pos hm] at e
        simp only [Option.some.injEq, Prod.mk.injEq] at e
        obtain ⟨rfl, -⟩ := e
        have hni : ¬ Inside p := by simp [Inside, hm]
        cases hc : s.cur with
        | some g =>
          rw [connect_some hc]
          exact inv_outside (q := ⟨.out, g, ⟨0, 0⟩⟩) h hi hni (by simp [Inside]) rfl
        | none =>
          rw [connect_none hc]
          have h' : Inv { s with cur := some s.next, next := s.next + 1, vals := fun g => if g = s.next then ⟨0, 0⟩ else s.vals g } := by
            refine ⟨?_, fun x hx hin => Nat.lt_succ_of_lt (h.gen x hx hin), h.adj, ?_, h.one, h.excl⟩
            · intro g hg
              simp only [Option.some.injEq] at hg
              subst hg; exact Nat.lt_succ_self _
            · intro g hg
              simp only [Option.some.injEq] at hg
              subst hg
              simp only [if_true]
              rw [cnt_zero, cnt_zero]
              · rfl
              · intro x hx hxm hxg
                have := h.gen x hx (Or.inr hxm)
                omega
              · intro x hx hxm hxg
                have := h.gen x hx (Or.inl hxm)
                omega
          exact inv_outside (q := ⟨.out, s.next, ⟨0, 0⟩⟩) h' hi hni (by simp [Inside]) rfl
      · rw [if_neg hm] at e; simp at e
  | lockR i =>
    simp only [Map.step] at e
    cases hi : s.procs[i]? with
    | none => rw [hi] at e; simp at e
    | some p =>
      rw [hi] at e
      simp only at e
      by_cases hm : p.mode = .out
      · rw [if_pos hm, Map.sem] at e
        by_cases hg : s.cur = some p.gen
        · rw [if_pos hg] at e
          cases hs : RwLock.semop (s.vals p.gen) p.adj RwLock.lock_read_rw with
          | none => rw [hs] at e; simp at e
          | some x =>
            obtain ⟨v, a⟩ := x
            rw [hs] at e
            simp only [Option.some.injEq, Prod.mk.injEq] at e
            obtain ⟨rfl, -⟩ := e
            obtain ⟨hw, rfl, rfl⟩ := semop_lr hs
            have hadj := h.adj p (List.mem_of_getElem? hi)
            rw [hm] at hadj
            have hv := h.vals _ hg
            have c1 := cnt_mode (m := .reading) (a := adjOf .reading) .reading hi
            have c2 := cnt_mode (m := .reading) (a := adjOf .reading) .writing hi
            simp [hm] at c1 c2
            rw [hv] at hw
            simp only at hw
            have ea : (⟨p.adj.r - 1, p.adj.w⟩ : RwLock.Vals) = adjOf .reading := by rw [hadj]; rfl
            rw [ea]
            refine inv_live h hi hg ?_ ?_ ?_
            · rw [hv]; simp only [RwLock.Vals.mk.injEq]; omega
            · omega
            · omega
        · rw [if_neg hg] at e
          simp only [Option.some.injEq, Prod.mk.injEq] at e
          obtain ⟨rfl, -⟩ := e
          exact inv_leave h hi hg (Or.inl rfl)
      · rw [if_neg hm] at e; simp at e
  | lockW i =>
    simp only [Map.step] at e
    cases hi : s.procs[i]? with
    | none => rw [hi] at e; simp at e
    | some p =>
      rw [hi] at e
      simp only at e
      by_cases hm : p.mode = .out
      · rw [if_pos hm, Map.sem] at e
        by_cases hg : s.cur = some p.gen
        · rw [if_pos hg] at e
          cases hs : RwLock.semop (s.vals p.gen) p.adj RwLock.lock_write_rw with
          | none => rw [hs] at e; simp at e
          | some x =>
            obtain ⟨v, a⟩ := x
            rw [hs] at e
            simp only [Option.some.injEq, Prod.mk.injEq] at e
            obtain ⟨rfl, -⟩ := e
            obtain ⟨hw, hr, rfl, rfl⟩ := semop_lw hs
            have hadj := h.adj p (List.mem_of_getElem? hi)
            rw [hm] at hadj
            have hv := h.vals _ hg
            have c1 := cnt_mode (m := .writing) (a := adjOf .writing) .reading hi
            have c2 := cnt_mode (m := .writing) (a := adjOf .writing) .writing hi
            simp [hm] at c1 c2
            rw [hv] at hw hr
            simp only at hw hr
            have ea : (⟨p.adj.r, p.adj.w - 1⟩ : RwLock.Vals) = adjOf .writing := by rw [hadj]; rfl
            rw [ea]
            refine inv_live h hi hg ?_ ?_ ?_
            · rw [hv]; simp only [RwLock.Vals.mk.injEq]; omega
            · omega
            · omega
        · rw [if_neg hg] at e
          simp only [Option.some.injEq, Prod.mk.injEq] at e
          obtain ⟨rfl, -⟩ := e
          exact inv_leave h hi hg (Or.inl rfl)
      · rw [if_neg hm] at e; simp at e
  | unlock i =>
    simp only [Map.step] at e
    cases hi : s.procs[i]? with
    | none => rw [hi] at e; simp at e
    | some p =>
      rw [hi] at e
      simp only at e
      have hv := h.vals p.gen
      have hadj := h.adj p (List.mem_of_getElem? hi)
      have c1 := cnt_mode (m := .out) (a := adjOf .out) .reading hi
      have c2 := cnt_mode (m := .out) (a := adjOf .out) .writing hi
      have o1 := h.one p.gen
      have o2 := h.excl p.gen
      by_cases hm : p.mode = .writing
      · rw [if_pos hm, Map.sem] at e
        by_cases hg : s.cur = some p.gen
        · rw [if_pos hg] at e
          cases hs : RwLock.semop (s.vals p.gen) p.adj RwLock.unlock_write_rw with
          | none => rw [hs] at e; simp at e
          | some x =>
            obtain ⟨v, a⟩ := x
            rw [hs] at e
            simp only [Option.some.injEq, Prod.mk.injEq] at e
            obtain ⟨rfl, -⟩ := e
            obtain ⟨rfl, rfl⟩ := semop_uw hs
            have hv := hv hg
            rw [hm] at hadj
            simp [hm] at c1 c2
            have ea : (⟨p.adj.r, p.adj.w + 1⟩ : RwLock.Vals) = adjOf .out := by rw [hadj]; rfl
            rw [ea]
            refine inv_live h hi hg ?_ ?_ ?_
            · rw [hv]; simp only [RwLock.Vals.mk.injEq]; omega
            · omega
            · omega
        · rw [if_neg hg] at e
          simp only [Option.some.injEq, Prod.mk.injEq] at e
          obtain ⟨rfl, -⟩ := e
          exact inv_leave h hi hg (Or.inl rfl)
      · rw [if_neg hm] at e
        by_cases hm' : p.mode = .reading
        · rw [if_pos hm', Map.sem] at e
          by_cases hg : s.cur = some p.gen
          · rw [if_pos hg] at e
            cases hs : RwLock.semop (s.vals p.gen) p.adj RwLock.unlock_read_rw with
            | none => rw [hs] at e; simp at e
            | some x =>
              obtain ⟨v, a⟩ := x
              rw [hs] at e
              simp only [Option.some.injEq, Prod.mk.injEq] at e
              obtain ⟨rfl, -⟩ := e
              obtain ⟨rfl, rfl⟩ := semop_ur hs
              have hv := hv hg
              rw [hm'] at hadj
              simp [hm'] at c1 c2
              have ea : (⟨p.adj.r + 1, p.adj.w⟩ : RwLock.Vals) = adjOf .out := by rw [hadj]; rfl
              rw [ea]
              refine inv_live h hi hg ?_ ?_ ?_
              · rw [hv]; simp only [RwLock.Vals.mk.injEq]; omega
              · omega
              · omega
          · rw [if_neg hg] at e
            simp only [Option.some.injEq, Prod.mk.injEq] at e
            obtain ⟨rfl, -⟩ := e
            exact inv_leave h hi hg (Or.inl rfl)
        · rw [if_neg hm'] at e; simp at e
  | disconnect i =>
    simp only [Map.step] at e
    cases hi : s.procs[i]? with
    | none => rw [hi] at e; simp at e
    | some p =>
      rw [hi] at e
      simp only at e
      by_cases hm : p.mode = .out
      · rw [if_pos hm] at e
        simp only [Option.some.injEq, Prod.mk.injEq] at e
        obtain ⟨rfl, -⟩ := e
        refine inv_outside h hi (by simp [Inside, hm]) (by simp [Inside]) ?_
        have := h.adj p (List.mem_of_getElem? hi)
        rw [hm] at this
        exact this
      · rw [if_neg hm] at e; simp at e
  | rm =>
    simp only [Map.step, Option.some.injEq, Prod.mk.injEq] at e
    obtain ⟨rfl, -⟩ := e
    exact ⟨fun g hg => by simp at hg, h.gen, h.adj, fun g hg => by simp at hg, h.one, h.excl⟩
  | kill i =>
    simp only [Map.step] at e
    cases hi : s.procs[i]? with
    | none => rw [hi] at e; simp at e
    | some p =>
      rw [hi] at e
      simp only at e
      by_cases hm : p.mode = .dead
      · rw [if_pos hm] at e; simp at e
      · rw [if_neg hm] at e
        simp only [Option.some.injEq, Prod.mk.injEq] at e
        obtain ⟨rfl, -⟩ := e
        simp only [Map.kill]
        by_cases hg : s.cur = some p.gen
        · simp only [hg, and_true]
          have hv := h.vals p.gen hg
          have hadj := h.adj p (List.mem_of_getElem? hi)
          have c1 := cnt_mode (m := .dead) (a := adjOf .dead) .reading hi
          have c2 := cnt_mode (m := .dead) (a := adjOf .dead) .writing hi
          have o1 := h.one p.gen
          have o2 := h.excl p.gen
          have := inv_live (m := .dead) (v := RwLock.undo (s.vals p.gen) p.adj) h hi hg ?_ ?_ ?_
          · rw [hg] at this
            exact this
          · rw [hv, hadj]
            cases hk : p.mode <;> simp [hk] at c1 c2 <;> simp only [adjOf, RwLock.undo, RwLock.Vals.mk.injEq] <;> exact ⟨by rw [undo1_nn (by omega)]; simp only [adjOf] at c1; omega, by rw [undo1_nn (by omega)]; simp only [adjOf] at c2; omega⟩
          · cases hk : p.mode <;> simp [hk] at c1 c2 <;> omega
          · cases hk : p.mode <;> simp [hk] at c1 c2 <;> omega
        · simp only [hg, and_false, if_false]
          exact inv_leave h hi hg (Or.inr rfl)

theorem inv_start {s : Map} (h : s.Start) : Inv s := by
  have hz : ∀ (m : Mode) (g : Nat), m ≠ .fresh → cnt m g s.procs = 0 := by
    intro m g hm
    refine cnt_zero ?_
    intro p hp hpm
    exact absurd (hpm.symm.trans (h.2 p hp).1) hm
  refine ⟨?_, ?_, ?_, ?_, ?_, ?_⟩
  · intro g hg; rw [h.1] at hg; simp at hg
  · intro p hp hin
    have := (h.2 p hp).1
    simp [Inside, this] at hin
  · intro p hp
    rw [(h.2 p hp).1, (h.2 p hp).2]; rfl
  · intro g hg; rw [h.1] at hg; simp at hg
  · intro g; rw [hz _ _ (by decide)]; omega
  · intro g hg; rw [hz _ _ (by decide)]

theorem exec_cons {s s' : Map} {a : Label} {as : List Label} (h : s.exec (a :: as) = some s') :
    ∃ t b, s.step a = some (t, b) ∧ t.exec as = some s' := by
  simp only [Map.exec] at h
  cases e : s.step a with
  | none => rw [e] at h; simp at h
  | some x => obtain ⟨t, b⟩ := x; rw [e] at h; exact ⟨t, b, rfl, h⟩

theorem inv_exec : ∀ {as : List Label} {s s' : Map}, Inv s → s.exec as = some s' → Inv s'
  | [], s, s', h, e => by simp only [Map.exec, Option.some.injEq] at e; exact e ▸ h
  | a :: as, s, s', h, e => by
    obtain ⟨t, b, e1, e2⟩ := exec_cons e
    exact inv_exec (inv_step h e1) e2

/-- Who is inside has the existing set. -/
def Live (s : Map) : Prop := ∀ p ∈ s.procs, Inside p → s.cur = some p.gen

theorem live_set {s : Map} {i : Nat} {q : Proc} (h : Live s) (hq : Inside q → s.cur = some q.gen) : Live { s with procs := s.procs.set i q } := by
  intro x hx hin
  rcases mem_set hx with h1 | h1
  · exact h x h1 hin
  · subst h1; exact hq hin

theorem live_sem {s s' : Map} {i : Nat} {p : Proc} {ops : List RwLock.SemBuf} {m : Mode} {b : Bool} (h : Live s) (e : s.sem i p ops m = some (s', b)) : Live s' := by
  rw [Map.sem] at e
  by_cases hg : s.cur = some p.gen
  · rw [if_pos hg] at e
    cases hs : RwLock.semop (s.vals p.gen) p.adj ops with
    | none => rw [hs] at e; simp at e
    | some x =>
      rw [hs] at e
      simp only [Option.some.injEq, Prod.mk.injEq] at e
      obtain ⟨rfl, -⟩ := e
      exact live_set h (fun _ => hg)
  · rw [if_neg hg] at e
    simp only [Option.some.injEq, Prod.mk.injEq] at e
    obtain ⟨rfl, -⟩ := e
    exact live_set h (fun c => by simp [Inside] at c)

theorem live_step {s s' : Map} {a : Label} {b : Bool} (h : Live s) (hq : a = .rm → ∀ p ∈ s.procs, ¬ Inside p) (e : s.step a = some (s', b)) : Live s' := by
  cases a with
  | rm =>
    simp only [Map.step, Option.some.injEq, Prod.mk.injEq] at e
    obtain ⟨rfl, -⟩ := e
    intro x hx hin
    exact absurd hin (hq rfl x hx)
  | connect i =>
    simp only [Map.step] at e
    cases hi : s.procs[i]? with
    | none => rw [hi] at e; simp at e
    | some p =>
      rw [hi] at e
      simp only at e
      split at e
      · simp only [Option.some.injEq, Prod.mk.injEq] at e
        obtain ⟨rfl, -⟩ := e
        cases hc : s.cur with
        | some g =>
          rw [connect_some hc]
          refine live_set h (fun c => by simp [Inside] at c)
        | none =>
          rw [connect_none hc]
          intro x hx hin
          rcases mem_set hx with h1 | h1
          · have := h x h1 hin
            rw [hc] at this; simp at this
          · subst h1; simp [Inside] at hin
      · simp at e
  | kill i =>
    simp only [Map.step] at e
    cases hi : s.procs[i]? with
    | none => rw [hi] at e; simp at e
    | some p =>
      rw [hi] at e
      simp only at e
      split at e
      · simp at e
      · simp only [Option.some.injEq, Prod.mk.injEq] at e
        obtain ⟨rfl, -⟩ := e
        exact live_set h (fun c => by simp [Inside] at c)
  | disconnect i =>
    simp only [Map.step] at e
    cases hi : s.procs[i]? with
    | none => rw [hi] at e; simp at e
    | some p =>
      rw [hi] at e
      simp only at e
      split at e
      · simp only [Option.some.injEq, Prod.mk.injEq] at e
        obtain ⟨rfl, -⟩ := e
        exact live_set h (fun c => by simp [Inside] at c)
      · simp at e
  | lockR i =>
    simp only [Map.step] at e
    cases hi : s.procs[i]? with
    | none => rw [hi] at e; simp at e
    | some p =>
      rw [hi] at e
      simp only at e
      split at e
      · exact live_sem h e
      · simp at e
  | lockW i =>
    simp only [Map.step] at e
    cases hi : s.procs[i]? with
    | none => rw [hi] at e; simp at e
    | some p =>
      rw [hi] at e
      simp only at e
      split at e
      · exact live_sem h e
      · simp at e
  | unlock i =>
    simp only [Map.step] at e
    cases hi : s.procs[i]? with
    | none => rw [hi] at e; simp at e
    | some p =>
      rw [hi] at e
      simp only at e
      split at e
      · exact live_sem h e
      · split at e
        · exact live_sem h e
        · simp at e

theorem live_exec : ∀ {as : List Label} {s s' : Map}, Live s → Quiet s as → s.exec as = some s' → Live s'
  | [], s, s', h, _, e => by simp only [Map.exec, Option.some.injEq] at e; exact e ▸ h
  | a :: as, s, s', h, q, e => by
    obtain ⟨t, b, e1, e2⟩ := exec_cons e
    simp only [Quiet, e1] at q
    exact live_exec (live_step h q.1 e1) q.2 e2

theorem inv_excl {s : Map} (h : Inv s) {i j : Nat} {p q : Proc} (hij : i ≠ j) (hp : s.procs[i]? = some p) (hq : s.procs[j]? = some q)
    (hg : p.gen = q.gen) (hw : p.mode = .writing) : ¬ Inside q := by
  intro hin
  have c := cnt_pos hp hw hg
  rcases hin with hin | hin
  · have := h.excl _ c
    have := cnt_pos hq hin rfl
    omega
  · have := cnt_two hij hp hq hw hg hin rfl
    have := h.one q.gen
    omega

/-! ### the critical section of the queue -/

/-- Processes inside. -/
def ins (ps : List (Bool × Option Nat)) : Nat := ps.countP (·.1)

theorem ins_set {ps : List (Bool × Option Nat)} {i : Nat} {p q : Bool × Option Nat} (h : ps[i]? = some p) :
    ins (ps.set i q) + (if p.1 then 1 else 0) = ins ps + (if q.1 then 1 else 0) := by
  induction ps generalizing i with
  | nil => simp at h
  | cons x xs ih =>
    cases i with
    | zero =>
      simp only [List.getElem?_cons_zero, Option.some.injEq] at h
      subst h
      simp only [ins, List.set_cons_zero, List.countP_cons]
      omega
    | succ n =>
      have := ih (i := n) (by simpa using h)
      simp only [ins, List.set_cons_succ, List.countP_cons] at this ⊢
      omega

/-- Holds when every removal happens while nobody is connected. -/
structure LInv (s : Lock) : Prop where
  gen : ∀ p ∈ s.procs, ∀ g, p.2 = some g → s.cur = some g
  con : ∀ p ∈ s.procs, p.1 = true → p.2 ≠ none
  val : ∀ g, s.cur = some g → s.val g + ins s.procs = 1
  pos : ∀ g, s.cur = some g → 0 ≤ s.val g

theorem ins_zero {ps : List (Bool × Option Nat)} (h : ∀ p ∈ ps, p.1 = false) : ins ps = 0 := by
  simp only [ins, List.countP_eq_zero]
  intro p hp
  simp [h p hp]

theorem linv_step {s s' : Lock} {a : LLabel} (h : LInv s) (hq : a = .rm → ∀ p ∈ s.procs, p.2 = none) (e : s.step a = some s') : LInv s' := by
  cases a with
  | rm =>
    simp only [Lock.step, Option.some.injEq] at e
    subst e
    refine ⟨?_, h.con, fun g hg => by simp at hg, fun g hg => by simp at hg⟩
    intro p hp g hg
    rw [hq rfl p hp] at hg
    simp at hg
  | connect i =>
    simp only [Lock.step] at e
    by_cases hi : s.procs[i]? = some (false, none)
    · rw [if_pos hi] at e
      simp only [Option.some.injEq] at e
      cases hc : s.cur with
      | some g =>
        rw [lconnect_some hc] at e
        subst e
        have c := ins_set (q := (false, some g)) hi
        simp at c
        refine ⟨?_, ?_, ?_, h.pos⟩
        · intro p hp k hk
          rcases mem_set hp with h1 | h1
          · exact h.gen p h1 k hk
          · subst h1; simp only [Option.some.injEq] at hk; subst hk; exact hc
        · intro p hp hin
          rcases mem_set hp with h1 | h1
          · exact h.con p h1 hin
          · subst h1; simp
        · intro k hk
          have := h.val k hk
          simp only; omega
      | none =>
        rw [lconnect_none hc] at e
        subst e
        have c := ins_set (q := (false, some s.next)) hi
        simp at c
        have z : ins s.procs = 0 := by
          refine ins_zero ?_
          intro p hp
          cases hb : p.1 with
          | false => rfl
          | true =>
            have := h.con p hp hb
            cases hk : p.2 with
            | none => exact absurd hk this
            | some g =>
              have := h.gen p hp g hk
              rw [hc] at this
              simp at this
        refine ⟨?_, ?_, ?_, ?_⟩
        · intro p hp k hk
          rcases mem_set hp with h1 | h1
          · have := h.gen p h1 k hk
            rw [hc] at this; simp at this
          · subst h1; simpa using hk
        · intro p hp hin
          rcases mem_set hp with h1 | h1
          · exact h.con p h1 hin
          · subst h1; simp
        · intro k hk
          simp only [Option.some.injEq] at hk
          subst hk
          simp only [if_true]; omega
        · intro k hk
          simp only [Option.some.injEq] at hk
          subst hk
          simp
    · rw [if_neg hi] at e; simp at e
  | lock i =>
    simp only [Lock.step] at e
    split at e
    · next g hi =>
      have hcur := h.gen _ (List.mem_of_getElem? hi) g rfl
      rw [Lock.lock, if_pos hcur] at e
      split at e
      · next hv =>
        simp only [Option.some.injEq] at e
        subst e
        have c := ins_set (q := (true, some g)) hi
        simp at c
        refine ⟨?_, ?_, ?_, ?_⟩
        · intro p hp k hk
          rcases mem_set hp with h1 | h1
          · exact h.gen p h1 k hk
          · subst h1; simp only [Option.some.injEq] at hk; subst hk; exact hcur
        · intro p hp hin
          rcases mem_set hp with h1 | h1
          · exact h.con p h1 hin
          · subst h1; simp
        · intro k hk
          have hkg : k = g := by have := hk.symm.trans hcur; simpa using this
          subst hkg
          have := h.val k hk
          simp only [if_true]; omega
        · intro k hk
          have hkg : k = g := by have := hk.symm.trans hcur; simpa using this
          subst hkg
          simp only [if_true]; omega
      · simp at e
    · simp at e
  | unlock i =>
    simp only [Lock.step] at e
    split at e
    · next g hi =>
      have hcur := h.gen _ (List.mem_of_getElem? hi) g rfl
      simp only [Lock.unlock, Option.some.injEq] at e
      rw [if_pos hcur] at e
      subst e
      have c := ins_set (q := (false, some g)) hi
      simp at c
      refine ⟨?_, ?_, ?_, ?_⟩
      · intro p hp k hk
        rcases mem_set hp with h1 | h1
        · exact h.gen p h1 k hk
        · subst h1; simp only [Option.some.injEq] at hk; subst hk; exact hcur
      · intro p hp hin
        rcases mem_set hp with h1 | h1
        · exact h.con p h1 hin
        · subst h1; simp
      · intro k hk
        have hkg : k = g := by have := hk.symm.trans hcur; simpa using this
        subst hkg
        have := h.val k hk
        simp only [if_true]; omega
      · intro k hk
        have hkg : k = g := by have := hk.symm.trans hcur; simpa using this
        subst hkg
        have := h.pos k hk
        simp only [if_true]; omega
    · simp at e
  | disconnect i =>
    simp only [Lock.step] at e
    split at e
    · next g hi =>
      simp only [Option.some.injEq] at e
      subst e
      have c := ins_set (q := (false, none)) hi
      simp at c
      refine ⟨?_, ?_, ?_, h.pos⟩
      · intro p hp k hk
        rcases mem_set hp with h1 | h1
        · exact h.gen p h1 k hk
        · subst h1; simp at hk
      · intro p hp hin
        rcases mem_set hp with h1 | h1
        · exact h.con p h1 hin
        · subst h1; simp at hin
      · intro k hk
        have := h.val k hk
        simp only; omega
    · simp at e

theorem linv_start {s : Lock} (h : s.Start) : LInv s := by
  refine ⟨?_, ?_, ?_, ?_⟩
  · intro p hp g hg; rw [h.2 p hp] at hg; simp at hg
  · intro p hp hb; rw [h.2 p hp] at hb; simp at hb
  · intro g hg; rw [h.1] at hg; simp at hg
  · intro g hg; rw [h.1] at hg; simp at hg

theorem linv_exec : ∀ {as : List LLabel} {s s' : Lock}, LInv s → Gone s as → s.exec as = some s' → LInv s'
  | [], s, s', h, _, e => by simp only [Lock.exec, Option.some.injEq] at e; exact e ▸ h
  | a :: as, s, s', h, q, e => by
    simp only [Lock.exec] at e
    cases e1 : s.step a with
    | none => rw [e1] at e; simp at e
    | some t =>
      rw [e1] at e
      simp only [Gone, e1] at q
      exact linv_exec (linv_step h q.1 e1) q.2 e

theorem linv_excl {s : Lock} (h : LInv s) {i j : Nat} {p q : Bool × Option Nat} (hij : i ≠ j) (hp : s.procs[i]? = some p) (hq : s.procs[j]? = some q)
    (hpi : p.1 = true) : q.1 = false := by
  cases hb : q.1 with
  | false => rfl
  | true =>
    exfalso
    have h1 := ins_set (q := (false, none)) hp
    have hq' : (s.procs.set i (false, none))[j]? = some q := by rw [List.getElem?_set_ne hij]; exact hq
    have h2 := ins_set (q := (false, none)) hq'
    simp [hpi, hb] at h1 h2
    cases hk : p.2 with
    | none => exact h.con p (List.mem_of_getElem? hp) hpi hk
    | some g =>
      have hc := h.gen p (List.mem_of_getElem? hp) g hk
      have := h.val g hc
      have := h.pos g hc
      omega

/-! ### processes that still have a removed set -/

/-- The set of process `i` is gone and `i` is not inside of a section. -/
def OldAt (i g : Nat) (s : Map) : Prop :=
  g < s.next ∧ s.cur ≠ some g ∧ ∃ p : Proc, s.procs[i]? = some p ∧ ¬ Inside p ∧ (p.mode = .out → p.gen = g)

theorem old_set {i g k : Nat} {s : Map} {q x : Proc} (h : OldAt i g s) (hk : s.procs[k]? = some x) (hq : k = i → ¬ Inside q ∧ (q.mode = .out → q.gen = g))
    {v : Nat → RwLock.Vals} : OldAt i g { s with vals := v, procs := s.procs.set k q } := by
  obtain ⟨h1, h2, p, hp, h3, h4⟩ := h
  by_cases e : k = i
  · subst e
    refine ⟨h1, h2, q, ?_, hq rfl⟩
    have : k < s.procs.length := by
      rw [List.getElem?_eq_some_iff] at hk
      exact hk.1
    simp [this]
  · exact ⟨h1, h2, p, by simp only [List.getElem?_set_ne e]; exact hp, h3, h4⟩

theorem old_sem {i g k : Nat} {s s' : Map} {x : Proc} {ops : List RwLock.SemBuf} {m : Mode} {b : Bool} (h : OldAt i g s) (hk : s.procs[k]? = some x)
    (hx : k = i → x.gen = g) (e : s.sem k x ops m = some (s', b)) : OldAt i g s' := by
  rw [Map.sem] at e
  by_cases hg : s.cur = some x.gen
  · rw [if_pos hg] at e
    have hne : k ≠ i := fun c => h.2.1 (by rw [← hx c]; exact hg)
    cases hs : RwLock.semop (s.vals x.gen) x.adj ops with
    | none => rw [hs] at e; simp at e
    | some y =>
      rw [hs] at e
      simp only [Option.some.injEq, Prod.mk.injEq] at e
      obtain ⟨rfl, -⟩ := e
      exact old_set h hk (fun c => absurd c hne)
  · rw [if_neg hg] at e
    simp only [Option.some.injEq, Prod.mk.injEq] at e
    obtain ⟨rfl, -⟩ := e
    exact old_set (q := { x with mode := .out, adj := ⟨0, 0⟩ }) h hk (fun c => ⟨by simp [Inside], fun _ => hx c⟩)

theorem old_step {i g : Nat} {s s' : Map} {a : Label} {b : Bool} (h : OldAt i g s) (ha : a ≠ .connect i) (e : s.step a = some (s', b)) : OldAt i g s' := by
  have hself : ∀ (k : Nat) (x : Proc), s.procs[k]? = some x → k = i → ¬ Inside x ∧ (x.mode = .out → x.gen = g) := by
    intro k x hx hk
    obtain ⟨-, -, p, hp, h3, h4⟩ := h
    subst hk
    rw [hp] at hx
    cases hx
    exact ⟨h3, h4⟩
  cases a with
  | rm =>
    simp only [Map.step, Option.some.injEq, Prod.mk.injEq] at e
    obtain ⟨rfl, -⟩ := e
    exact ⟨h.1, by simp, h.2.2⟩
  | connect k =>
    have hne : k ≠ i := fun c => ha (by rw [c])
    simp only [Map.step] at e
    cases hk : s.procs[k]? with
    | none => rw [hk] at e; simp at e
    | some x =>
      rw [hk] at e
      simp only at e
      split at e
      · simp only [Option.some.injEq, Prod.mk.injEq] at e
        obtain ⟨rfl, -⟩ := e
        cases hc : s.cur with
        | some c =>
          rw [connect_some hc]
          exact old_set h hk (fun c => absurd c hne)
        | none =>
          rw [connect_none hc]
          obtain ⟨h1, h2, p, hp, h3⟩ := h
          refine ⟨Nat.lt_succ_of_lt h1, ?_, p, ?_, h3⟩
          · simp only [ne_eq, Option.some.injEq]; omega
          · simp only [List.getElem?_set_ne hne]; exact hp
      · simp at e
  | kill k =>
    simp only [Map.step] at e
    cases hk : s.procs[k]? with
    | none => rw [hk] at e; simp at e
    | some x =>
      rw [hk] at e
      simp only at e
      split at e
      · simp at e
      · simp only [Option.some.injEq, Prod.mk.injEq] at e
        obtain ⟨rfl, -⟩ := e
        exact old_set h hk (fun c => ⟨by simp [Inside], fun c => by simp at c⟩)
  | disconnect k =>
    simp only [Map.step] at e
    cases hk : s.procs[k]? with
    | none => rw [hk] at e; simp at e
    | some x =>
      rw [hk] at e
      simp only at e
      split at e
      · simp only [Option.some.injEq, Prod.mk.injEq] at e
        obtain ⟨rfl, -⟩ := e
        exact old_set h hk (fun c => ⟨by simp [Inside], fun c => by simp at c⟩)
      · simp at e
  | lockR k =>
    simp only [Map.step] at e
    cases hk : s.procs[k]? with
    | none => rw [hk] at e; simp at e
    | some x =>
      rw [hk] at e
      simp only at e
      split at e
      · next hm => exact old_sem h hk (fun c => (hself k x hk c).2 hm) e
      · simp at e
  | lockW k =>
    simp only [Map.step] at e
    cases hk : s.procs[k]? with
    | none => rw [hk] at e; simp at e
    | some x =>
      rw [hk] at e
      simp only at e
      split at e
      · next hm => exact old_sem h hk (fun c => (hself k x hk c).2 hm) e
      · simp at e
  | unlock k =>
    simp only [Map.step] at e
    cases hk : s.procs[k]? with
    | none => rw [hk] at e; simp at e
    | some x =>
      rw [hk] at e
      simp only at e
      split at e
      · next hm => exact old_sem h hk (fun c => absurd (Or.inr hm) (hself k x hk c).1) e
      · split at e
        · next hm => exact old_sem h hk (fun c => absurd (Or.inl hm) (hself k x hk c).1) e
        · simp at e

theorem old_exec {i g : Nat} : ∀ {as : List Label} {s s' : Map}, OldAt i g s → (∀ a ∈ as, a ≠ .connect i) → s.exec as = some s' → OldAt i g s'
  | [], s, s', h, _, e => by simp only [Map.exec, Option.some.injEq] at e; exact e ▸ h
  | a :: as, s, s', h, q, e => by
    obtain ⟨t, b, e1, e2⟩ := exec_cons e
    exact old_exec (old_step h (q a (by simp)) e1) (fun x hx => q x (List.mem_cons_of_mem _ hx)) e2

/-- Sets that processes have are older than the next one. -/
def Known (s : Map) : Prop := (∀ g, s.cur = some g → g < s.next) ∧ ∀ p ∈ s.procs, p.mode ≠ .fresh → p.mode ≠ .dead → p.gen < s.next

theorem known_set {s : Map} {k : Nat} {q : Proc} {v : Nat → RwLock.Vals} (h : Known s) (hq : q.mode ≠ .fresh → q.mode ≠ .dead → q.gen < s.next) :
    Known { s with vals := v, procs := s.procs.set k q } := by
  refine ⟨h.1, ?_⟩
  intro x hx hm hd
  rcases mem_set hx with h1 | h1
  · exact h.2 x h1 hm hd
  · subst h1; exact hq hm hd

theorem known_sem {s s' : Map} {k : Nat} {x : Proc} {ops : List RwLock.SemBuf} {m : Mode} {b : Bool} (h : Known s) (hx : x.gen < s.next)
    (e : s.sem k x ops m = some (s', b)) : Known s' := by
  rw [Map.sem] at e
  split at e
  · split at e
    · simp only [Option.some.injEq, Prod.mk.injEq] at e
      obtain ⟨rfl, -⟩ := e
      exact known_set h (fun _ _ => hx)
    · simp at e
  · simp only [Option.some.injEq, Prod.mk.injEq] at e
    obtain ⟨rfl, -⟩ := e
    exact known_set h (fun _ _ => hx)

theorem known_step {s s' : Map} {a : Label} {b : Bool} (h : Known s) (e : s.step a = some (s', b)) : Known s' := by
  cases a with
  | rm =>
    simp only [Map.step, Option.some.injEq, Prod.mk.injEq] at e
    obtain ⟨rfl, -⟩ := e
    exact ⟨fun g hg => by simp at hg, h.2⟩
  | connect k =>
    simp only [Map.step] at e
    cases hk : s.procs[k]? with
    | none => rw [hk] at e; simp at e
    | some x =>
      rw [hk] at e
      simp only at e
      split at e
      · simp only [Option.some.injEq, Prod.mk.injEq] at e
        obtain ⟨rfl, -⟩ := e
        cases hc : s.cur with
        | some c =>
          rw [connect_some hc]
          exact known_set h (fun _ _ => h.1 _ hc)
        | none =>
          rw [connect_none hc]
          refine ⟨fun g hg => ?_, fun x hx hm hd => ?_⟩
          · simp only [Option.some.injEq] at hg
            subst hg; exact Nat.lt_succ_self _
          · rcases mem_set hx with h1 | h1
            · exact Nat.lt_succ_of_lt (h.2 x h1 hm hd)
            · subst h1; exact Nat.lt_succ_self _
      · simp at e
  | kill k =>
    simp only [Map.step] at e
    cases hk : s.procs[k]? with
    | none => rw [hk] at e; simp at e
    | some x =>
      rw [hk] at e
      simp only at e
      split at e
      · simp at e
      · simp only [Option.some.injEq, Prod.mk.injEq] at e
        obtain ⟨rfl, -⟩ := e
        exact known_set h (fun _ c => by simp at c)
  | disconnect k =>
    simp only [Map.step] at e
    cases hk : s.procs[k]? with
    | none => rw [hk] at e; simp at e
    | some x =>
      rw [hk] at e
      simp only at e
      split at e
      · simp only [Option.some.injEq, Prod.mk.injEq] at e
        obtain ⟨rfl, -⟩ := e
        exact known_set h (fun c => by simp at c)
      · simp at e
  | lockR k =>
    simp only [Map.step] at e
    cases hk : s.procs[k]? with
    | none => rw [hk] at e; simp at e
    | some x =>
      rw [hk] at e
      simp only at e
      split at e
      · next hm => exact known_sem h (h.2 x (List.mem_of_getElem? hk) (by simp [hm]) (by simp [hm])) e
      · simp at e
  | lockW k =>
    simp only [Map.step] at e
    cases hk : s.procs[k]? with
    | none => rw [hk] at e; simp at e
    | some x =>
      rw [hk] at e
      simp only at e
      split at e
      · next hm => exact known_sem h (h.2 x (List.mem_of_getElem? hk) (by simp [hm]) (by simp [hm])) e
      · simp at e
  | unlock k =>
    simp only [Map.step] at e
    cases hk : s.procs[k]? with
    | none => rw [hk] at e; simp at e
    | some x =>
      rw [hk] at e
      simp only at e
      split at e
      · next hm => exact known_sem h (h.2 x (List.mem_of_getElem? hk) (by simp [hm]) (by simp [hm])) e
      · split at e
        · next hm => exact known_sem h (h.2 x (List.mem_of_getElem? hk) (by simp [hm]) (by simp [hm])) e
        · simp at e

theorem known_exec : ∀ {as : List Label} {s s' : Map}, Known s → s.exec as = some s' → Known s'
  | [], s, s', h, e => by simp only [Map.exec, Option.some.injEq] at e; exact e ▸ h
  | a :: as, s, s', h, e => by
    obtain ⟨t, b, e1, e2⟩ := exec_cons e
    exact known_exec (known_step h e1) e2

theorem known_start {s : Map} (h : s.Start) : Known s :=
  ⟨fun g hg => by rw [h.1] at hg; simp at hg, fun p hp hm => absurd (h.2 p hp).1 hm⟩

/-! ### the boxes -/

variable {B : Type}

theorem calls_fifo {g k : Nat} : ∀ (cs : List (BCall B)) {s : Boxes B}, s.cur = some g → s.count g + k = s.ring.length →
    (s.calls g cs).2 = (fifo s.room k s.ring cs).2 ∧ (s.calls g cs).1.ring = (fifo s.room k s.ring cs).1
  | [], s, _, _ => ⟨rfl, rfl⟩
  | .flush b :: cs, s, hc, hk => by
    simp only [Boxes.calls, fifo, Boxes.flush]
    by_cases hl : s.ring.length < s.room
    · rw [if_pos hl, if_pos hl]
      refine calls_fifo cs (s := { s with ring := s.ring ++ [b], count := fun h => if h = g ∧ s.cur = some g then s.count g + 1 else s.count h }) hc ?_
      simp only [hc, and_true, if_true, List.length_append, List.length_cons, List.length_nil]
      omega
    · rw [if_neg hl, if_neg hl]
      exact calls_fifo cs hc hk
  | .unflush :: cs, s, hc, hk => by
    simp only [Boxes.calls, fifo, Boxes.unflush]
    by_cases hp : 0 < s.count g
    · rw [if_pos ⟨hc, hp⟩, if_pos (by omega)]
      have := calls_fifo (k := k) cs (s := { s with ring := s.ring.tail, count := fun h => if h = g then s.count g - 1 else s.count h }) hc
        (by simp only [if_true, List.length_tail]; omega)
      exact ⟨by simp only [this.1], this.2⟩
    · rw [if_neg (fun c => hp c.2), if_neg (by omega)]
      have := calls_fifo (k := k) cs hc hk
      exact ⟨by simp only [this.1], this.2⟩

theorem fifo_full {room : Nat} {q : List B} (h : room ≤ q.length) : ∀ (cs : List (BCall B)), (fifo room q.length q cs).1 = q ∧ ∀ x ∈ (fifo room q.length q cs).2, x = none
  | [] => ⟨rfl, by simp [fifo]⟩
  | .flush b :: cs => by
    simp only [fifo]
    rw [if_neg (by omega)]
    exact fifo_full h cs
  | .unflush :: cs => by
    simp only [fifo]
    rw [if_neg (by omega)]
    have := fifo_full h cs
    exact ⟨this.1, by simpa using this.2⟩

end Verif.IpcRm
