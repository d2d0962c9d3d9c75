import Verif.RwLock.Model

set_option linter.unusedSimpArgs false
set_option linter.unusedVariables false

namespace Verif.RwLock

variable {M L : Type}

def cnt (m : Mode) (ps : List (Proc L)) : Nat := ps.countP (fun p => decide (p.mode = m))

theorem cnt_set {m : Mode} {ps : List (Proc L)} {i : Nat} {p q : Proc L} (h : ps[i]? = some p) :
    cnt m (ps.set i q) + (if p.mode = m then 1 else 0) = cnt m ps + (if q.mode = m then 1 else 0) := by
  unfold cnt
  obtain ⟨hi, rfl⟩ := List.getElem?_eq_some_iff.mp h
  rw [List.countP_set hi]
  simp only [decide_eq_true_eq]
  by_cases hm : ps[i].mode = m
  · have : 0 < ps.countP (fun p => decide (p.mode = m)) := List.countP_pos_iff.mpr ⟨ps[i], List.getElem_mem hi, by simp [hm]⟩
    rw [if_pos hm]; omega
  · rw [if_neg hm]; omega

theorem cnt_pos {m : Mode} {ps : List (Proc L)} {i : Nat} {p : Proc L} (h : ps[i]? = some p) (hm : p.mode = m) : 0 < cnt m ps := by
  unfold cnt
  exact List.countP_pos_iff.mpr ⟨p, List.mem_of_getElem? h, by simp [hm]⟩

theorem cnt_two {m : Mode} {ps : List (Proc L)} {i j : Nat} {p q : Proc L} (hij : i ≠ j) (h : ps[i]? = some p) (h' : ps[j]? = some q)
    (hm : p.mode = m) (hm' : q.mode = m) : 2 ≤ cnt m ps := by
  have hdead : ∃ d : Mode, d ≠ m := by
    by_cases hd : m = .dead
    · exact ⟨.out, by rw [hd]; decide⟩
    · exact ⟨.dead, fun h => hd h.symm⟩
  obtain ⟨d, hd⟩ := hdead
  have h1 := cnt_set (m := m) (q := { p with mode := d }) h
  have h2 : (ps.set i { p with mode := d })[j]? = some q := by
    rw [List.getElem?_set, if_neg hij]; exact h'
  have h3 := cnt_pos h2 hm'
  rw [if_pos hm, if_neg hd] at h1
  omega

theorem semop1_zero : semop1 0 0 = some 0 := rfl
theorem semop1_wait {v : Int} (h : v ≠ 0) : semop1 v 0 = none := by simp [semop1, h]
theorem semop1_ok {v op : Int} (h0 : op ≠ 0) (h : 0 ≤ v + op ∧ v + op ≤ SEMVMX) : semop1 v op = some (v + op) := by
  unfold semop1; rw [if_neg h0, if_pos h]
theorem semop1_no {v op : Int} (h0 : op ≠ 0) (h : ¬ (0 ≤ v + op ∧ v + op ≤ SEMVMX)) : semop1 v op = none := by
  unfold semop1; rw [if_neg h0, if_neg h]

/-- The adjustment a process has in each mode. -/
def adjOf : Mode → Vals
  | .reading => ⟨-1, 0⟩
  | .writing => ⟨0, -1⟩
  | _ => ⟨0, 0⟩

structure Inv (s : State M L) : Prop where
  exist : s.exist = true
  r : s.sem.r = (cnt .reading s.procs : Nat)
  w : s.sem.w = (cnt .writing s.procs : Nat)
  one : cnt .writing s.procs ≤ 1
  excl : 0 < cnt .writing s.procs → cnt .reading s.procs = 0
  adj : ∀ p ∈ s.procs, p.adj = adjOf p.mode
  set : ∀ p ∈ s.procs, p.mode ≠ .missing ∧ p.mode ≠ .setR ∧ p.mode ≠ .setW
  cap : s.sem.r ≤ SEMVMX

theorem mem_set {α} {ps : List α} {i : Nat} {q x : α} (h : x ∈ ps.set i q) : x ∈ ps ∨ x = q := by
  exact List.mem_or_eq_of_mem_set h

theorem inv_step {wbody : M → L → M × L} {rbody : M → L → L} {s s' : State M L} {a : Label L} (h : Inv s)
    (hs : step wbody rbody s a = some s') : Inv s' := by
  have keep : ∀ (i : Nat) (p q : Proc L) (mem : M), s.procs[i]? = some p → q.adj = adjOf q.mode →
      (q.mode ≠ .missing ∧ q.mode ≠ .setR ∧ q.mode ≠ .setW) →
      (p.mode = .reading ↔ q.mode = .reading) → (p.mode = .writing ↔ q.mode = .writing) → Inv ({ s with mem := mem }.upd i q) := by
    intro i p q mem hp ha hq hr hw
    have c1 := cnt_set (m := .reading) (q := q) hp
    have c2 := cnt_set (m := .writing) (q := q) hp
    simp only [hr, hw] at c1 c2
    have c1' : cnt .reading (s.procs.set i q) = cnt .reading s.procs := by omega
    have c2' : cnt .writing (s.procs.set i q) = cnt .writing s.procs := by omega
    refine ⟨h.exist, ?_, ?_, ?_, ?_, ?_, ?_, h.cap⟩
    · show s.sem.r = (cnt .reading (s.procs.set i q) : Nat); rw [c1']; exact h.r
    · show s.sem.w = (cnt .writing (s.procs.set i q) : Nat); rw [c2']; exact h.w
    · show cnt .writing (s.procs.set i q) ≤ 1; rw [c2']; exact h.one
    · show 0 < cnt .writing (s.procs.set i q) → cnt .reading (s.procs.set i q) = 0; rw [c1', c2']; exact h.excl
    · intro x hx
      rcases mem_set hx with hx | rfl
      · exact h.adj x hx
      · exact ha
    · intro x hx
      rcases mem_set hx with hx | rfl
      · exact h.set x hx
      · exact hq
  have chg : ∀ (i : Nat) (p q : Proc L) (v : Vals), s.procs[i]? = some p → q.adj = adjOf q.mode →
      (q.mode ≠ .missing ∧ q.mode ≠ .setR ∧ q.mode ≠ .setW) →
      v.r = (cnt .reading (s.procs.set i q) : Nat) → v.w = (cnt .writing (s.procs.set i q) : Nat) →
      cnt .writing (s.procs.set i q) ≤ 1 → (0 < cnt .writing (s.procs.set i q) → cnt .reading (s.procs.set i q) = 0) →
      v.r ≤ SEMVMX → Inv ({ s with sem := v }.upd i q) := by
    intro i p q v hp ha hq hr hw h1 h2 h3
    refine ⟨h.exist, hr, hw, h1, h2, ?_, ?_, h3⟩
    · intro x hx
      rcases mem_set hx with hx | rfl
      · exact h.adj x hx
      · exact ha
    · intro x hx
      rcases mem_set hx with hx | rfl
      · exact h.set x hx
      · exact hq
  have hR := h.r
  have hW := h.w
  have h1 := h.one
  have hE := h.excl
  have hC := h.cap
  cases a with
  | get i =>
    simp only [step] at hs
    cases hp : s.procs[i]? with
    | none => simp [hp] at hs
    | some p =>
      simp only [hp] at hs
      split at hs
      · rename_i hc
        simp only [Option.some.injEq] at hs
        subst hs
        exact keep i p _ s.mem hp (by have := h.adj p (List.mem_of_getElem? hp); rw [hc.1] at this; exact this) (by simp)
          (by simp [hc.1]) (by simp [hc.1])
      · simp at hs
  | getMissing i =>
    simp only [step] at hs
    cases hp : s.procs[i]? with
    | none => simp [hp] at hs
    | some p => simp [hp, h.exist] at hs
  | create i =>
    simp only [step] at hs
    cases hp : s.procs[i]? with
    | none => simp [hp] at hs
    | some p => simp [hp, (h.set p (List.mem_of_getElem? hp)).1] at hs
  | setR i =>
    simp only [step] at hs
    cases hp : s.procs[i]? with
    | none => simp [hp] at hs
    | some p => simp [hp, (h.set p (List.mem_of_getElem? hp)).2.1] at hs
  | setW i =>
    simp only [step] at hs
    cases hp : s.procs[i]? with
    | none => simp [hp] at hs
    | some p => simp [hp, (h.set p (List.mem_of_getElem? hp)).2.2] at hs
  | lockR i l =>
    simp only [step] at hs
    cases hp : s.procs[i]? with
    | none => simp [hp] at hs
    | some p =>
      simp only [hp] at hs
      split at hs
      · rename_i hc
        have ha := h.adj p (List.mem_of_getElem? hp)
        rw [hc] at ha
        simp only [State.doSem, lock_read_rw, semop, Vals.get, if_true] at hs
        by_cases hw : s.sem.w = 0
        · simp only [hw, semop1_zero, Vals.set, Vals.get] at hs
          by_cases hb : 0 ≤ s.sem.r + 1 ∧ s.sem.r + 1 ≤ SEMVMX
          · simp only [semop1_ok (by decide) hb, Option.some.injEq] at hs
            subst hs
            have c1 := cnt_set (m := .reading) (q := ⟨.reading, l, { r := p.adj.r - 1, w := p.adj.w - 0 }⟩) hp
            have c2 := cnt_set (m := .writing) (q := ⟨.reading, l, { r := p.adj.r - 1, w := p.adj.w - 0 }⟩) hp
            simp only [hc, reduceCtorEq, if_false, if_true, Nat.add_zero] at c1 c2
            refine chg i p _ _ hp ?_ ?_ ?_ ?_ ?_ ?_ ?_
            · simp [ha, adjOf]
            · simp
            · show s.sem.r + 1 = _; omega
            · rw [c2]; exact hw ▸ hW
            · omega
            · omega
            · exact hb.2
          · simp only [semop1_no (by decide) hb] at hs
            simp at hs
        · simp only [semop1_wait hw] at hs
          simp at hs
      · simp at hs
  | lockW i l =>
    simp only [step] at hs
    cases hp : s.procs[i]? with
    | none => simp [hp] at hs
    | some p =>
      simp only [hp] at hs
      split at hs
      · rename_i hc
        have ha := h.adj p (List.mem_of_getElem? hp)
        rw [hc] at ha
        simp only [State.doSem, lock_write_rw, semop, Vals.get, if_true] at hs
        by_cases hr : s.sem.r = 0
        · by_cases hw : s.sem.w = 0
          · simp only [hr, hw, semop1_zero, Vals.set, Vals.get, show semop1 0 1 = some 1 from rfl, Option.some.injEq] at hs
            subst hs
            have c1 := cnt_set (m := .reading) (q := ⟨.writing, l, { r := p.adj.r - 0, w := p.adj.w - 0 - 1 }⟩) hp
            have c2 := cnt_set (m := .writing) (q := ⟨.writing, l, { r := p.adj.r - 0, w := p.adj.w - 0 - 1 }⟩) hp
            simp only [hc, reduceCtorEq, if_false, if_true] at c1 c2
            refine chg i p _ _ hp ?_ ?_ ?_ ?_ ?_ ?_ ?_
            · simp [ha, adjOf]
            · simp
            · simp only [Nat.add_zero] at c1; rw [c1]; exact hr ▸ hR
            · show (1 : Int) = _; omega
            · omega
            · omega
            · show (0 : Int) ≤ SEMVMX; decide
          · simp only [hr, semop1_zero, Vals.set, Vals.get, semop1_wait hw] at hs
            simp at hs
        · simp only [semop1_wait hr] at hs
          simp at hs
      · simp at hs
  | body i =>
    simp only [step] at hs
    cases hp : s.procs[i]? with
    | none => simp [hp] at hs
    | some p =>
      have ha := h.adj p (List.mem_of_getElem? hp)
      simp only [hp] at hs
      split at hs
      · rename_i hc
        simp only [Option.some.injEq] at hs
        subst hs
        exact keep i p _ _ hp ha (h.set p (List.mem_of_getElem? hp)) (by simp) (by simp)
      · split at hs
        · simp only [Option.some.injEq] at hs
          subst hs
          exact keep i p _ _ hp ha (h.set p (List.mem_of_getElem? hp)) (by simp) (by simp)
        · simp at hs
  | unlock i =>
    simp only [step] at hs
    cases hp : s.procs[i]? with
    | none => simp [hp] at hs
    | some p =>
      have ha := h.adj p (List.mem_of_getElem? hp)
      simp only [hp] at hs
      split at hs
      · rename_i hc
        rw [hc] at ha
        have hpos := cnt_pos hp hc
        have hw1 : s.sem.w = 1 := by omega
        simp only [State.doSem, unlock_write_rw, semop, Vals.get, if_true, hw1, Vals.set] at hs
        simp only [show semop1 1 (-1) = some 0 from rfl, Option.some.injEq] at hs
        subst hs
        have c1 := cnt_set (m := .reading) (q := ⟨.out, p.loc, { r := p.adj.r, w := p.adj.w - -1 }⟩) hp
        have c2 := cnt_set (m := .writing) (q := ⟨.out, p.loc, { r := p.adj.r, w := p.adj.w - -1 }⟩) hp
        simp only [hc, reduceCtorEq, if_false, if_true, Nat.add_zero] at c1 c2
        refine chg i p _ _ hp ?_ ?_ ?_ ?_ ?_ ?_ ?_
        · simp [ha, adjOf]
        · simp
        · rw [c1]; exact hR
        · show (0 : Int) = _; omega
        · omega
        · omega
        · exact hC
      · split at hs
        · rename_i hc
          rw [hc] at ha
          have hpos := cnt_pos hp hc
          simp only [State.doSem, unlock_read_rw, semop, Vals.get, if_true, Vals.set] at hs
          by_cases hb : 0 ≤ s.sem.r + -1 ∧ s.sem.r + -1 ≤ SEMVMX
          · simp only [semop1_ok (by decide) hb, Option.some.injEq] at hs
            subst hs
            have c1 := cnt_set (m := .reading) (q := ⟨.out, p.loc, { r := p.adj.r - -1, w := p.adj.w }⟩) hp
            have c2 := cnt_set (m := .writing) (q := ⟨.out, p.loc, { r := p.adj.r - -1, w := p.adj.w }⟩) hp
            simp only [hc, reduceCtorEq, if_false, if_true, Nat.add_zero] at c1 c2
            refine chg i p _ _ hp ?_ ?_ ?_ ?_ ?_ ?_ ?_
            · simp [ha, adjOf]
            · simp
            · show s.sem.r + -1 = _; omega
            · rw [c2]; exact hW
            · omega
            · omega
            · exact hb.2
          · simp only [semop1_no (by decide) hb] at hs
            simp at hs
        · simp at hs
  | kill i =>
    simp only [step] at hs
    cases hp : s.procs[i]? with
    | none => simp [hp] at hs
    | some p =>
      have ha := h.adj p (List.mem_of_getElem? hp)
      simp only [hp] at hs
      split at hs
      · simp at hs
      · simp only [Option.some.injEq] at hs
        subst hs
        have c1 := cnt_set (m := .reading) (q := { p with mode := .dead, adj := ⟨0, 0⟩ }) hp
        have c2 := cnt_set (m := .writing) (q := { p with mode := .dead, adj := ⟨0, 0⟩ }) hp
        simp only [reduceCtorEq, if_false, Nat.add_zero] at c1 c2
        refine chg i p _ _ hp rfl ?_ ?_ ?_ ?_ ?_ ?_
        · simp
        · simp only [undo, undo1, ha]
          by_cases hr : p.mode = .reading
          · rw [if_pos hr] at c1
            simp only [hr, adjOf]
            rw [if_neg (by omega)]; omega
          · rw [if_neg hr] at c1
            have : (adjOf p.mode).r = 0 := by cases hm : p.mode <;> simp_all [adjOf]
            rw [this, if_neg (by omega)]; omega
        · simp only [undo, undo1, ha]
          by_cases hr : p.mode = .writing
          · rw [if_pos hr] at c2
            simp only [hr, adjOf]
            rw [if_neg (by omega)]; omega
          · rw [if_neg hr] at c2
            have : (adjOf p.mode).w = 0 := by cases hm : p.mode <;> simp_all [adjOf]
            rw [this, if_neg (by omega)]; omega
        · omega
        · omega
        · simp only [undo, undo1, ha]
          have : (adjOf p.mode).r ≤ 0 := by cases hm : p.mode <;> simp [adjOf]
          split
          · decide
          · omega
  | spawn i =>
    simp only [step] at hs
    cases hp : s.procs[i]? with
    | none => simp [hp] at hs
    | some p =>
      have ha := h.adj p (List.mem_of_getElem? hp)
      simp only [hp] at hs
      split at hs
      · rename_i hc
        rw [hc] at ha
        simp only [Option.some.injEq] at hs
        subst hs
        exact keep i p _ s.mem hp ha (by simp) (by simp [hc]) (by simp [hc])
      · simp at hs

theorem inv_exec {wbody : M → L → M × L} {rbody : M → L → L} : ∀ {as : List (Label L)} {s s' : State M L}, Inv s →
    exec wbody rbody s as = some s' → Inv s' := by
  intro as
  induction as with
  | nil => intro s s' h he; simp only [exec, Option.some.injEq] at he; exact he ▸ h
  | cons a as ih =>
    intro s s' h he
    simp only [exec] at he
    cases hs : step wbody rbody s a with
    | none => simp [hs] at he
    | some s1 => simp only [hs] at he; exact ih (inv_step h hs) he

theorem inv_excl {s : State M L} (h : Inv s) {i j : Nat} {p q : Proc L} (hp : s.procs[i]? = some p) (hq : s.procs[j]? = some q)
    (hij : i ≠ j) (hw : p.mode = .writing) : q.mode ≠ .writing ∧ q.mode ≠ .reading := by
  have h1 := cnt_pos hp hw
  refine ⟨?_, ?_⟩
  · intro hq'
    have := cnt_two hij hp hq hw hq'
    have := h.one
    omega
  · intro hq'
    have h2 := cnt_pos hq hq'
    have := h.excl h1
    omega

end Verif.RwLock

namespace Verif.RwLock

variable {M L : Type}

/-- the process a label belongs to -/
def Label.pid : Label L → Nat
  | .get i | .getMissing i | .create i | .setR i | .setW i | .lockR i _ | .lockW i _ | .body i | .unlock i | .kill i | .spawn i => i

def Label.isBody : Label L → Bool
  | .body _ => true
  | _ => false

/-- leaves the critical section -/
def Label.leaves : Label L → Bool
  | .unlock _ | .kill _ => true
  | _ => false

theorem doSem_some {s s' : State M L} {i : Nat} {p : Proc L} {ops m l} (h : s.doSem i p ops m l = some s') :
    ∃ v adj, s' = { s with sem := v }.upd i ⟨m, l, adj⟩ := by
  unfold State.doSem at h
  split at h
  · rename_i v adj _
    simp only [Option.some.injEq] at h
    exact ⟨v, adj, h.symm⟩
  · simp at h

/-- what a step of any other kind or process does to the memory and to process `i` -/
theorem step_frame {wbody : M → L → M × L} {rbody : M → L → L} {s s' : State M L} {a : Label L} (h : Inv s)
    (hs : step wbody rbody s a = some s') {i : Nat} {p : Proc L} (hp : s.procs[i]? = some p) (hm : p.mode = .writing ∨ p.mode = .reading)
    (hl : ¬ (a.pid = i ∧ a.leaves = true)) (hb : ¬ (a.pid = i ∧ a.isBody = true)) : s'.mem = s.mem ∧ s'.procs[i]? = some p := by
  have other : ∀ (j : Nat) (q : Proc L), j ≠ i → (s.procs.set j q)[i]? = some p := by
    intro j q hj
    rw [List.getElem?_set, if_neg hj]; exact hp
  have absurd_mode : ∀ (j : Nat) (q : Proc L), s.procs[j]? = some q → q.mode ≠ .writing → q.mode ≠ .reading → j ≠ i := by
    rintro j q hq h1 h2 rfl
    rw [hp] at hq
    simp only [Option.some.injEq] at hq
    subst hq
    rcases hm with hm | hm
    · exact h1 hm
    · exact h2 hm
  cases a with
  | get j =>
    simp only [step] at hs
    cases hq : s.procs[j]? with
    | none => simp [hq] at hs
    | some q =>
      simp only [hq] at hs
      split at hs
      · rename_i hc
        simp only [Option.some.injEq] at hs; subst hs
        exact ⟨rfl, other j _ (absurd_mode j q hq (by simp [hc.1]) (by simp [hc.1]))⟩
      · simp at hs
  | getMissing j =>
    simp only [step] at hs
    cases hq : s.procs[j]? with
    | none => simp [hq] at hs
    | some q => simp [hq, h.exist] at hs
  | create j =>
    simp only [step] at hs
    cases hq : s.procs[j]? with
    | none => simp [hq] at hs
    | some q => simp [hq, (h.set q (List.mem_of_getElem? hq)).1] at hs
  | setR j =>
    simp only [step] at hs
    cases hq : s.procs[j]? with
    | none => simp [hq] at hs
    | some q => simp [hq, (h.set q (List.mem_of_getElem? hq)).2.1] at hs
  | setW j =>
    simp only [step] at hs
    cases hq : s.procs[j]? with
    | none => simp [hq] at hs
    | some q => simp [hq, (h.set q (List.mem_of_getElem? hq)).2.2] at hs
  | lockR j l =>
    simp only [step] at hs
    cases hq : s.procs[j]? with
    | none => simp [hq] at hs
    | some q =>
      simp only [hq] at hs
      split at hs
      · rename_i hc
        obtain ⟨v, adj, rfl⟩ := doSem_some hs
        exact ⟨rfl, other j _ (absurd_mode j q hq (by simp [hc]) (by simp [hc]))⟩
      · simp at hs
  | lockW j l =>
    simp only [step] at hs
    cases hq : s.procs[j]? with
    | none => simp [hq] at hs
    | some q =>
      simp only [hq] at hs
      split at hs
      · rename_i hc
        obtain ⟨v, adj, rfl⟩ := doSem_some hs
        exact ⟨rfl, other j _ (absurd_mode j q hq (by simp [hc]) (by simp [hc]))⟩
      · simp at hs
  | body j =>
    simp only [Label.pid, Label.isBody, and_true] at hb
    simp only [step] at hs
    cases hq : s.procs[j]? with
    | none => simp [hq] at hs
    | some q =>
      simp only [hq] at hs
      split at hs
      · rename_i hc
        exfalso
        have := inv_excl h hq hp hb hc
        rcases hm with hm | hm
        · exact this.1 hm
        · exact this.2 hm
      · split at hs
        · simp only [Option.some.injEq] at hs; subst hs
          exact ⟨rfl, other j _ hb⟩
        · simp at hs
  | unlock j =>
    simp only [Label.pid, Label.leaves, and_true] at hl
    simp only [step] at hs
    cases hq : s.procs[j]? with
    | none => simp [hq] at hs
    | some q =>
      simp only [hq] at hs
      split at hs
      · obtain ⟨v, adj, rfl⟩ := doSem_some hs
        exact ⟨rfl, other j _ hl⟩
      · split at hs
        · obtain ⟨v, adj, rfl⟩ := doSem_some hs
          exact ⟨rfl, other j _ hl⟩
        · simp at hs
  | kill j =>
    simp only [Label.pid, Label.leaves, and_true] at hl
    simp only [step] at hs
    cases hq : s.procs[j]? with
    | none => simp [hq] at hs
    | some q =>
      simp only [hq] at hs
      split at hs
      · simp at hs
      · simp only [Option.some.injEq] at hs; subst hs
        exact ⟨rfl, other j _ hl⟩
  | spawn j =>
    simp only [step] at hs
    cases hq : s.procs[j]? with
    | none => simp [hq] at hs
    | some q =>
      simp only [hq] at hs
      split at hs
      · rename_i hc
        simp only [Option.some.injEq] at hs; subst hs
        exact ⟨rfl, other j _ (absurd_mode j q hq (by simp [hc]) (by simp [hc]))⟩
      · simp at hs

theorem step_body {wbody : M → L → M × L} {rbody : M → L → L} {s s' : State M L} {i : Nat} {p : Proc L} (hp : s.procs[i]? = some p)
    (hs : step wbody rbody s (.body i) = some s') :
    (p.mode = .writing → s'.mem = (wbody s.mem p.loc).1 ∧ s'.procs[i]? = some { p with loc := (wbody s.mem p.loc).2 }) ∧
    (p.mode = .reading → s'.mem = s.mem ∧ s'.procs[i]? = some { p with loc := rbody s.mem p.loc }) := by
  have hi : i < s.procs.length := (List.getElem?_eq_some_iff.mp hp).1
  simp only [step, hp] at hs
  refine ⟨?_, ?_⟩
  · intro hm
    rw [if_pos hm] at hs
    simp only [Option.some.injEq] at hs; subst hs
    exact ⟨rfl, by simp [State.upd, hi]⟩
  · intro hm
    rw [if_neg (by rw [hm]; simp), if_pos hm] at hs
    simp only [Option.some.injEq] at hs; subst hs
    exact ⟨rfl, by simp [State.upd, hi]⟩

end Verif.RwLock
