/-
  Lemmas for Verif.Txml: simulation of the loading of an object by the loading of its parts.
-/
import Verif.Txml.Spec

set_option linter.unusedSimpArgs false
set_option linter.unusedVariables false

namespace Verif.Txml
open Spec

/-! ### Levels -/

/-- The same level, possibly with the flag set. -/
def LvLe (l l' : Level) : Prop := l'.key = l.key ∧ (l.pushed = true → l'.pushed = true)

def OptLe : Option Level → Option Level → Prop
  | none, none => True
  | some l, some l' => LvLe l l'
  | _, _ => False

theorem optLe_refl (p : Option Level) : OptLe p p := by
  cases p with
  | none => trivial
  | some l => exact ⟨rfl, id⟩

theorem lvLe_trans {a b c : Level} (h : LvLe a b) (h' : LvLe b c) : LvLe a c :=
  ⟨h'.1.trans h.1, fun x => h'.2 (h.2 x)⟩

theorem optLe_trans {a b c : Option Level} (h : OptLe a b) (h' : OptLe b c) : OptLe a c := by
  cases a <;> cases b <;> cases c <;> simp [OptLe] at *
  exact lvLe_trans h h'

theorem optLe_some {l : Level} {p : Option Level} (h : OptLe (some l) p) : ∃ l', p = some l' ∧ LvLe l l' := by
  cases p with
  | none => exact h.elim
  | some l' => exact ⟨l', rfl, h⟩

mutual
theorem setVal_le (t : Text) : ∀ (v : Val) (p : Option Level) (r : List Level) (v' : Val) (p' : Option Level) (r' : List Level),
    setVal t v p r = .ok (v', p', r') → OptLe p p' ∧ r'.length = r.length
  | .leaf _, p, r, v', p', r', h => by
    simp only [setVal, Res.ok.injEq, Prod.mk.injEq] at h
    obtain ⟨-, rfl, rfl⟩ := h
    exact ⟨optLe_refl p, rfl⟩
  | .str fs, p, r, v', p', r', h => by
    simp only [setVal] at h
    cases h1 : detFlds t fs p r with
    | ub => rw [h1] at h; cases h
    | ok x =>
      obtain ⟨fs', p1, r1⟩ := x
      rw [h1] at h
      simp only [Res.ok_bind, Res.ok.injEq, Prod.mk.injEq] at h
      obtain ⟨-, rfl, rfl⟩ := h
      exact detFlds_le t fs p r _ _ _ h1
  | .seq d items, p, r, v', p', r', h => by
    simp only [setVal] at h
    cases p with
    | none => cases h
    | some l =>
      simp only at h
      by_cases hp : l.pushed = false
      · rw [if_pos hp] at h
        cases h1 : setVal t d (some { l with pushed := true }) r with
        | ub => rw [h1] at h; cases h
        | ok x =>
          obtain ⟨x', p1, r1⟩ := x
          rw [h1] at h
          simp only [Res.ok_bind, Res.ok.injEq, Prod.mk.injEq] at h
          obtain ⟨-, rfl, rfl⟩ := h
          have := setVal_le t d _ r _ _ _ h1
          refine ⟨optLe_trans ?_ this.1, this.2⟩
          exact ⟨rfl, fun _ => rfl⟩
      · rw [if_neg hp] at h
        cases h1 : setBack t items (some l) r with
        | ub => rw [h1] at h; cases h
        | ok x =>
          obtain ⟨x', p1, r1⟩ := x
          rw [h1] at h
          simp only [Res.ok_bind, Res.ok.injEq, Prod.mk.injEq] at h
          obtain ⟨-, rfl, rfl⟩ := h
          exact setBack_le t items _ r _ _ _ h1
theorem detFlds_le (t : Text) : ∀ (fs : Flds) (p : Option Level) (r : List Level) (fs' : Flds) (p' : Option Level) (r' : List Level),
    detFlds t fs p r = .ok (fs', p', r') → OptLe p p' ∧ r'.length = r.length
  | .nil, p, r, v', p', r', h => by
    simp only [detFlds, Res.ok.injEq, Prod.mk.injEq] at h
    obtain ⟨-, rfl, rfl⟩ := h
    exact ⟨optLe_refl p, rfl⟩
  | .cons k v fs, p, r, v', p', r', h => by
    cases r with
    | nil =>
      simp only [detFlds] at h
      by_cases hk : k ≠ []
      · rw [if_pos hk] at h
        cases h1 : detFlds t fs p [] with
        | ub => rw [h1] at h; cases h
        | ok x =>
          obtain ⟨x', p1, r1⟩ := x
          rw [h1] at h
          simp only [Res.ok_bind, Res.ok.injEq, Prod.mk.injEq] at h
          obtain ⟨-, rfl, rfl⟩ := h
          exact detFlds_le t fs _ _ _ _ _ h1
      · rw [if_neg hk] at h
        cases h1 : setVal t v p [] with
        | ub => rw [h1] at h; cases h
        | ok x =>
          obtain ⟨x', p1, r1⟩ := x
          rw [h1] at h
          simp only [Res.ok_bind] at h
          have e1 := setVal_le t v _ _ _ _ _ h1
          cases h2 : detFlds t fs p1 r1 with
          | ub => rw [h2] at h; cases h
          | ok y =>
            obtain ⟨y', p2, r2⟩ := y
            rw [h2] at h
            simp only [Res.ok_bind, Res.ok.injEq, Prod.mk.injEq] at h
            obtain ⟨-, rfl, rfl⟩ := h
            have e2 := detFlds_le t fs _ _ _ _ _ h2
            exact ⟨optLe_trans e1.1 e2.1, e2.2.trans e1.2⟩
    | cons l r =>
      simp only [detFlds] at h
      by_cases hk : k = l.key
      · rw [if_pos hk] at h
        cases h1 : setVal t v (some l) r with
        | ub => rw [h1] at h; cases h
        | ok x =>
          obtain ⟨x', p1, r1⟩ := x
          rw [h1] at h
          simp only [Res.ok_bind] at h
          have e1 := setVal_le t v _ _ _ _ _ h1
          obtain ⟨l', rfl, hl'⟩ := optLe_some e1.1
          cases h2 : detFlds t fs p ((some l').toList ++ r1) with
          | ub => rw [h2] at h; cases h
          | ok y =>
            obtain ⟨y', p2, r2⟩ := y
            rw [h2] at h
            simp only [Res.ok_bind, Res.ok.injEq, Prod.mk.injEq] at h
            obtain ⟨-, rfl, rfl⟩ := h
            have e2 := detFlds_le t fs _ _ _ _ _ h2
            refine ⟨e2.1, e2.2.trans ?_⟩
            simp [e1.2]
      · rw [if_neg hk] at h
        cases h1 : detFlds t fs p (l :: r) with
        | ub => rw [h1] at h; cases h
        | ok x =>
          obtain ⟨x', p1, r1⟩ := x
          rw [h1] at h
          simp only [Res.ok_bind, Res.ok.injEq, Prod.mk.injEq] at h
          obtain ⟨-, rfl, rfl⟩ := h
          exact detFlds_le t fs _ _ _ _ _ h1
theorem setBack_le (t : Text) : ∀ (vs : Vals) (p : Option Level) (r : List Level) (vs' : Vals) (p' : Option Level) (r' : List Level),
    setBack t vs p r = .ok (vs', p', r') → OptLe p p' ∧ r'.length = r.length
  | .nil, p, r, v', p', r', h => by simp [setBack] at h
  | .cons v .nil, p, r, v', p', r', h => by
    simp only [setBack] at h
    cases h1 : setVal t v p r with
    | ub => rw [h1] at h; cases h
    | ok x =>
      obtain ⟨x', p1, r1⟩ := x
      rw [h1] at h
      simp only [Res.ok_bind, Res.ok.injEq, Prod.mk.injEq] at h
      obtain ⟨-, rfl, rfl⟩ := h
      exact setVal_le t v _ _ _ _ _ h1
  | .cons v (.cons w vs), p, r, v', p', r', h => by
    rw [setBack] at h
    simp only at h
    cases h1 : setBack t (.cons w vs) p r with
    | ub => rw [h1] at h; cases h
    | ok x =>
      obtain ⟨x', p1, r1⟩ := x
      rw [h1] at h
      simp only [Res.ok_bind, Res.ok.injEq, Prod.mk.injEq] at h
      obtain ⟨-, rfl, rfl⟩ := h
      exact setBack_le t (.cons w vs) _ _ _ _ _ h1
end

/-! ### Simulation -/

/-- `D` on `C s`, with the levels `b s` before the others, does what `D'` does on `s`. -/
structure Sim {α β : Type} (D : Det α) (D' : Det β) (C : β → α) (b : β → List Level) (P : β → Prop) : Prop where
  sim : ∀ t s stk s' stk', P s → D' t s stk = .ok (s', stk') → D t (C s) (b s ++ stk) = .ok (C s', b s' ++ stk') ∧ P s' ∧ stk'.length = stk.length

/-- The elements that are open are enough for the events. -/
def fits : Nat → List Ev → Prop
  | _, [] => True
  | n, .beg _ _ :: es => fits (n + 1) es
  | n, .chars _ :: es => fits n es
  | n, .fin :: es => 0 < n ∧ fits (n - 1) es

section
variable {α β : Type} {D : Det α} {D' : Det β} {C : β → α} {b : β → List Level} {P : β → Prop}

def emb (C : β → α) (b : β → List Level) (s : St β) : St α := ⟨C s.obj, b s.obj ++ s.levels, s.cur⟩

theorem dropLast_app (l stk : List Level) (h : stk.length ≠ 0) : (l ++ stk).dropLast = l ++ stk.dropLast := by
  apply List.dropLast_append_of_ne_nil
  intro hc; rw [hc] at h; exact h rfl

theorem sim_probe (H : Sim D D' C b P) (s s' : St β) (kv : Text × Text) (hP : P s.obj) (h : probe D' s kv = .ok s') :
    probe D (emb C b s) kv = .ok (emb C b s') ∧ P s'.obj ∧ s'.levels.length = s.levels.length := by
  simp only [probe] at h
  cases h1 : D' kv.2 s.obj (s.levels ++ [⟨kv.1, false⟩]) with
  | ub => rw [h1] at h; cases h
  | ok x =>
    obtain ⟨o, ls⟩ := x
    rw [h1] at h
    simp only [Res.ok_bind, Res.ok.injEq] at h
    subst h
    obtain ⟨e1, e2, e3⟩ := H.sim _ _ _ _ _ hP h1
    refine ⟨?_, e2, ?_⟩
    · simp only [probe, emb, List.append_assoc]
      rw [e1]
      simp only [Res.ok_bind, Res.ok.injEq, St.mk.injEq, true_and, and_true]
      exact dropLast_app _ _ (by rw [e3]; simp)
    · simp [e3]

theorem sim_probes (H : Sim D D' C b P) : ∀ (as : List (Text × Text)) (s s' : St β), P s.obj → probes D' s as = .ok s' →
    probes D (emb C b s) as = .ok (emb C b s') ∧ P s'.obj ∧ s'.levels.length = s.levels.length := by
  intro as
  induction as with
  | nil => intro s s' hP h; simp only [probes, Res.ok.injEq] at h; subst h; exact ⟨rfl, hP, rfl⟩
  | cons kv as ih =>
    intro s s' hP h
    simp only [probes] at h
    cases h1 : probe D' s kv with
    | ub => rw [h1] at h; cases h
    | ok s1 =>
      rw [h1] at h
      simp only [Res.ok_bind] at h
      obtain ⟨e1, e2, e3⟩ := sim_probe H s s1 kv hP h1
      obtain ⟨f1, f2, f3⟩ := ih s1 s' e2 h
      refine ⟨?_, f2, f3.trans e3⟩
      simp only [probes, e1, Res.ok_bind, f1]

theorem probes_append (D : Det α) (as bs : List (Text × Text)) : ∀ s, probes D s (as ++ bs) = (do let s ← probes D s as; probes D s bs) := by
  induction as with
  | nil => intro s; simp [probes]
  | cons kv as ih =>
    intro s
    simp only [List.cons_append, probes]
    cases probe D s kv with
    | ub => rfl
    | ok s1 => simp only [Res.ok_bind]; exact ih s1

theorem step_beg (D : Det α) (s : St α) (n : Text) (as : List (Text × Text)) :
    step D s (.beg n as) = probes D ⟨s.obj, s.levels ++ [⟨n, false⟩], s.cur⟩ (as ++ [([], [])]) := by
  rw [probes_append]
  simp only [step]
  cases probes D ⟨s.obj, s.levels ++ [⟨n, false⟩], s.cur⟩ as with
  | ub => rfl
  | ok s1 =>
    simp only [Res.ok_bind, probes]
    cases probe D s1 ([], []) <;> rfl

theorem sim_run (H : Sim D D' C b P) : ∀ (es : List Ev) (s s' : St β), P s.obj → fits s.levels.length es → run D' s es = .ok s' →
    run D (emb C b s) es = .ok (emb C b s') ∧ P s'.obj := by
  intro es
  induction es with
  | nil => intro s s' hP _ h; simp only [run, Res.ok.injEq] at h; subst h; exact ⟨rfl, hP⟩
  | cons e es ih =>
    intro s s' hP hf h
    simp only [run] at h
    cases h1 : step D' s e with
    | ub => rw [h1] at h; cases h
    | ok s1 =>
      rw [h1] at h
      simp only [Res.ok_bind] at h
      suffices hs : step D (emb C b s) e = .ok (emb C b s1) ∧ P s1.obj ∧ fits s1.levels.length es by
        obtain ⟨i1, i2⟩ := ih s1 s' hs.2.1 hs.2.2 h
        exact ⟨by simp only [run, hs.1, Res.ok_bind, i1], i2⟩
      cases e with
      | beg n as =>
        rw [step_beg] at h1
        obtain ⟨e1, e2, e3⟩ := sim_probes H _ _ _ (by exact hP) h1
        refine ⟨?_, e2, ?_⟩
        · rw [step_beg]
          have : (⟨(emb C b s).obj, (emb C b s).levels ++ [⟨n, false⟩], (emb C b s).cur⟩ : St α) = emb C b ⟨s.obj, s.levels ++ [⟨n, false⟩], s.cur⟩ := by
            simp [emb]
          rw [this, e1]
        · rw [e3]
          simpa [fits] using hf
      | chars t =>
        simp only [step, Res.ok.injEq] at h1
        subst h1
        exact ⟨rfl, hP, hf⟩
      | fin =>
        simp only [step] at h1
        cases h2 : D' s.cur s.obj s.levels with
        | ub => rw [h2] at h1; cases h1
        | ok x =>
          obtain ⟨o, ls⟩ := x
          rw [h2] at h1
          simp only [Res.ok_bind, Res.ok.injEq] at h1
          subst h1
          obtain ⟨e1, e2, e3⟩ := H.sim _ _ _ _ _ hP h2
          obtain ⟨hf1, hf2⟩ := hf
          refine ⟨?_, e2, ?_⟩
          · simp only [step, emb]
            rw [e1]
            simp only [Res.ok_bind, Res.ok.injEq, St.mk.injEq, true_and, and_true]
            exact dropLast_app _ _ (by rw [e3]; omega)
          · simpa [e3] using hf2

/-- What happens between the push of an element's level and its pop. -/
def whole (D : Det α) (s : St α) (as : List (Text × Text)) (c : Nodes) : Res (α × List Level) := do
  let s ← probes D s as
  let s ← run D s (nodeEvents c)
  D s.cur s.obj s.levels

theorem run_append (D : Det α) (es fs : List Ev) : ∀ s, run D s (es ++ fs) = (do let s ← run D s es; run D s fs) := by
  induction es with
  | nil => intro s; simp [run]
  | cons e es ih =>
    intro s
    simp only [List.cons_append, run]
    cases step D s e with
    | ub => rfl
    | ok s1 => simp only [Res.ok_bind]; exact ih s1

theorem run_events (D : Det α) (s : St α) (n : Text) (as : List (Text × Text)) (c : Nodes) (o : α) (ls : List Level)
    (h : whole D ⟨s.obj, s.levels ++ [⟨n, false⟩], s.cur⟩ (as ++ [([], [])]) c = .ok (o, ls)) :
    run D s (events (.mk n as c)) = .ok ⟨o, ls.dropLast, []⟩ := by
  simp only [events, run, step_beg]
  simp only [whole] at h
  cases h1 : probes D ⟨s.obj, s.levels ++ [⟨n, false⟩], s.cur⟩ (as ++ [([], [])]) with
  | ub => rw [h1] at h; cases h
  | ok s1 =>
    rw [h1] at h
    simp only [Res.ok_bind] at h ⊢
    rw [run_append]
    cases h2 : run D s1 (nodeEvents c) with
    | ub => rw [h2] at h; cases h
    | ok s2 =>
      rw [h2] at h
      simp only [Res.ok_bind] at h ⊢
      simp only [run, step, h, Res.ok_bind]

mutual
theorem fits_events (n : Nat) : ∀ (e : Elem) (es : List Ev), fits n (events e ++ es) ↔ fits n es
  | .mk _ _ c, es => by
    simp only [events, List.cons_append, fits, List.append_assoc]
    rw [fits_nodes (n + 1) c]
    simp [fits]
theorem fits_nodes (n : Nat) : ∀ (c : Nodes) (es : List Ev), fits n (nodeEvents c ++ es) ↔ fits n es
  | .nil, es => by simp [nodeEvents]
  | .text _ ns, es => by
    simp only [nodeEvents, List.cons_append, fits]
    exact fits_nodes n ns es
  | .elem e ns, es => by
    simp only [nodeEvents, List.append_assoc]
    rw [fits_events n e, fits_nodes n ns]
end

theorem sim_whole (H : Sim D D' C b P) (s : St β) (as : List (Text × Text)) (c : Nodes) (o : β) (ls : List Level) (hP : P s.obj)
    (h : whole D' s as c = .ok (o, ls)) : whole D (emb C b s) as c = .ok (C o, b o ++ ls) ∧ P o := by
  simp only [whole] at h ⊢
  cases h1 : probes D' s as with
  | ub => rw [h1] at h; cases h
  | ok s1 =>
    rw [h1] at h
    simp only [Res.ok_bind] at h
    obtain ⟨e1, e2, e3⟩ := sim_probes H _ _ _ hP h1
    rw [e1]
    simp only [Res.ok_bind]
    cases h2 : run D' s1 (nodeEvents c) with
    | ub => rw [h2] at h; cases h
    | ok s2 =>
      rw [h2] at h
      simp only [Res.ok_bind] at h
      obtain ⟨f1, f2⟩ := sim_run H _ _ _ e2 (by
        have := (fits_nodes s1.levels.length c []).mpr trivial
        simpa using this) h2
      rw [f1]
      simp only [Res.ok_bind]
      obtain ⟨g1, g2, -⟩ := H.sim _ _ _ _ _ f2 h
      exact ⟨g1, g2⟩
end

/-! ### The parts of an object -/

/-- `determine` from a variable on, whose level is the second component. -/
def detVal : Det (Val × Level) := fun t s stk =>
  match setVal t s.1 (some s.2) stk with
  | .ok (v, some l, stk) => .ok ((v, l), stk)
  | _ => .ub

/-- `determine` of an object on; the second component is the level before. -/
def detFs : Det (Flds × Option Level) := fun t s stk => do
  let (fs, p, stk) ← detFlds t s.1 s.2 stk
  .ok ((fs, p), stk)

theorem detVal_ok {t : Text} {v v' : Val} {l l' : Level} {stk stk' : List Level} :
    detVal t (v, l) stk = .ok ((v', l'), stk') ↔ setVal t v (some l) stk = .ok (v', some l', stk') := by
  unfold detVal
  constructor
  · intro h
    split at h
    · rename_i v1 l1 stk1 h1
      simp only [Res.ok.injEq, Prod.mk.injEq] at h
      obtain ⟨⟨rfl, rfl⟩, rfl⟩ := h
      exact h1
    · cases h
  · intro h
    simp only [h]

/-- An object in a variable. -/
theorem sim_str : Sim detVal detFs (fun s => (.str s.1, s.2.getD ⟨[], false⟩)) (fun _ => []) (fun s => s.2.isSome = true) := by
  constructor
  rintro t ⟨fs, p⟩ stk ⟨fs', p'⟩ stk' hp h
  simp only at hp
  obtain ⟨l, rfl⟩ := Option.isSome_iff_exists.mp hp
  unfold detFs at h
  cases h1 : detFlds t fs (some l) stk with
  | ub => simp only [h1] at h; cases h
  | ok x =>
    obtain ⟨a, b, c⟩ := x
    simp only [h1, Res.ok_bind, Res.ok.injEq, Prod.mk.injEq] at h
    obtain ⟨⟨rfl, rfl⟩, rfl⟩ := h
    obtain ⟨e1, e2⟩ := detFlds_le t fs _ _ _ _ _ h1
    obtain ⟨l', rfl, -⟩ := optLe_some e1
    refine ⟨?_, rfl, e2⟩
    simp only [Option.getD_some, List.nil_append]
    rw [detVal_ok]
    simp only [setVal, h1, Res.ok_bind]

theorem setBack_snoc (t : Text) (p : Option Level) (r : List Level) : ∀ (items : Vals) (x x' : Val) (p' : Option Level) (r' : List Level),
    setVal t x p r = .ok (x', p', r') → setBack t (items.snoc x) p r = .ok (items.snoc x', p', r')
  | .nil, x, x', p', r', h => by simp only [Vals.snoc, setBack, h, Res.ok_bind]
  | .cons v .nil, x, x', p', r', h => by
    simp only [Vals.snoc]
    rw [setBack]
    simp only [setBack, h, Res.ok_bind]
  | .cons v (.cons w vs), x, x', p', r', h => by
    have ih := setBack_snoc t p r (.cons w vs) x x' p' r' h
    simp only [Vals.snoc] at ih ⊢
    rw [setBack]
    simp only
    rw [ih]
    simp only [Res.ok_bind]

/-- The last item of a list that has been pushed already. -/
theorem sim_seq (d : Val) (items : Vals) :
    Sim detVal detVal (fun s => (.seq d (items.snoc s.1), s.2)) (fun _ => []) (fun s => s.2.pushed = true) := by
  constructor
  rintro t ⟨x, l⟩ stk ⟨x', l'⟩ stk' hp h
  simp only at hp
  rw [detVal_ok] at h
  obtain ⟨e1, e2⟩ := setVal_le t x _ _ _ _ _ h
  refine ⟨?_, e1.2 hp, e2⟩
  simp only [List.nil_append]
  rw [detVal_ok]
  simp only [setVal]
  rw [if_neg (by simp [hp]), setBack_snoc t _ _ items x x' _ _ h]
  simp only [Res.ok_bind]

theorem detFlds_other (t : Text) (l : Level) (r : List Level) : ∀ (fs : Flds) (p : Option Level), ¬ HasKey l.key fs → detFlds t fs p (l :: r) = .ok (fs, p, l :: r)
  | .nil, p, _ => by simp only [detFlds]
  | .cons k v fs, p, h => by
    simp only [HasKey, not_or] at h
    simp only [detFlds]
    rw [if_neg h.1, detFlds_other t l r fs p h.2]
    simp only [Res.ok_bind]

theorem upd_none (k : Text) (f : Val → Val) : ∀ (fs : Flds), ¬ HasKey k fs → upd k f fs = fs
  | .nil, _ => by simp only [upd]
  | .cons k' v fs, h => by
    simp only [HasKey, not_or] at h
    simp only [upd]
    rw [if_neg h.1, upd_none k f fs h.2]

theorem hasKey_upd (k k' : Text) (f : Val → Val) : ∀ (fs : Flds), HasKey k (upd k' f fs) ↔ HasKey k fs
  | .nil => by simp only [upd]
  | .cons k1 v fs => by
    simp only [upd]
    split <;> simp only [HasKey, hasKey_upd k k' f fs]

/-- The member with key `k`. -/
theorem detFlds_upd (t : Text) (k : Text) (p : Option Level) (l l' : Level) (hl : l.key = k) (hl' : l'.key = k) (r r' : List Level) (w w' : Val)
    (h : setVal t w (some l) r = .ok (w', some l', r')) : ∀ (fs : Flds), GoodFlds fs → HasKey k fs →
    detFlds t (upd k (fun _ => w) fs) p (l :: r) = .ok (upd k (fun _ => w') fs, p, l' :: r')
  | .nil, _, hk => hk.elim
  | .cons k1 v fs, hg, hk => by
    obtain ⟨-, hg2, -, hg3⟩ := hg
    simp only [upd]
    by_cases h1 : k1 = k
    · rw [if_pos h1, if_pos h1]
      simp only [detFlds]
      rw [if_pos (by rw [h1, hl])]
      simp only [h, Res.ok_bind, Option.toList, List.cons_append, List.nil_append]
      rw [h1] at hg2
      rw [upd_none k _ fs hg2, upd_none k _ fs hg2]
      rw [detFlds_other t l' r' fs p (by rw [hl']; exact hg2)]
      simp only [Res.ok_bind]
    · rw [if_neg h1, if_neg h1]
      simp only [detFlds]
      rw [if_neg (by rw [hl]; exact h1)]
      rw [detFlds_upd t k p l l' hl hl' r r' w w' h fs hg3 (hk.resolve_left h1)]
      simp only [Res.ok_bind]

theorem sim_fld (k : Text) (fs : Flds) (p : Option Level) (hg : GoodFlds fs) (hk : HasKey k fs) :
    Sim detFs detVal (fun s => (upd k (fun _ => s.1) fs, p)) (fun s => [s.2]) (fun s => s.2.key = k) := by
  constructor
  rintro t ⟨x, l⟩ stk ⟨x', l'⟩ stk' hp h
  simp only at hp
  rw [detVal_ok] at h
  obtain ⟨e1, e2⟩ := setVal_le t x _ _ _ _ _ h
  refine ⟨?_, e1.1.trans hp, e2⟩
  simp only [detFs, List.cons_append, List.nil_append]
  rw [detFlds_upd t k p l l' hp (e1.1.trans hp) stk stk' x x' h fs hg hk]
  simp only [Res.ok_bind]

/-- No member with key `k`. -/
theorem sim_other (l : Level) (fs : Flds) (p : Option Level) (hk : ¬ HasKey l.key fs) :
    Sim detFs (fun _ (s : Unit) stk => .ok (s, stk)) (fun _ => (fs, p)) (fun _ => [l]) (fun _ => True) := by
  constructor
  rintro t ⟨⟩ stk ⟨⟩ stk' - h
  simp only [Res.ok.injEq, Prod.mk.injEq, true_and] at h
  subst h
  refine ⟨?_, trivial, rfl⟩
  simp only [detFs, List.cons_append, List.nil_append]
  rw [detFlds_other t l stk fs p hk]
  simp only [Res.ok_bind]

/-- A string or a number takes any text. -/
theorem sim_leaf (l : Level) : ∀ (t : Text) (x : Option Text) (stk : List Level), detVal t (.leaf x, l) stk = .ok ((.leaf (some t), l), stk) := by
  intro t x stk
  rw [detVal_ok]
  simp only [setVal]

end Verif.Txml
