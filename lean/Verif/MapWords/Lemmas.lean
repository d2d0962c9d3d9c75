import Verif.MapWords.Model
import Verif.MapTorn.Lemmas
import Verif.MapSys.Props
/-
  The system with values of several words simulates the one with values of one access.
-/
set_option linter.unusedVariables false
set_option linter.unusedSimpArgs false

namespace Verif.MapWords

open Verif.ShmPool Verif.ShmMap Verif.MapSys Verif.MapTorn

variable {W : Type} {n N H : Nat}

/-! ## The lock does not look at the local states -/

def absP (p : RwLock.Proc (LocW n W)) : RwLock.Proc (Loc (Val n W)) := ⟨p.mode, p.loc.l, p.adj⟩

/-- The state of Verif/MapSys with memory `am`. -/
def absR (am : Map (Val n W)) (c : RwLock.State (Map (Val n W)) (LocW n W)) : RwLock.State (Map (Val n W)) (Loc (Val n W)) :=
  ⟨c.exist, c.sem, am, c.procs.map absP⟩

def abs (am : Map (Val n W)) (s : SysW n W) : Sys (Val n W) := ⟨absR am s.rw, s.pend⟩

theorem absR_get (am : Map (Val n W)) (c : RwLock.State (Map (Val n W)) (LocW n W)) (i : Nat) :
    (absR am c).procs[i]? = (c.procs[i]?).map absP := by simp [absR]

theorem absR_mode (am : Map (Val n W)) (c : RwLock.State (Map (Val n W)) (LocW n W)) (i : Nat) : (absR am c).mode i = c.mode i := by
  simp only [RwLock.State.mode, absR_get]
  cases c.procs[i]? <;> rfl

theorem absR_upd (am : Map (Val n W)) (c : RwLock.State (Map (Val n W)) (LocW n W)) (i : Nat) (q : RwLock.Proc (LocW n W)) :
    (absR am c).upd i (absP q) = absR am (c.upd i q) := by
  simp only [RwLock.State.upd, absR, List.map_set]

section
variable {ord : List (Fin n)} {c c' : RwLock.State (Map (Val n W)) (LocW n W)}

theorem doSem_abs {i : Nat} {p : RwLock.Proc (LocW n W)} {ops : List RwLock.SemBuf} {m : RwLock.Mode} {x : LocW n W}
    (e : c.doSem i p ops m x = some c') (am : Map (Val n W)) :
    (absR am c).doSem i (absP p) ops m x.l = some (absR am c') ∧ c'.mem = c.mem ∧ ∃ adj, c'.procs = c.procs.set i ⟨m, x, adj⟩ := by
  unfold RwLock.State.doSem at e ⊢
  show (match RwLock.semop c.sem p.adj ops with | some (v, adj) => _ | none => _) = _ ∧ _
  cases hs : RwLock.semop c.sem p.adj ops with
  | none => rw [hs] at e; cases e
  | some r =>
    obtain ⟨v, adj⟩ := r
    rw [hs] at e
    cases e
    refine ⟨?_, rfl, adj, rfl⟩
    simp only [RwLock.State.upd, absR, List.map_set]
    rfl

theorem get_abs {i : Nat} (e : RwLock.step (wbodyW N H ord) (rbodyW N H ord) c (.get i) = some c') (am : Map (Val n W)) :
    RwLock.step (wbody N H) (rbody N H) (absR am c) (.get i) = some (absR am c') ∧ c'.mem = c.mem ∧
    ∃ p, c.procs[i]? = some p ∧ p.mode = .fresh ∧ c'.procs = c.procs.set i { p with mode := .out } := by
  simp only [RwLock.step] at e ⊢
  rw [absR_get]
  cases hp : c.procs[i]? with
  | none => rw [hp] at e; cases e
  | some p =>
    rw [hp] at e
    dsimp only [Option.map_some] at e ⊢
    by_cases h : p.mode = .fresh ∧ c.exist = true
    · rw [if_pos h] at e
      cases e
      refine ⟨?_, rfl, p, rfl, h.1, rfl⟩
      rw [if_pos (by exact h), ← absR_upd]
      rfl
    · rw [if_neg h] at e; cases e

theorem spawn_abs {i : Nat} (e : RwLock.step (wbodyW N H ord) (rbodyW N H ord) c (.spawn i) = some c') (am : Map (Val n W)) :
    RwLock.step (wbody N H) (rbody N H) (absR am c) (.spawn i) = some (absR am c') ∧ c'.mem = c.mem ∧
    ∃ p, c.procs[i]? = some p ∧ p.mode = .dead ∧ c'.procs = c.procs.set i { p with mode := .fresh } := by
  simp only [RwLock.step] at e ⊢
  rw [absR_get]
  cases hp : c.procs[i]? with
  | none => rw [hp] at e; cases e
  | some p =>
    rw [hp] at e
    dsimp only [Option.map_some] at e ⊢
    by_cases h : p.mode = .dead
    · rw [if_pos h] at e
      cases e
      refine ⟨?_, rfl, p, rfl, h, rfl⟩
      rw [if_pos (by exact h), ← absR_upd]
      rfl
    · rw [if_neg h] at e; cases e

theorem kill_abs {i : Nat} (e : RwLock.step (wbodyW N H ord) (rbodyW N H ord) c (.kill i) = some c') (am : Map (Val n W)) :
    RwLock.step (wbody N H) (rbody N H) (absR am c) (.kill i) = some (absR am c') ∧ c'.mem = c.mem ∧
    ∃ p, c.procs[i]? = some p ∧ c'.procs = c.procs.set i { p with mode := .dead, adj := ⟨0, 0⟩ } := by
  simp only [RwLock.step] at e ⊢
  rw [absR_get]
  cases hp : c.procs[i]? with
  | none => rw [hp] at e; cases e
  | some p =>
    rw [hp] at e
    dsimp only [Option.map_some] at e ⊢
    by_cases h : p.mode = .dead
    · rw [if_pos h] at e; cases e
    · rw [if_neg h] at e
      cases e
      refine ⟨?_, rfl, p, rfl, rfl⟩
      rw [if_neg (by exact h)]
      simp only [RwLock.State.upd, absR, List.map_set]
      rfl

theorem lockR_abs {i : Nat} {x : LocW n W} (e : RwLock.step (wbodyW N H ord) (rbodyW N H ord) c (.lockR i x) = some c') (am : Map (Val n W)) :
    RwLock.step (wbody N H) (rbody N H) (absR am c) (.lockR i x.l) = some (absR am c') ∧ c'.mem = c.mem ∧
    ∃ p adj, c.procs[i]? = some p ∧ p.mode = .out ∧ c'.procs = c.procs.set i ⟨.reading, x, adj⟩ := by
  simp only [RwLock.step] at e ⊢
  rw [absR_get]
  cases hp : c.procs[i]? with
  | none => rw [hp] at e; cases e
  | some p =>
    rw [hp] at e
    dsimp only [Option.map_some] at e ⊢
    by_cases h : p.mode = .out
    · rw [if_pos h] at e
      obtain ⟨h1, h2, adj, h3⟩ := doSem_abs e am
      exact ⟨by rw [if_pos (by exact h)]; exact h1, h2, p, adj, rfl, h, h3⟩
    · rw [if_neg h] at e; cases e

theorem lockW_abs {i : Nat} {x : LocW n W} (e : RwLock.step (wbodyW N H ord) (rbodyW N H ord) c (.lockW i x) = some c') (am : Map (Val n W)) :
    RwLock.step (wbody N H) (rbody N H) (absR am c) (.lockW i x.l) = some (absR am c') ∧ c'.mem = c.mem ∧
    ∃ p adj, c.procs[i]? = some p ∧ p.mode = .out ∧ c'.procs = c.procs.set i ⟨.writing, x, adj⟩ := by
  simp only [RwLock.step] at e ⊢
  rw [absR_get]
  cases hp : c.procs[i]? with
  | none => rw [hp] at e; cases e
  | some p =>
    rw [hp] at e
    dsimp only [Option.map_some] at e ⊢
    by_cases h : p.mode = .out
    · rw [if_pos h] at e
      obtain ⟨h1, h2, adj, h3⟩ := doSem_abs e am
      exact ⟨by rw [if_pos (by exact h)]; exact h1, h2, p, adj, rfl, h, h3⟩
    · rw [if_neg h] at e; cases e

theorem unlock_abs {i : Nat} (e : RwLock.step (wbodyW N H ord) (rbodyW N H ord) c (.unlock i) = some c') (am : Map (Val n W)) :
    RwLock.step (wbody N H) (rbody N H) (absR am c) (.unlock i) = some (absR am c') ∧ c'.mem = c.mem ∧
    ∃ p adj, c.procs[i]? = some p ∧ c'.procs = c.procs.set i ⟨.out, p.loc, adj⟩ := by
  simp only [RwLock.step] at e ⊢
  rw [absR_get]
  cases hp : c.procs[i]? with
  | none => rw [hp] at e; cases e
  | some p =>
    rw [hp] at e
    dsimp only [Option.map_some] at e ⊢
    by_cases h : p.mode = .writing
    · rw [if_pos h] at e
      obtain ⟨h1, h2, adj, h3⟩ := doSem_abs e am
      exact ⟨by rw [if_pos (by exact h)]; exact h1, h2, p, adj, rfl, h3⟩
    · rw [if_neg h] at e
      by_cases h' : p.mode = .reading
      · rw [if_pos h'] at e
        obtain ⟨h1, h2, adj, h3⟩ := doSem_abs e am
        exact ⟨by rw [if_neg (by exact h), if_pos (by exact h')]; exact h1, h2, p, adj, rfl, h3⟩
      · rw [if_neg h'] at e; cases e
end

/-! ## The relation -/

/-- The memory while a value is being copied. -/
def pendMem (ord : List (Fin n)) (am : Map (Val n W)) (x : LocW n W) : Map (Val n W) :=
  match target x.l.pc with
  | some (e, v) => { am with val := put am.val e (over (ord.take x.g) v (am.val e)) }
  | none => am

structure Ok (N : Nat) (ord : List (Fin n)) (am : Map (Val n W)) (x : LocW n W) : Prop where
  zero : target x.l.pc = none → source x.l.pc = none → x.g = 0
  le : x.g ≤ ord.length
  inb : ∀ e v, target x.l.pc = some (e, v) → e < N ∨ x.g = 0
  got : ∀ e, source x.l.pc = some e → ∀ j ∈ ord.take x.g, x.buf j = am.val e j

structure Rel (N : Nat) (ord : List (Fin n)) (am : Map (Val n W)) (c : RwLock.State (Map (Val n W)) (LocW n W)) : Prop where
  wr : ∀ (i : Nat) (p : RwLock.Proc (LocW n W)), c.procs[i]? = some p → p.mode = .writing → c.mem = pendMem ord am p.loc
  no : (∀ (i : Nat) (p : RwLock.Proc (LocW n W)), c.procs[i]? = some p → p.mode ≠ .writing) → c.mem = am
  ok : ∀ (i : Nat) (p : RwLock.Proc (LocW n W)), c.procs[i]? = some p → p.mode = .writing ∨ p.mode = .reading → Ok N ord am p.loc

theorem set_get {α : Type} {ps : List α} {i j : Nat} {q r : α} (h : (ps.set i q)[j]? = some r) : (j = i ∧ r = q) ∨ (j ≠ i ∧ ps[j]? = some r) := by
  by_cases hj : i = j
  · subst hj
    rw [List.getElem?_set_self'] at h
    cases hp : ps[i]? with
    | none => rw [hp] at h; cases h
    | some x => rw [hp] at h; cases h; exact Or.inl ⟨rfl, rfl⟩
  · rw [List.getElem?_set_ne hj] at h
    exact Or.inr ⟨fun h => hj h.symm, h⟩

theorem set_at {α : Type} {ps : List α} {i : Nat} {p q : α} (h : ps[i]? = some p) : (ps.set i q)[i]? = some q := by
  rw [List.getElem?_set_self', h]; rfl

theorem set_off {α : Type} {ps : List α} {i j : Nat} {q : α} (h : j ≠ i) : (ps.set i q)[j]? = ps[j]? :=
  List.getElem?_set_ne (fun e => h e.symm)

section
variable {ord : List (Fin n)} {am : Map (Val n W)} {c c' : RwLock.State (Map (Val n W)) (LocW n W)}

theorem pendMem_none {x : LocW n W} (h : target x.l.pc = none) : pendMem ord am x = am := by simp only [pendMem, h]

theorem pendMem_zero {x : LocW n W} (h : x.g = 0) : pendMem ord am x = am := by
  unfold pendMem
  cases target x.l.pc with
  | none => rfl
  | some r => simp only [h, List.take_zero, over_nil, put_self]

/-- No step of the lock disturbs the relation, as long as nothing is left half copied. -/
theorem rel_upd (R : Rel N ord am c) (hi : RwLock.Inv c') {i : Nat} {p q : RwLock.Proc (LocW n W)} (hp : c.procs[i]? = some p)
    (hm : c'.mem = c.mem) (hs : c'.procs = c.procs.set i q)
    (hq : q.mode = .writing ∨ q.mode = .reading → Ok N ord am q.loc ∧ target q.loc.l.pc = none) (hpw : p.mode = .writing → c.mem = am) :
    Rel N ord am c' := by
  have hq' : c'.procs[i]? = some q := by rw [hs]; exact set_at hp
  have hmem : q.mode = .writing → c.mem = am := by
    intro hw
    by_cases h : ∃ (k : Nat) (r : RwLock.Proc (LocW n W)), c.procs[k]? = some r ∧ r.mode = .writing
    · obtain ⟨k, r, hk, hr⟩ := h
      by_cases hki : k = i
      · subst hki; rw [hp] at hk; cases hk; exact hpw hr
      · have hk' : c'.procs[k]? = some r := by rw [hs, set_off hki]; exact hk
        exact absurd hw (RwLock.inv_excl hi hk' hq' hki hr).1
    · exact R.no (fun k r hk hr => h ⟨k, r, hk, hr⟩)
  refine ⟨?_, ?_, ?_⟩
  · intro j r hj hr
    rw [hs] at hj
    rcases set_get hj with ⟨rfl, rfl⟩ | ⟨hne, hj⟩
    · rw [hm, hmem hr, pendMem_none (hq (Or.inl hr)).2]
    · rw [hm]; exact R.wr j r hj hr
  · intro hno
    rw [hm]
    by_cases hw : p.mode = .writing
    · exact hpw hw
    · refine R.no (fun k r hk hr => ?_)
      by_cases hki : k = i
      · subst hki; rw [hp] at hk; cases hk; exact hw hr
      · exact hno k r (by rw [hs, set_off hki]; exact hk) hr
  · intro j r hj hr
    rw [hs] at hj
    rcases set_get hj with ⟨rfl, rfl⟩ | ⟨hne, hj⟩
    · exact (hq hr).1
    · exact R.ok j r hj hr

/-! ## Steps inside of the sections -/

theorem over_succ {g : Nat} {j : Fin n} (h : ord[g]? = some j) (v old : Val n W) : over (ord.take (g + 1)) v old = setWord (over (ord.take g) v old) j (v j) := by
  funext j'
  rw [List.take_add_one, h]
  simp only [over, setWord, List.mem_append, Option.toList_some, List.mem_singleton]
  by_cases h1 : j' = j
  · subst h1; simp
  · simp [h1]

theorem le_of_none {g : Nat} (h : ord[g]? = none) : ord.length ≤ g := by simpa using h

/-- The copy out of a node: nothing but the local state changes; at the end the whole value has been read. -/
theorem copyOut_ok {x : LocW n W} {e : Nat} (ho : ∀ j, j ∈ ord) (hx : Ok N ord am x) (hs : source x.l.pc = some e) :
    ((copyOut ord am x e).l = x.l ∨ (copyOut ord am x e).l = { x.l with pc := .ret (.val (some (am.val e))) }) ∧
    Ok N ord am (copyOut ord am x e) ∧ target (copyOut ord am x e).l.pc = none := by
  have ht : target x.l.pc = none := by
    cases hpc : x.l.pc <;> rw [hpc] at hs <;> simp [source] at hs <;> rfl
  unfold copyOut
  cases hj : ord[x.g]? with
  | some j =>
    dsimp only
    refine ⟨Or.inl rfl, ⟨?_, ?_, ?_, ?_⟩, ht⟩
    · intro _ h; rw [hs] at h; cases h
    · obtain ⟨h, _⟩ := List.getElem?_eq_some_iff.mp hj; exact h
    · intro e v h; dsimp only at h; rw [ht] at h; cases h
    · intro e' he j' hj'
      dsimp only at he hj' ⊢
      rw [hs] at he
      cases he
      simp only [setWord]
      split
      · next h => rw [h]
      · next h =>
        rw [List.take_add_one, hj] at hj'
        simp only [List.mem_append, Option.toList_some, List.mem_singleton, h, or_false] at hj'
        exact hx.got e hs j' hj'
  | none =>
    dsimp only
    have hb : x.buf = am.val e := by
      funext j
      refine hx.got e hs j ?_
      rw [List.take_of_length_le (le_of_none hj)]
      exact ho j
    refine ⟨Or.inr (by rw [hb]), ⟨fun _ _ => rfl, Nat.zero_le _, fun _ _ _ => Or.inr rfl, ?_⟩, rfl⟩
    intro e' he; cases he

/-- A step of a reader. -/
theorem rbody_ok {x : LocW n W} (ho : ∀ j, j ∈ ord) (hx : Ok N ord am x) :
    ((rbodyW N H ord am x).l = x.l ∨ (rbodyW N H ord am x).l = rbody N H am x.l) ∧ Ok N ord am (rbodyW N H ord am x) := by
  unfold rbodyW
  cases hs : source x.l.pc with
  | some e =>
    dsimp only
    obtain ⟨h1, h2, _⟩ := copyOut_ok ho hx hs
    refine ⟨?_, h2⟩
    rcases h1 with h | h
    · exact Or.inl h
    · right
      rw [h]
      unfold rbody
      cases hpc : x.l.pc <;> rw [hpc] at hs <;> simp [source] at hs
      subst hs
      rfl
  | none =>
    dsimp only
    refine ⟨Or.inr rfl, ?_⟩
    exact ⟨fun _ _ => rfl, Nat.zero_le _, fun _ _ _ => Or.inr rfl, fun e' _ j hj => by simp at hj⟩

/-- A step of a writer. -/
theorem wbody_ok {x : LocW n W} (ho : ∀ j, j ∈ ord) (hx : Ok N ord am x) :
    ∃ am', (wbodyW N H ord (pendMem ord am x) x).1 = pendMem ord am' (wbodyW N H ord (pendMem ord am x) x).2 ∧
      Ok N ord am' (wbodyW N H ord (pendMem ord am x) x).2 ∧
      ((am' = am ∧ (wbodyW N H ord (pendMem ord am x) x).2.l = x.l) ∨ wbody N H am x.l = (am', (wbodyW N H ord (pendMem ord am x) x).2.l)) := by
  cases ht : target x.l.pc with
  | none =>
    rw [pendMem_none ht]
    unfold wbodyW
    rw [ht]
    cases hs : source x.l.pc with
    | some e =>
      dsimp only
      obtain ⟨h1, h2, h3⟩ := copyOut_ok ho hx hs
      refine ⟨am, (pendMem_none h3).symm, h2, ?_⟩
      rcases h1 with h | h
      · exact Or.inl ⟨rfl, h⟩
      · right
        rw [h]
        unfold wbody
        cases hpc : x.l.pc <;> rw [hpc] at hs <;> simp [source] at hs
        subst hs
        rfl
    | none =>
      dsimp only
      refine ⟨(wbody N H am x.l).1, (pendMem_zero rfl).symm, ⟨fun _ _ => rfl, Nat.zero_le _, fun _ _ _ => Or.inr rfl, fun e' _ j hj => by simp at hj⟩, Or.inr rfl⟩
  | some r =>
    obtain ⟨e, v⟩ := r
    have hpm : pendMem ord am x = { am with val := put am.val e (over (ord.take x.g) v (am.val e)) } := by simp only [pendMem, ht]
    have hw : (x.l.pc = .inVal v e ∨ ∃ p, x.l.pc = .nVal v p e) := by
      cases hpc : x.l.pc <;> rw [hpc] at ht <;> simp [target] at ht
      · obtain ⟨rfl, rfl⟩ := ht; exact Or.inl rfl
      · obtain ⟨rfl, rfl⟩ := ht; exact Or.inr ⟨_, rfl⟩
    unfold wbodyW
    rw [ht]
    dsimp only
    unfold copyIn
    by_cases hN : e < N
    · rw [if_pos hN]
      cases hj : ord[x.g]? with
      | some j =>
        dsimp only
        refine ⟨am, ?_, ⟨?_, ?_, ?_, ?_⟩, Or.inl ⟨rfl, rfl⟩⟩
        · rw [hpm]
          simp only [pendMem, ht]
          rw [over_succ hj, put_put, put_eq]
        · intro h; dsimp only at h; rw [ht] at h; cases h
        · obtain ⟨h, _⟩ := List.getElem?_eq_some_iff.mp hj; exact h
        · intro e' v' h; dsimp only at h; rw [ht] at h; cases h; exact Or.inl hN
        · intro e' he
          dsimp only at he
          rcases hw with h | ⟨p, h⟩ <;> rw [h] at he <;> cases he
      | none =>
        dsimp only
        rw [hpm, List.take_of_length_le (le_of_none hj), over_all ho]
        refine ⟨{ am with val := put am.val e v }, (pendMem_zero rfl).symm, ⟨fun _ _ => rfl, Nat.zero_le _, fun _ _ _ => Or.inr rfl, fun e' _ j hj => by simp at hj⟩, Or.inr ?_⟩
        rcases hw with h | ⟨p, h⟩
        · unfold wbody
          rw [h]
          simp [Pc.step, Wr.apply, hN]
        · unfold wbody
          rw [h]
          simp [Pc.step, Wr.apply, hN]
    · rw [if_neg hN]
      dsimp only
      have h0 : x.g = 0 := (hx.inb e v ht).resolve_left hN
      rw [pendMem_zero h0]
      refine ⟨am, (pendMem_zero rfl).symm, ⟨fun _ _ => rfl, Nat.zero_le _, fun _ _ _ => Or.inr rfl, fun e' _ j hj => by simp at hj⟩, Or.inr ?_⟩
      rcases hw with h | ⟨p, h⟩
      · unfold wbody
        rw [h]
        simp [Pc.step, Wr.apply, hN]
      · unfold wbody
        rw [h]
        simp [Pc.step, Wr.apply, hN]

/-- A step inside of a section: nothing, or the same step, is seen in Verif/MapSys. -/
theorem body_abs (ho : ∀ j, j ∈ ord) (R : Rel N ord am c) (hi : RwLock.Inv c) {i : Nat}
    (e : RwLock.step (wbodyW N H ord) (rbodyW N H ord) c (.body i) = some c') :
    ∃ am', Rel N ord am' c' ∧ ((am' = am ∧ absR am c = absR am' c') ∨ RwLock.step (wbody N H) (rbody N H) (absR am c) (.body i) = some (absR am' c')) := by
  simp only [RwLock.step] at e ⊢
  rw [absR_get]
  cases hp : c.procs[i]? with
  | none => rw [hp] at e; cases e
  | some p =>
    rw [hp] at e
    dsimp only [Option.map_some] at e ⊢
    have stutter : ∀ x : LocW n W, x.l = p.loc.l → ∀ (mm : Map (Val n W)), absR am c = absR am ({ c with mem := mm }.upd i { p with loc := x }) := by
      intro x hx mm
      simp only [RwLock.State.upd, absR, List.map_set]
      congr 1
      have hpp : (c.procs.map absP)[i]? = some (absP { p with loc := x }) := by
        rw [List.getElem?_map, hp]
        simp only [Option.map_some, absP, hx]
      refine List.ext_getElem? (fun j => ?_)
      by_cases hj : j = i
      · subst hj; rw [set_at hpp, hpp]
      · rw [set_off hj]
    by_cases hw : p.mode = .writing
    · rw [if_pos hw] at e
      rw [if_pos (by exact hw)]
      cases e
      rw [R.wr i p hp hw]
      obtain ⟨am', h1, h2, h3⟩ := wbody_ok (N := N) (H := H) ho (R.ok i p hp (Or.inl hw))
      have hex : ∀ (j : Nat) (r : RwLock.Proc (LocW n W)), j ≠ i → c.procs[j]? = some r → r.mode ≠ .writing ∧ r.mode ≠ .reading :=
        fun j r hj hr => RwLock.inv_excl hi hp hr (fun h => hj h.symm) hw
      refine ⟨am', ⟨?_, ?_, ?_⟩, ?_⟩
      · intro j r hj hr
        rcases set_get hj with ⟨rfl, rfl⟩ | ⟨hne, hj⟩
        · exact h1
        · exact absurd hr (hex j r hne hj).1
      · intro hno
        exact absurd hw (hno i { p with loc := (wbodyW N H ord (pendMem ord am p.loc) p.loc).2 } (set_at hp))
      · intro j r hj hr
        rcases set_get hj with ⟨rfl, rfl⟩ | ⟨hne, hj⟩
        · exact h2
        · rcases hr with hr | hr
          · exact absurd hr (hex j r hne hj).1
          · exact absurd hr (hex j r hne hj).2
      · rcases h3 with ⟨rfl, h⟩ | h
        · exact Or.inl ⟨rfl, stutter _ h _⟩
        · right
          show some (({ absR am c with mem := (wbody N H am p.loc.l).1 }).upd i { absP p with loc := (wbody N H am p.loc.l).2 }) = _
          rw [h]
          simp only [RwLock.State.upd, absR, List.map_set]
          rfl
    · rw [if_neg hw] at e
      rw [if_neg (by exact hw)]
      by_cases hr : p.mode = .reading
      · rw [if_pos hr] at e
        rw [if_pos (by exact hr)]
        cases e
        have hnw : ∀ (j : Nat) (r : RwLock.Proc (LocW n W)), c.procs[j]? = some r → r.mode ≠ .writing := by
          intro j r hj hjw
          by_cases hji : j = i
          · subst hji; rw [hp] at hj; cases hj; exact hw hjw
          · exact (RwLock.inv_excl hi hj hp hji hjw).2 hr
        have hmem := R.no hnw
        rw [hmem]
        obtain ⟨h1, h2⟩ := rbody_ok (N := N) (H := H) ho (R.ok i p hp (Or.inr hr))
        refine ⟨am, ⟨?_, fun _ => hmem, ?_⟩, ?_⟩
        · intro j r hj hjw
          rcases set_get hj with ⟨rfl, rfl⟩ | ⟨hne, hj⟩
          · exact absurd hjw hw
          · exact absurd hjw (hnw j r hj)
        · intro j r hj hjr
          rcases set_get hj with ⟨rfl, rfl⟩ | ⟨hne, hj⟩
          · exact h2
          · exact R.ok j r hj hjr
        · rcases h1 with h | h
          · exact Or.inl ⟨rfl, stutter _ h c.mem⟩
          · right
            show some ((absR am c).upd i { absP p with loc := rbody N H am p.loc.l }) = _
            rw [← absR_upd]
            simp only [absP, h]
      · rw [if_neg hr] at e; cases e

end

/-! ## Executions -/

/-- A kill that leaves the map usable and no value half written. -/
def SafeKillW (H : Nat) (ord : List (Fin n)) (s : SysW n W) : Act (Val n W) → Prop
  | .kill i => ∀ p, s.rw.procs[i]? = some p → p.mode = .writing →
      ¬ p.loc.l.pc.fragile H ∧ ((target p.loc.l.pc).isSome → p.loc.g = 0)
  | _ => True

def SafeKillsW (N H : Nat) (ord : List (Fin n)) (b : Val n W) : SysW n W → List (Act (Val n W)) → Prop
  | _, [] => True
  | s, x :: xs => SafeKillW H ord s x ∧ ∀ s' es, step N H ord b s x = some (s', es) → SafeKillsW N H ord b s' xs

theorem lowW_some {ord : List (Fin n)} {s s' : SysW n W} {a : RwLock.Label (LocW n W)} (h : s.low N H ord a = some s') :
    ∃ rw, RwLock.step (wbodyW N H ord) (rbodyW N H ord) s.rw a = some rw ∧ s' = { s with rw := rw } := by
  unfold SysW.low at h
  rw [Option.map_eq_some_iff] at h
  obtain ⟨rw, h1, h2⟩ := h
  exact ⟨rw, h1, h2.symm⟩

/-- One step of the system with words is at most one step of Verif/MapSys. -/
theorem sim_stepW {ord : List (Fin n)} {b : Val n W} {am : Map (Val n W)} (ho : ∀ j, j ∈ ord) {s s' : SysW n W} {x : Act (Val n W)} {es : List (Event (Val n W))}
    (R : Rel N ord am s.rw) (hi : RwLock.Inv s.rw) (hk : SafeKillW H ord s x) (hs : step N H ord b s x = some (s', es)) :
    ∃ am', Rel N ord am' s'.rw ∧ RwLock.Inv s'.rw ∧
      ((abs am s = abs am' s' ∧ es = []) ∨ (MapSys.step N H (abs am s) x = some (abs am' s', es) ∧ SafeKill H (abs am s) x)) := by
  have begin_ok : ∀ c, Ok N ord am (LocW.begin b c) ∧ target (LocW.begin b c).l.pc = none :=
    fun c => ⟨⟨fun _ _ => rfl, Nat.zero_le _, fun _ _ _ => Or.inr rfl, fun e' _ j hj => by simp [LocW.begin] at hj⟩, rfl⟩
  cases x with
  | connect i =>
    simp only [step] at hs
    obtain ⟨s1, h1, h2⟩ := map_some' hs
    cases h2
    obtain ⟨rw', e, rfl⟩ := lowW_some h1
    obtain ⟨ha, hm, p, hp, hpm, hps⟩ := get_abs e am
    have hi' := RwLock.inv_step hi e
    refine ⟨am, rel_upd R hi' hp hm hps (by rintro (h | h) <;> cases h) (by intro h; rw [hpm] at h; cases h), hi', Or.inr ⟨?_, trivial⟩⟩
    simp only [MapSys.step, Sys.low, abs, ha]
    rfl
  | call i c =>
    simp only [step] at hs
    cases hpd : s.pend i with
    | idle =>
      rw [hpd] at hs
      dsimp only at hs
      by_cases hmo : s.rw.mode i = some .out
      · rw [if_pos hmo] at hs
        cases hs
        refine ⟨am, R, hi, Or.inr ⟨?_, trivial⟩⟩
        simp only [MapSys.step, abs, hpd, absR_mode, if_pos hmo]
        rfl
      · rw [if_neg hmo] at hs; cases hs
    | called c => rw [hpd] at hs; cases hs
    | returning r => rw [hpd] at hs; cases hs
  | lock i =>
    simp only [step] at hs
    cases hpd : s.pend i with
    | idle => rw [hpd] at hs; cases hs
    | returning r => rw [hpd] at hs; cases hs
    | called c =>
      rw [hpd] at hs
      dsimp only at hs
      obtain ⟨s1, h1, h2⟩ := map_some' hs
      cases h2
      obtain ⟨rw', e, rfl⟩ := lowW_some h1
      have hi' := RwLock.inv_step hi e
      cases hc : c.reads with
      | true =>
        rw [hc, if_pos rfl] at e
        obtain ⟨ha, hm, p, adj, hp, hpm, hps⟩ := lockR_abs e am
        refine ⟨am, rel_upd R hi' hp hm hps (fun _ => begin_ok c) (by intro h; rw [hpm] at h; cases h), hi', Or.inr ⟨?_, trivial⟩⟩
        simp only [MapSys.step, Sys.low, abs, hpd, hc, if_true]
        rw [show Loc.begin c = (LocW.begin b c).l from rfl, ha]
        rfl
      | false =>
        rw [hc, if_neg (by simp)] at e
        obtain ⟨ha, hm, p, adj, hp, hpm, hps⟩ := lockW_abs e am
        refine ⟨am, rel_upd R hi' hp hm hps (fun _ => begin_ok c) (by intro h; rw [hpm] at h; cases h), hi', Or.inr ⟨?_, trivial⟩⟩
        simp only [MapSys.step, Sys.low, abs, hpd, hc]
        rw [show Loc.begin c = (LocW.begin b c).l from rfl, if_neg (by simp), ha]
        rfl
  | body i =>
    simp only [step] at hs
    obtain ⟨s1, h1, h2⟩ := map_some' hs
    cases h2
    obtain ⟨rw', e, rfl⟩ := lowW_some h1
    have hi' := RwLock.inv_step hi e
    obtain ⟨am', R', h⟩ := body_abs ho R hi e
    refine ⟨am', R', hi', ?_⟩
    rcases h with ⟨rfl, h⟩ | h
    · left
      exact ⟨by simp only [abs]; rw [h], rfl⟩
    · right
      refine ⟨?_, trivial⟩
      simp only [MapSys.step, Sys.low, abs, h]
      rfl
  | unlock i =>
    simp only [step] at hs
    cases hpd : s.pend i with
    | idle => rw [hpd] at hs; cases hs
    | returning r => rw [hpd] at hs; cases hs
    | called c =>
      rw [hpd] at hs
      cases hp : s.rw.procs[i]? with
      | none => rw [hp] at hs; cases hs
      | some p =>
        rw [hp] at hs
        dsimp only at hs
        by_cases hf : p.loc.l.finished = true
        · rw [if_pos hf] at hs
          obtain ⟨s1, h1, h2⟩ := map_some' hs
          cases h2
          obtain ⟨rw', e, rfl⟩ := lowW_some h1
          have hi' := RwLock.inv_step hi e
          obtain ⟨ha, hm, p', adj, hp', hps⟩ := unlock_abs e am
          rw [hp] at hp'
          cases hp'
          have hid : p.loc.l.pc = .idle := by
            unfold Loc.finished at hf
            split at hf
            · assumption
            · cases hf
          refine ⟨am, rel_upd R hi' hp hm hps (by rintro (h | h) <;> cases h) (fun h => by rw [R.wr i p hp h]; exact pendMem_none (by rw [hid]; rfl)), hi', Or.inr ⟨?_, trivial⟩⟩
          simp only [MapSys.step, Sys.low, abs, hpd, absR_get, hp, Option.map_some, ha]
          rw [if_pos (show (absP p).loc.finished = true from hf)]
          rfl
        · rw [if_neg hf] at hs; cases hs
  | ret i =>
    simp only [step] at hs
    cases hpd : s.pend i with
    | idle => rw [hpd] at hs; cases hs
    | called c => rw [hpd] at hs; cases hs
    | returning r =>
      rw [hpd] at hs
      cases hs
      refine ⟨am, R, hi, Or.inr ⟨?_, trivial⟩⟩
      simp only [MapSys.step, abs, hpd]
      rfl
  | kill i =>
    simp only [step] at hs
    obtain ⟨s1, h1, h2⟩ := map_some' hs
    cases h2
    obtain ⟨rw', e, rfl⟩ := lowW_some h1
    have hi' := RwLock.inv_step hi e
    obtain ⟨ha, hm, p, hp, hps⟩ := kill_abs e am
    have hpm : p.mode = .writing → s.rw.mem = am := by
      intro h
      rw [R.wr i p hp h]
      cases ht : target p.loc.l.pc with
      | none => exact pendMem_none ht
      | some r => exact pendMem_zero ((hk p hp h).2 (by rw [ht]; rfl))
    refine ⟨am, rel_upd R hi' hp hm hps (by rintro (h | h) <;> cases h) hpm, hi', Or.inr ⟨?_, ?_⟩⟩
    · simp only [MapSys.step, Sys.low, abs, ha]
      rfl
    · intro q hq hqm
      simp only [abs, absR_get, hp, Option.map_some, Option.some.injEq] at hq
      subst hq
      exact (hk p hp hqm).1
  | spawn i =>
    simp only [step] at hs
    obtain ⟨s1, h1, h2⟩ := map_some' hs
    cases h2
    obtain ⟨rw', e, rfl⟩ := lowW_some h1
    obtain ⟨ha, hm, p, hp, hpm, hps⟩ := spawn_abs e am
    have hi' := RwLock.inv_step hi e
    refine ⟨am, rel_upd R hi' hp hm hps (by rintro (h | h) <;> cases h) (by intro h; rw [hpm] at h; cases h), hi', Or.inr ⟨?_, trivial⟩⟩
    simp only [MapSys.step, Sys.low, abs, ha]
    rfl

theorem sim_execW {ord : List (Fin n)} {b : Val n W} (ho : ∀ j, j ∈ ord) : ∀ (xs : List (Act (Val n W))) {am : Map (Val n W)} {s s' : SysW n W} {es : List (Event (Val n W))},
    Rel N ord am s.rw → RwLock.Inv s.rw → SafeKillsW N H ord b s xs → exec N H ord b s xs = some (s', es) →
    ∃ am' ys, MapSys.exec N H (abs am s) ys = some (abs am' s', es) ∧ SafeKills N H (abs am s) ys ∧ Rel N ord am' s'.rw ∧ RwLock.Inv s'.rw := by
  intro xs
  induction xs with
  | nil => intro am s s' es R hi _ he; cases he; exact ⟨am, [], rfl, trivial, R, hi⟩
  | cons x xs ih =>
    intro am s s' es R hi hk he
    simp only [exec] at he
    cases hs : step N H ord b s x with
    | none => rw [hs] at he; cases he
    | some q =>
      obtain ⟨s1, es1⟩ := q
      rw [hs] at he
      simp only at he
      cases hx : exec N H ord b s1 xs with
      | none => rw [hx] at he; cases he
      | some q =>
        obtain ⟨s2, es2⟩ := q
        rw [hx] at he
        cases he
        obtain ⟨am1, R1, hi1, h1⟩ := sim_stepW ho R hi hk.1 hs
        obtain ⟨am2, ys, h2, h3, R2, hi2⟩ := ih R1 hi1 (hk.2 _ _ hs) hx
        rcases h1 with ⟨h1, rfl⟩ | ⟨h1, hsk⟩
        · exact ⟨am2, ys, by rw [h1]; exact h2, by rw [h1]; exact h3, R2, hi2⟩
        · refine ⟨am2, x :: ys, ?_, ⟨hsk, ?_⟩, R2, hi2⟩
          · simp only [MapSys.exec, h1, h2]
          · intro s'' es'' h''
            rw [h1] at h''
            cases h''
            exact h3

end Verif.MapWords
