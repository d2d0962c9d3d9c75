import Verif.MapSys.Path
import Verif.RwLock.Props
/-
  What a process inside its critical section has done so far, and that one step of it keeps this true.
-/
set_option linter.unusedVariables false
set_option linter.unusedSimpArgs false

namespace Verif.MapSys

open Verif.ShmPool Verif.ShmMap

variable {V : Type} {N H : Nat}

theorem path_ne_ub {m : Map V} {n : Nat} {pc : Pc V} {ws : List (Wr V)} {r : Ret V} (h : Path N H n m pc ws r) : pc ≠ .ub := by
  cases h with
  | ret => simp
  | rd hl => intro e; subst e; cases hl
  | wr hl => intro e; subst e; cases hl

theorem path_ne_idle {m : Map V} {n : Nat} {pc : Pc V} {ws : List (Wr V)} {r : Ret V} (h : Path N H n m pc ws r) : pc ≠ .idle := by
  cases h with
  | ret => simp
  | rd hl => intro e; subst e; cases hl
  | wr hl => intro e; subst e; cases hl

/-- The places in `erase` and in `clear`. -/
def Pc.cuts : Pc V → Bool
  | .erHash _ | .erKey _ _ _ | .erHead _ _ | .erHeadW _ _ _ | .erNext _ _ | .erLoop _ _ _ | .erMid _ _ | .erMidW _ _ _ | .erClr _ => true
  | .frTop _ | .frTopW _ _ | .frData _ _ => true
  | .clCur | .clTop | .clHash _ => true
  | _ => false

theorem cuts_step (m : Map V) {pc : Pc V} (h : pc.cuts = false) : (pc.step N H m).2.cuts = false := by
  cases pc with
  | nLink p x => cases p <;> rfl
  | _ => first
    | rfl
    | (simp only [Pc.cuts, reduceCtorEq] at h; done)
    | (simp only [Pc.step]; (repeat' split) <;> rfl)

/-- How many writes an `erase` or a `clear` has made when it is at `pc`; the other operations are never at a place of these two. -/
def Track (H : Nat) : Op V → Pc V → Nat → Prop
  | .erase _, pc, n => match pc with
    | .erHash _ | .erKey _ _ _ | .erHead _ _ | .erHeadW _ _ _ | .erNext _ _ | .erLoop _ _ _ | .erMid _ _ | .erMidW _ _ _ => n = 0
    | .erClr _ => n = 1
    | .frTop _ | .frTopW _ _ => n = 2
    | .frData _ _ => n = 3
    | .ret _ => n ≠ 3
    | _ => False
  | .clear, pc, n => match pc with
    | .clCur => n = 0
    | .clTop => n = 1
    | .clHash i => n = i + 2
    | .ret _ => H + 2 ≤ n
    | _ => False
  | _, pc, _ => pc.cuts = false

theorem track_start (o : Op V) : Track H o (start o) 0 := by cases o <;> simp [Track, start, Pc.cuts]

theorem track_rd {m : Map V} {o : Op V} {pc pc' : Pc V} {n : Nat} (h : Track H o pc n) (hl : pc.live = true) (hs : pc.step N H m = (none, pc')) (hu : pc' ≠ .ub) : Track H o pc' n := by
  have hcut := cuts_step (N := N) (H := H) m (pc := pc)
  rw [hs] at hcut
  cases o with
  | read k => exact hcut h
  | insert k v => exact hcut h
  | size => exact hcut h
  | erase k =>
    cases pc <;> simp only [Track, Pc.step, Prod.mk.injEq, reduceCtorEq, false_and, true_and] at h hs ⊢ <;>
      first
        | ((repeat' (split at hs)) <;> subst hs <;> simp_all)
        | cases hl
  | clear =>
    cases pc <;> simp only [Track, Pc.step, Prod.mk.injEq, reduceCtorEq, false_and, true_and] at h hs ⊢
    · rename_i i
      split at hs
      · simp at hs
      · simp only [Prod.mk.injEq, true_and] at hs
        subst hs
        simp only
        omega
    · cases hl

theorem track_wr {m : Map V} {o : Op V} {pc pc' : Pc V} {n : Nat} {w : Wr V} (h : Track H o pc n) (hl : pc.live = true) (hs : pc.step N H m = (some w, pc')) : Track H o pc' (n + 1) := by
  have hcut := cuts_step (N := N) (H := H) m (pc := pc)
  rw [hs] at hcut
  cases o with
  | read k => exact hcut h
  | insert k v => exact hcut h
  | size => exact hcut h
  | erase k =>
    cases pc <;> simp only [Track, Pc.step, Prod.mk.injEq, reduceCtorEq, false_and, true_and] at h hs ⊢ <;>
      (obtain ⟨_, rfl⟩ := hs; simp only; omega)
  | clear =>
    cases pc <;> simp only [Track, Pc.step, Prod.mk.injEq, reduceCtorEq, false_and, true_and] at h hs ⊢
    · obtain ⟨_, rfl⟩ := hs; simp only; omega
    · obtain ⟨_, rfl⟩ := hs; simp only; omega
    · rename_i i
      split at hs
      · simp only [Prod.mk.injEq] at hs
        obtain ⟨_, rfl⟩ := hs
        simp only; omega
      · simp at hs

/-! ## a process inside its critical section -/

theorem stepsL_snoc (N : Nat) : ∀ (os : List (Op V)) (o : Op V) (lk : Nat) (l : Spec.Bindings V), Spec.stepsL N lk l (os ++ [o]) =
    ((ShmMap.Spec.stepL N (Spec.stepsL N lk l os).2.1 (Spec.stepsL N lk l os).1 o).1,
     (ShmMap.Spec.stepL N (Spec.stepsL N lk l os).2.1 (Spec.stepsL N lk l os).1 o).2.1,
     (Spec.stepsL N lk l os).2.2 ++ [(ShmMap.Spec.stepL N (Spec.stepsL N lk l os).2.1 (Spec.stepsL N lk l os).1 o).2.2]) := by
  intro os
  induction os with
  | nil => intro o lk l; rfl
  | cons x os ih =>
    intro o lk l
    simp only [List.cons_append, Spec.stepsL]
    rw [ih]

theorem stepsL_length (N : Nat) : ∀ (os : List (Op V)) (lk : Nat) (l : Spec.Bindings V), (Spec.stepsL N lk l os).2.2.length = os.length := by
  intro os
  induction os with
  | nil => intro lk l; rfl
  | cons x os ih =>
    intro lk l
    simp only [Spec.stepsL, List.length_cons]
    rw [ih]

/-- The number of operations that returned true. -/
def tally (rs : List (Ret V)) : Nat := (rs.map one).sum

/-- The operations of the code are those of the specification. -/
theorem meaning_eq (c : Call V) : Spec.meaning c = c.ops := by
  cases c with
  | writeSection us =>
    simp only [Spec.meaning, Call.ops]
    apply List.map_congr_left
    intro u _
    cases u <;> rfl
  | _ => rfl

/-- Before, between and after the operations of a call: `pre` are made, `l.todo` are not. -/
structure Between (N H : Nat) (a : Spec.State V) (c : Call V) (m : Map V) (l : Loc V) (pre : List (Op V)) : Prop where
  ops : (Spec.meaning c) = pre ++ l.todo
  rep : ∃ f fr, Rep N H m f fr (Spec.stepsL N a.lost a.map pre).2.1 (Spec.stepsL N a.lost a.map pre).1
  last : l.last = (Spec.stepsL N a.lost a.map pre).2.2.getLastD .unit
  cnt : l.cnt = tally (Spec.stepsL N a.lost a.map pre).2.2
  rets : l.rets = (Spec.stepsL N a.lost a.map pre).2.2

/-- During an operation `o` of a call: it began on memory `m0`, has made the writes `ws0` and is going to make `ws`, in at most `n` steps. -/
structure During (N H n : Nat) (a : Spec.State V) (c : Call V) (m : Map V) (l : Loc V) (pre : List (Op V)) (o : Op V) (m0 m1 : Map V) (ws0 ws : List (Wr V)) : Prop where
  ops : (Spec.meaning c) = pre ++ o :: l.todo
  rep0 : ∃ f fr, Rep N H m0 f fr (Spec.stepsL N a.lost a.map pre).2.1 (Spec.stepsL N a.lost a.map pre).1
  rep1 : ∃ f fr, Rep N H m1 f fr (Spec.stepsL N a.lost a.map (pre ++ [o])).2.1 (Spec.stepsL N a.lost a.map (pre ++ [o])).1
  writes : ShmMap.writes N H m0 o = .ok (ws0 ++ ws)
  done : applyM N H m0 ws0 = .ok m
  rest : applyM N H m ws = .ok m1
  path : Path N H n m l.pc ws (ShmMap.Spec.stepL N (Spec.stepsL N a.lost a.map pre).2.1 (Spec.stepsL N a.lost a.map pre).1 o).2.2
  track : Track H o l.pc ws0.length
  last : l.last = (Spec.stepsL N a.lost a.map pre).2.2.getLastD .unit
  cnt : l.cnt = tally (Spec.stepsL N a.lost a.map pre).2.2
  rets : l.rets = (Spec.stepsL N a.lost a.map pre).2.2

/-- A process inside the critical section of its call `c`, while the abstract map is that of `a`; it has finished after at most `k` steps. -/
inductive Inside (N H : Nat) : Nat → Spec.State V → Call V → Map V → Loc V → Prop where
  | between {k a c m l pre} : l.pc = .idle → Between N H a c m l pre → (bound N H + 2) * l.todo.length ≤ k → Inside N H k a c m l
  | during {k n a c m l pre o m0 m1 ws0 ws} : During N H n a c m l pre o m0 m1 ws0 ws → (bound N H + 2) * l.todo.length + n + 1 ≤ k → Inside N H k a c m l

/-- A number of steps that is enough for a call. -/
def Call.steps (N H : Nat) (c : Call V) : Nat := (bound N H + 2) * c.ops.length

theorem inside_begin {a : Spec.State V} {c : Call V} {m : Map V} {f : Nat → List Nat} {fr : List Nat} (h : Rep N H m f fr a.lost a.map) :
    Inside N H (c.steps N H) a c m (.begin c) :=
  .between (pre := []) rfl ⟨meaning_eq c, ⟨f, fr, h⟩, rfl, rfl, rfl⟩ (Nat.le_refl _)

theorem inside_ne_ub {k : Nat} {a : Spec.State V} {c : Call V} {m : Map V} {l : Loc V} (h : Inside N H k a c m l) : l.pc ≠ .ub := by
  cases h with
  | between hp _ _ => rw [hp]; simp
  | during d _ => exact path_ne_ub d.path

theorem wbody_live {m : Map V} {l : Loc V} (h : l.pc.live = true) : wbody N H m l = match l.pc.step N H m with
    | (none, pc') => (m, { l with pc := pc' })
    | (some w, pc') =>
      match w.apply N H m with
      | .ok m' => (m', { l with pc := pc' })
      | .ub => (m, { l with pc := .ub }) := by
  unfold wbody
  cases hp : l.pc <;> first
    | rfl
    | (rw [hp] at h; cases h)

theorem rbody_live {m : Map V} {l : Loc V} (h : l.pc.live = true) : rbody N H m l = match l.pc.step N H m with
    | (none, pc') => { l with pc := pc' }
    | (some _, _) => { l with pc := .ub } := by
  unfold rbody
  cases hp : l.pc <;> first
    | rfl
    | (rw [hp] at h; cases h)

/-- What one step of the process does. -/
theorem inside_step (hN : N < NONE) (hH : 0 < H) {k : Nat} {a : Spec.State V} {c : Call V} {m : Map V} {l : Loc V} (h : Inside N H k a c m l) :
    Inside N H (k - 1) a c (wbody N H m l).1 (wbody N H m l).2 := by
  cases h with
  | @between _ _ _ _ pre hp b hb =>
    cases ht : l.todo with
    | nil =>
      have : wbody N H m l = (m, l) := by unfold wbody; rw [hp, ht]
      rw [this]
      exact .between hp b (by rw [ht]; simp)
    | cons o os =>
      have hw : wbody N H m l = (m, { l with pc := start o, todo := os }) := by unfold wbody; rw [hp, ht]
      rw [hw]
      obtain ⟨f, fr, hr⟩ := b.rep
      obtain ⟨m1, f1, fr1, e1, h1⟩ := step_spec hN hH hr o
      obtain ⟨ws, e2, e3, e4⟩ := op_path e1
      refine .during (pre := pre) (o := o) (m0 := m) (m1 := m1) (ws0 := []) (ws := ws) ⟨?_, ⟨f, fr, hr⟩, ⟨f1, fr1, ?_⟩, e2, rfl, e3, e4, track_start o, b.last, b.cnt, b.rets⟩ ?_
      · rw [b.ops, ht]
      · rw [stepsL_snoc]; exact h1
      · rw [ht, List.length_cons, Nat.mul_add] at hb
        simp only
        omega
  | @during n _ _ _ _ pre o m0 m1 ws0 ws d hb =>
    have hp := d.path
    generalize hr : (ShmMap.Spec.stepL N (Spec.stepsL N a.lost a.map pre).2.1 (Spec.stepsL N a.lost a.map pre).1 o).2.2 = r at hp
    generalize hpc : l.pc = pc at hp
    cases hp with
    | ret =>
      have hw : wbody N H m l = (m, { l with pc := .idle, last := r, cnt := l.cnt + one r, rets := l.rets ++ [r] }) := by unfold wbody; rw [hpc]
      rw [hw]
      have hm : m = m1 := by have := d.rest; simp only [applyM] at this; cases this; rfl
      refine .between (pre := pre ++ [o]) rfl ⟨?_, ?_, ?_, ?_, ?_⟩ ?_
      · rw [d.ops]; simp
      · rw [hm]; exact d.rep1
      · rw [stepsL_snoc, hr]; simp [List.getLastD_eq_getLast?]
      · rw [stepsL_snoc, hr]; simp only [tally, d.cnt, List.map_append, List.sum_append, List.map_cons, List.map_nil, List.sum_cons, List.sum_nil]; omega
      · rw [stepsL_snoc, hr]; simp only [d.rets]
      · simp only; omega
    | @rd n' _ _ pc' _ _ hl hs hp' =>
      have hw : wbody N H m l = (m, { l with pc := pc' }) := by
        rw [wbody_live (by rw [hpc]; exact hl), hpc, hs]
      rw [hw]
      refine .during (pre := pre) (o := o) (m0 := m0) (m1 := m1) (ws0 := ws0) (ws := ws) (n := n') ⟨d.ops, d.rep0, d.rep1, d.writes, d.done, d.rest, ?_, ?_, d.last, d.cnt, d.rets⟩ ?_
      · rw [hr]; exact hp'
      · exact track_rd (by have := d.track; rwa [hpc] at this) hl hs (path_ne_ub hp')
      · simp only; omega
    | @wr n' _ m' _ pc' w ws _ hl hs ha hp' =>
      have hw : wbody N H m l = (m', { l with pc := pc' }) := by
        rw [wbody_live (by rw [hpc]; exact hl), hpc, hs]
        simp only [ha]
      rw [hw]
      refine .during (pre := pre) (o := o) (m0 := m0) (m1 := m1) (ws0 := ws0 ++ [w]) (ws := ws) (n := n') ⟨d.ops, d.rep0, d.rep1, ?_, ?_, ?_, ?_, ?_, d.last, d.cnt, d.rets⟩ ?_
      · rw [d.writes]; simp
      · rw [applyM_append, d.done, Res.ok_bind]; simp [applyM, ha]
      · have := d.rest; simp only [applyM, ha, Res.ok_bind] at this; exact this
      · rw [hr]; exact hp'
      · rw [List.length_append]; exact track_wr (by have := d.track; rwa [hpc] at this) hl hs
      · simp only; omega

/-! ## readers -/

/-- An operation that only reads. -/
def isRead : Op V → Bool
  | .read _ => true
  | .size => true
  | _ => false

theorem reads_ops {c : Call V} (h : c.reads = true) : ∀ o ∈ (Spec.meaning c), isRead o = true := by
  cases c with
  | op o =>
    intro x hx
    simp only [Spec.meaning, List.mem_singleton] at hx
    subst hx
    cases x <;> first | rfl | cases h
  | insertMany ps => cases h
  | eraseMany ks => cases h
  | readSection ks =>
    intro x hx
    simp only [meaning_eq, Call.ops, List.mem_map] at hx
    obtain ⟨k, _, rfl⟩ := hx
    rfl
  | writeSection us => cases h

theorem isRead_step {o : Op V} (h : isRead o = true) (N lk : Nat) (l : Spec.Bindings V) : (ShmMap.Spec.stepL N lk l o).1 = l ∧ (ShmMap.Spec.stepL N lk l o).2.1 = lk := by
  cases o <;> first | exact ⟨rfl, rfl⟩ | cases h

theorem isRead_steps : ∀ {os : List (Op V)}, (∀ o ∈ os, isRead o = true) → ∀ (N lk : Nat) (l : Spec.Bindings V), (Spec.stepsL N lk l os).1 = l ∧ (Spec.stepsL N lk l os).2.1 = lk := by
  intro os
  induction os with
  | nil => intro _ N lk l; exact ⟨rfl, rfl⟩
  | cons o os ih =>
    intro h N lk l
    have h1 := isRead_step (h o (by simp)) N lk l
    simp only [Spec.stepsL]
    rw [h1.1, h1.2]
    exact ih (fun x hx => h x (List.mem_cons_of_mem _ hx)) N lk l

theorem reads_steps {c : Call V} (h : c.reads = true) (N lk : Nat) (l : Spec.Bindings V) : (Spec.stepsL N lk l (Spec.meaning c)).1 = l ∧ (Spec.stepsL N lk l (Spec.meaning c)).2.1 = lk :=
  isRead_steps (reads_ops h) N lk l

/-- A process with the read lock writes nothing. -/
theorem reads_step (hN : N < NONE) (hH : 0 < H) {k : Nat} {a : Spec.State V} {c : Call V} {m : Map V} {l : Loc V} (h : Inside N H k a c m l) (hc : c.reads = true) :
    wbody N H m l = (m, rbody N H m l) := by
  cases h with
  | @between _ _ _ _ pre hp b hb =>
    unfold wbody rbody
    rw [hp]
    cases ht : l.todo <;> rfl
  | @during n _ _ _ _ pre o m0 m1 ws0 ws d hb =>
    have hws : ws = [] := by
      have hw := d.writes
      have ho := d.ops
      have : ShmMap.writes N H m0 o = .ok [] := by
        have hr := reads_ops hc o (by rw [ho]; simp)
        cases o <;> first | rfl | cases hr
      rw [this] at hw
      cases ws with
      | nil => rfl
      | cons w ws => simp at hw
    subst hws
    have hp := d.path
    generalize (ShmMap.Spec.stepL N (Spec.stepsL N a.lost a.map pre).2.1 (Spec.stepsL N a.lost a.map pre).1 o).2.2 = r at hp
    generalize hpc : l.pc = pc at hp
    generalize hws : ([] : List (Wr V)) = ws at hp
    cases hp with
    | ret => unfold wbody rbody; rw [hpc]
    | rd hl hs hp' =>
      rw [wbody_live (by rw [hpc]; exact hl), rbody_live (by rw [hpc]; exact hl), hpc, hs]
    | wr => cases hws

/-! ## the end of a call -/

theorem tally_le (rs : List (Ret V)) : tally rs ≤ rs.length := by
  unfold tally
  induction rs with
  | nil => simp
  | cons r rs ih =>
    have : one r ≤ 1 := by unfold one; split <;> omega
    simp only [List.map_cons, List.sum_cons, List.length_cons]; omega

theorem tally_all (rs : List (Ret V)) : (tally rs == rs.length) = rs.all Spec.isTrue := by
  induction rs with
  | nil => rfl
  | cons r rs ih =>
    have h1 := tally_le rs
    rw [List.all_cons, ← ih]
    have h2 : tally (r :: rs) = one r + tally rs := by simp [tally]
    rw [h2, List.length_cons]
    cases r with
    | bool b =>
      cases b with
      | true => simp only [one, Spec.isTrue, Bool.true_and]; rw [Bool.eq_iff_iff]; simp only [beq_iff_eq]; omega
      | false => simp only [one, Spec.isTrue, Bool.false_and]; rw [Bool.eq_false_iff]; simp only [ne_eq, beq_iff_eq]; omega
    | val v => simp only [one, Spec.isTrue, Bool.false_and]; rw [Bool.eq_false_iff]; simp only [ne_eq, beq_iff_eq]; omega
    | num v => simp only [one, Spec.isTrue, Bool.false_and]; rw [Bool.eq_false_iff]; simp only [ne_eq, beq_iff_eq]; omega
    | unit => simp only [one, Spec.isTrue, Bool.false_and]; rw [Bool.eq_false_iff]; simp only [ne_eq, beq_iff_eq]; omega

theorem inside_end {k : Nat} {a : Spec.State V} {c : Call V} {m : Map V} {l : Loc V} (h : Inside N H k a c m l) (hf : l.finished = true) :
    (∃ f fr, Rep N H m f fr (a.effect N c).lost (a.effect N c).map) ∧ c.result l = a.result N c := by
  have hf' : l.pc = .idle ∧ l.todo = [] := by
    unfold Loc.finished at hf
    split at hf
    · rename_i h1 h2; exact ⟨h1, h2⟩
    · cases hf
  cases h with
  | @during n _ _ _ _ pre o m0 m1 ws0 ws d hb => exact absurd hf'.1 (path_ne_idle d.path)
  | @between _ _ _ _ pre hp b hb =>
    have hops := b.ops
    rw [hf'.2, List.append_nil] at hops
    refine ⟨?_, ?_⟩
    · simp only [Spec.State.effect]; rw [hops]; exact b.rep
    · have hlen := stepsL_length N pre a.lost a.map
      have hcnt := b.cnt
      have hlast := b.last
      cases c with
      | op o =>
        simp only [Call.result, Spec.State.result, Spec.answer]
        rw [hlast, ← hops]
        simp only [Spec.meaning, Spec.stepsL]
        rfl
      | insertMany ps =>
        simp only [Call.result, Spec.State.result, Spec.answer]
        rw [hcnt, ← tally_all, stepsL_length, hops]
        have : pre.length = ps.length := by rw [← hops]; simp [meaning_eq, Call.ops]
        rw [this]
      | eraseMany ks =>
        simp only [Call.result, Spec.State.result, Spec.answer]
        rw [hcnt, ← tally_all, stepsL_length, hops]
        have : pre.length = ks.length := by rw [← hops]; simp [meaning_eq, Call.ops]
        rw [this]
      | readSection ks => simp only [Call.result, Spec.State.result, Spec.answer]; rw [b.rets, hops]
      | writeSection us => simp only [Call.result, Spec.State.result, Spec.answer]; rw [b.rets, hops]

/-! ## kills -/

/-- The places at which a kill breaks the map: between the two writes of `free_nodes.push`, coda/shm_stack.tcc:82, and inside `clear`,
coda/shm_hash_map.tcc:205-210. -/
def Pc.fragile (H : Nat) : Pc V → Prop
  | .frData _ _ => True
  | .clTop => True
  | .clHash i => i < H
  | _ => False

theorem inside_kill (hN : N < NONE) (hH : 0 < H) {k : Nat} {a : Spec.State V} {c : Call V} {m : Map V} {l : Loc V} (h : Inside N H k a c m l) (hk : ¬ l.pc.fragile H) :
    ∃ a', Spec.Partial N a c a' ∧ a'.st = a.st ∧ ∃ f fr, Rep N H m f fr a'.lost a'.map := by
  cases h with
  | @between _ _ _ _ pre hp b hb => exact ⟨_, .pre b.ops, rfl, b.rep⟩
  | @during n _ _ _ _ pre o m0 m1 ws0 ws d hb =>
    obtain ⟨f, fr, h0⟩ := d.rep0
    have ht := d.track
    obtain ⟨m', f', fr', lk', l', e, h', hl, hlk⟩ := kill_spec hN hH h0 o ws0.length
      (by
        rintro k rfl hn
        cases hpc : l.pc <;> rw [hpc] at ht hk <;> simp_all [Track, Pc.fragile])
      (by
        rintro rfl
        cases hpc : l.pc <;> rw [hpc] at ht hk <;> simp_all [Track, Pc.fragile] <;> omega)
    have hm : m' = m := by
      have hd := d.done
      simp only [kill, d.writes, Res.ok_bind, List.take_left'] at e
      rw [hd] at e
      cases e; rfl
    subst hm
    refine ⟨{ a with map := l', lost := lk' }, .mid (pre := pre) (o := o) (post := l.todo) d.ops ?_ hlk, rfl, f', fr', h'⟩
    rw [stepsL_snoc]
    exact hl

/-! ## without the number of steps -/

/-- A process inside the critical section of its call `c`. -/
def Within (N H : Nat) (a : Spec.State V) (c : Call V) (m : Map V) (l : Loc V) : Prop := ∃ k, Inside N H k a c m l

theorem within_begin {a : Spec.State V} {c : Call V} {m : Map V} {f : Nat → List Nat} {fr : List Nat} (h : Rep N H m f fr a.lost a.map) : Within N H a c m (.begin c) :=
  ⟨_, inside_begin h⟩

theorem within_ne_ub {a : Spec.State V} {c : Call V} {m : Map V} {l : Loc V} (h : Within N H a c m l) : l.pc ≠ .ub := by
  obtain ⟨k, h⟩ := h
  exact inside_ne_ub h

theorem within_step (hN : N < NONE) (hH : 0 < H) {a : Spec.State V} {c : Call V} {m : Map V} {l : Loc V} (h : Within N H a c m l) :
    Within N H a c (wbody N H m l).1 (wbody N H m l).2 := by
  obtain ⟨k, h⟩ := h
  exact ⟨_, inside_step hN hH h⟩

end Verif.MapSys
