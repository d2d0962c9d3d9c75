import Verif.MapThreads.Spec

set_option linter.unusedSimpArgs false
set_option linter.unusedVariables false

namespace Verif.MapThreads

open Verif.ShmPool Verif.ShmMap
open Verif.MapSys (Call Pend Event Loc)
open Verif.RwLock (adjOf cnt Proc Mode Vals)

variable {V : Type} {N H : Nat} {own : Nat → Nat}

/-- The thread with the adjustment that it would have as a process. -/
def fix (p : Proc (Loc V)) : Proc (Loc V) := { p with adj := adjOf p.mode }

/-- The threads as processes. -/
def abs (s : MapSys.Sys V) : MapSys.Sys V := { s with rw := { s.rw with procs := s.rw.procs.map fix } }

theorem abs_get (s : MapSys.Sys V) (i : Nat) : (abs s).rw.procs[i]? = (s.rw.procs[i]?).map fix := by simp [abs]

theorem abs_mode (s : MapSys.Sys V) (i : Nat) : (abs s).rw.mode i = s.rw.mode i := by
  simp only [RwLock.State.mode, abs_get, Option.map_map]
  rfl

/-- How many of these threads, numbered from `k`, belong to `P` and are in mode `m`. -/
def hold (own : Nat → Nat) (m : Mode) (P : Nat) : Nat → List (Proc (Loc V)) → Nat
  | _, [] => 0
  | k, p :: ps => (if own k = P ∧ p.mode = m then 1 else 0) + hold own m P (k + 1) ps

theorem hold_set {m : Mode} {P : Nat} : ∀ {ps : List (Proc (Loc V))} {k i : Nat} {p q : Proc (Loc V)}, ps[i]? = some p →
    hold own m P k (ps.set i q) + (if own (k + i) = P ∧ p.mode = m then 1 else 0) = hold own m P k ps + (if own (k + i) = P ∧ q.mode = m then 1 else 0)
  | [], k, i, p, q, h => by simp at h
  | a :: ps, k, 0, p, q, h => by
    simp only [List.getElem?_cons_zero, Option.some.injEq] at h; subst h
    simp only [List.set_cons_zero, hold, Nat.add_zero]
    omega
  | a :: ps, k, i + 1, p, q, h => by
    simp only [List.getElem?_cons_succ] at h
    have := hold_set (m := m) (P := P) (k := k + 1) (q := q) h
    simp only [List.set_cons_succ, hold]
    have e : k + 1 + i = k + (i + 1) := by omega
    rw [e] at this
    omega

theorem hold_le (m : Mode) (P : Nat) : ∀ (ps : List (Proc (Loc V))) (k : Nat), hold own m P k ps ≤ cnt m ps
  | [], k => by simp [hold, cnt]
  | a :: ps, k => by
    have := hold_le m P ps (k + 1)
    simp only [hold, cnt, List.countP_cons] at *
    by_cases h : a.mode = m
    · simp only [h, and_true, decide_true, if_true]
      split <;> omega
    · simp only [h, and_false, decide_false, if_false, Bool.false_eq_true]
      omega

theorem cnt_fix (m : Mode) (ps : List (Proc (Loc V))) : cnt m (ps.map fix) = cnt m ps := by
  simp only [cnt, List.countP_map]
  rfl

/-- What holds of all states: as processes the threads are in a state of the lock, and the adjustments of a process are those of its threads together. -/
structure Inv (own : Nat → Nat) (t : Sys V) : Prop where
  rw : RwLock.Inv (abs t.sys).rw
  adj : ∀ P, t.padj P = ⟨-(hold own .reading P 0 t.sys.rw.procs : Nat), -(hold own .writing P 0 t.sys.rw.procs : Nat)⟩

theorem fix_set (ps : List (Proc (Loc V))) (i : Nat) (q : Proc (Loc V)) : (ps.set i q).map fix = (ps.map fix).set i (fix q) := by
  rw [List.map_set]

/-- The steps that do not touch the semaphores are those of processes. -/
theorem plain_step {s s' : MapSys.Sys V} {a : MapSys.Act V} {es : List (Event V)} (ha : match a with
      | .connect _ | .call _ _ | .body _ | .ret _ | .spawn _ => True
      | _ => False) (e : MapSys.step N H s a = some (s', es)) :
    MapSys.step N H (abs s) a = some (abs s', es) ∧ ∀ m P, m = .reading ∨ m = .writing → hold own m P 0 s'.rw.procs = hold own m P 0 s.rw.procs := by
  cases a with
  | lock i => exact absurd ha id
  | unlock i => exact absurd ha id
  | kill i => exact absurd ha id
  | call i c =>
    simp only [MapSys.step] at e ⊢
    have hp : (abs s).pend i = s.pend i := rfl
    rw [hp, abs_mode]
    cases hx : s.pend i with
    | called c => rw [hx] at e; exact absurd e (by simp)
    | returning c => rw [hx] at e; exact absurd e (by simp)
    | idle =>
      rw [hx] at e
      simp only at e ⊢
      by_cases hm : s.rw.mode i = some .out
      · rw [if_pos hm] at e ⊢
        cases e
        exact ⟨rfl, fun _ _ _ => rfl⟩
      · rw [if_neg hm] at e; exact absurd e (by simp)
  | ret i =>
    simp only [MapSys.step] at e ⊢
    have hp : (abs s).pend i = s.pend i := rfl
    rw [hp]
    cases hx : s.pend i with
    | called c => rw [hx] at e; exact absurd e (by simp)
    | idle => rw [hx] at e; exact absurd e (by simp)
    | returning rs =>
      rw [hx] at e
      cases e
      exact ⟨rfl, fun _ _ _ => rfl⟩
  | connect i =>
    simp only [MapSys.step, MapSys.Sys.low, RwLock.step] at e ⊢
    rw [abs_get]
    cases hx : s.rw.procs[i]? with
    | none => rw [hx] at e; exact absurd e (by simp)
    | some p =>
      rw [hx] at e
      simp only [Option.map_some] at e ⊢
      by_cases hm : p.mode = .fresh ∧ s.rw.exist = true
      · have hm' : (fix p).mode = .fresh ∧ (abs s).rw.exist = true := hm
        rw [if_pos hm] at e
        rw [if_pos hm']
        cases e
        refine ⟨?_, ?_⟩
        · simp only [Option.map_some, RwLock.State.upd, abs, fix_set, fix, hm.1, adjOf]
        · intro m P hr
          have := hold_set (own := own) (m := m) (P := P) (k := 0) (q := { p with mode := .out }) hx
          rcases hr with rfl | rfl <;> simpa [hm.1, RwLock.State.upd] using this
      · rw [if_neg hm] at e; exact absurd e (by simp)
  | spawn i =>
    simp only [MapSys.step, MapSys.Sys.low, RwLock.step] at e ⊢
    rw [abs_get]
    cases hx : s.rw.procs[i]? with
    | none => rw [hx] at e; exact absurd e (by simp)
    | some p =>
      rw [hx] at e
      simp only [Option.map_some] at e ⊢
      by_cases hm : p.mode = .dead
      · have hm' : (fix p).mode = .dead := hm
        rw [if_pos hm] at e
        rw [if_pos hm']
        cases e
        refine ⟨?_, ?_⟩
        · simp only [Option.map_some, RwLock.State.upd, abs, fix_set, fix, hm, adjOf]
        · intro m P hr
          have := hold_set (own := own) (m := m) (P := P) (k := 0) (q := { p with mode := .fresh }) hx
          rcases hr with rfl | rfl <;> simpa [hm, RwLock.State.upd] using this
      · rw [if_neg hm] at e; exact absurd e (by simp)
  | body i =>
    simp only [MapSys.step, MapSys.Sys.low, RwLock.step] at e ⊢
    rw [abs_get]
    cases hx : s.rw.procs[i]? with
    | none => rw [hx] at e; exact absurd e (by simp)
    | some p =>
      rw [hx] at e
      simp only [Option.map_some] at e ⊢
      by_cases hm : p.mode = .writing
      · have hm' : (fix p).mode = .writing := hm
        rw [if_pos hm] at e
        rw [if_pos hm']
        cases e
        refine ⟨?_, ?_⟩
        · simp only [Option.map_some, RwLock.State.upd, abs, fix_set, fix, hm, adjOf]
        · intro m P hr
          have := hold_set (own := own) (m := m) (P := P) (k := 0) (q := { p with loc := (MapSys.wbody N H s.rw.mem p.loc).2 }) hx
          simpa [RwLock.State.upd] using this
      · have hm' : ¬ (fix p).mode = .writing := hm
        rw [if_neg hm] at e
        rw [if_neg hm']
        by_cases hr : p.mode = .reading
        · have hr' : (fix p).mode = .reading := hr
          rw [if_pos hr] at e
          rw [if_pos hr']
          cases e
          refine ⟨?_, ?_⟩
          · simp only [Option.map_some, RwLock.State.upd, abs, fix_set, fix, hr, adjOf]
          · intro m P _
            have := hold_set (own := own) (m := m) (P := P) (k := 0) (q := { p with loc := MapSys.rbody N H s.rw.mem p.loc }) hx
            simpa [RwLock.State.upd] using this
        · rw [if_neg hr] at e; exact absurd e (by simp)

/-- The adjustments after the operations. -/
def adjF (ops : List RwLock.SemBuf) (b : Vals) : Vals := ops.foldl (fun b o => if o.undo = true then b.set o.num (b.get o.num - o.op) else b) b

/-- Whether a `semop` is possible and what the values are afterwards does not depend on the adjustments. -/
theorem semop_adj : ∀ (ops : List RwLock.SemBuf) {v a v' a' : Vals} (b : Vals), RwLock.semop v a ops = some (v', a') →
    RwLock.semop v b ops = some (v', adjF ops b) ∧ a' = adjF ops a
  | [], v, a, v', a', b, e => by
    simp only [RwLock.semop, Option.some.injEq, Prod.mk.injEq] at e
    obtain ⟨rfl, rfl⟩ := e
    exact ⟨rfl, rfl⟩
  | o :: ops, v, a, v', a', b, e => by
    simp only [RwLock.semop] at e ⊢
    cases hx : RwLock.semop1 (v.get o.num) o.op with
    | none => rw [hx] at e; exact absurd e (by simp)
    | some x =>
      rw [hx] at e
      simp only at e ⊢
      exact semop_adj ops _ e

/-- The operations of the class, with the mode before and after. -/
inductive Moves : List RwLock.SemBuf → Mode → Mode → Prop where
  | lr : Moves RwLock.lock_read_rw .out .reading
  | lw : Moves RwLock.lock_write_rw .out .writing
  | ur : Moves RwLock.unlock_read_rw .reading .out
  | uw : Moves RwLock.unlock_write_rw .writing .out

theorem moves_adj {ops : List RwLock.SemBuf} {m m' : Mode} (h : Moves ops m m') : adjF ops (adjOf m) = adjOf m' := by
  cases h <;> rfl

theorem moves_hold {ops : List RwLock.SemBuf} {m m' : Mode} (h : Moves ops m m') (P i : Nat) {ps : List (Proc (Loc V))} {p q : Proc (Loc V)}
    (hp : ps[i]? = some p) (hm : p.mode = m) (hq : q.mode = m') :
    adjF ops ⟨-(hold own .reading (own i) 0 ps : Nat), -(hold own .writing (own i) 0 ps : Nat)⟩ =
      ⟨-(hold own .reading (own i) 0 (ps.set i q) : Nat), -(hold own .writing (own i) 0 (ps.set i q) : Nat)⟩ ∧
    (P ≠ own i → hold own .reading P 0 (ps.set i q) = hold own .reading P 0 ps ∧ hold own .writing P 0 (ps.set i q) = hold own .writing P 0 ps) := by
  have h1 := hold_set (own := own) (m := .reading) (P := own i) (k := 0) (q := q) hp
  have h2 := hold_set (own := own) (m := .writing) (P := own i) (k := 0) (q := q) hp
  have h3 := hold_set (own := own) (m := .reading) (P := P) (k := 0) (q := q) hp
  have h4 := hold_set (own := own) (m := .writing) (P := P) (k := 0) (q := q) hp
  rw [hm, hq] at h1 h2 h3 h4
  refine ⟨?_, ?_⟩
  · cases h <;> simp [adjF, RwLock.lock_read_rw, RwLock.lock_write_rw, RwLock.unlock_read_rw, RwLock.unlock_write_rw, Vals.set, Vals.get] at * <;> omega
  · intro hP
    have : ¬ own (0 + i) = P := by rw [Nat.zero_add]; exact fun e => hP e.symm
    simp only [this, false_and, if_false, Nat.add_zero] at h3 h4
    exact ⟨h3, h4⟩

/-- A `semop` of a thread is one of a process. -/
theorem sem_step {t t' : Sys V} {i : Nat} {p : Proc (Loc V)} {ops : List RwLock.SemBuf} {m m' : Mode} {l : Loc V} (h : Inv own t) (hM : Moves ops m m')
    (hp : t.sys.rw.procs[i]? = some p) (hm : p.mode = m) (e : t.sem (own i) i p ops m' l = some t') :
    (abs t.sys).rw.doSem i (fix p) ops m' l = some (abs t'.sys).rw ∧ t'.sys.pend = t.sys.pend ∧ t'.gone = t.gone ∧
    ∀ P, t'.padj P = ⟨-(hold own .reading P 0 t'.sys.rw.procs : Nat), -(hold own .writing P 0 t'.sys.rw.procs : Nat)⟩ := by
  unfold Sys.sem at e
  cases hx : RwLock.semop t.sys.rw.sem (t.padj (own i)) ops with
  | none => rw [hx] at e; exact absurd e (by simp)
  | some r =>
    obtain ⟨v, a⟩ := r
    rw [hx] at e
    cases e
    obtain ⟨h1, h2⟩ := semop_adj ops (fix p).adj hx
    refine ⟨?_, rfl, rfl, ?_⟩
    · have h1' : RwLock.semop (abs t.sys).rw.sem (fix p).adj ops = some (v, adjF ops (fix p).adj) := h1
      have h3 : adjF ops (fix p).adj = adjOf m' := by
        rw [← moves_adj hM, ← hm]; rfl
      unfold RwLock.State.doSem
      rw [h1', h3]
      simp only [abs, RwLock.State.upd, fix_set, fix]
    · intro P
      obtain ⟨h3, h4⟩ := moves_hold (own := own) hM P i (q := { p with mode := m', loc := l }) hp hm rfl
      simp only
      by_cases hP : P = own i
      · rw [if_pos hP, hP, h2, h.adj, h3]
      · rw [if_neg hP, h.adj, (h4 hP).1, (h4 hP).2]

/-! ### the end of a process -/

theorem victims_ge {P : Nat} : ∀ {ps : List (Proc (Loc V))} {k i : Nat}, i ∈ victims own P k ps → k ≤ i
  | [], k, i, h => by simp [victims] at h
  | p :: ps, k, i, h => by
    simp only [victims] at h
    split at h
    · rcases List.mem_cons.mp h with rfl | h
      · exact Nat.le_refl _
      · have := victims_ge h; omega
    · have := victims_ge h; omega

theorem exec_append : ∀ (xs ys : List (MapSys.Act V)) {s s1 s2 : MapSys.Sys V} {es1 es2 : List (Event V)}, MapSys.exec N H s xs = some (s1, es1) →
    MapSys.exec N H s1 ys = some (s2, es2) → MapSys.exec N H s (xs ++ ys) = some (s2, es1 ++ es2)
  | [], ys, s, s1, s2, es1, es2, h1, h2 => by cases h1; exact h2
  | x :: xs, ys, s, s1, s2, es1, es2, h1, h2 => by
    simp only [MapSys.exec, List.cons_append] at h1 ⊢
    cases hx : MapSys.step N H s x with
    | none => rw [hx] at h1; cases h1
    | some r =>
      rw [hx] at h1
      simp only at h1 ⊢
      cases hy : MapSys.exec N H r.1 xs with
      | none => rw [hy] at h1; cases h1
      | some q =>
        rw [hy] at h1
        cases h1
        rw [exec_append xs ys hy h2]
        simp [List.append_assoc]

theorem safe_append : ∀ (xs ys : List (MapSys.Act V)) {s : MapSys.Sys V}, MapSys.SafeKills N H s xs →
    (∀ s' es, MapSys.exec N H s xs = some (s', es) → MapSys.SafeKills N H s' ys) → MapSys.SafeKills N H s (xs ++ ys)
  | [], ys, s, _, h2 => h2 s [] rfl
  | x :: xs, ys, s, h1, h2 => by
    refine ⟨h1.1, fun s' es e => safe_append xs ys (h1.2 s' es e) ?_⟩
    intro s'' es' e'
    refine h2 s'' (es ++ es') ?_
    simp only [MapSys.exec, e, e']

/-- The kills of the threads one by one. -/
theorem kill_exec (P : Nat) : ∀ (ps pre : List (Proc (Loc V))) (s : MapSys.Sys V), s.rw.procs = (pre ++ ps).map fix →
    (hold own .reading P pre.length ps : Int) ≤ s.rw.sem.r → (hold own .writing P pre.length ps : Int) ≤ s.rw.sem.w →
    MapSys.exec N H s ((victims own P pre.length ps).map .kill) = some (
      { rw := { s.rw with
          sem := ⟨s.rw.sem.r - (hold own .reading P pre.length ps : Nat), s.rw.sem.w - (hold own .writing P pre.length ps : Nat)⟩
          procs := (pre ++ killAll own P pre.length ps).map fix }
        pend := fun i => if i ∈ victims own P pre.length ps then .idle else s.pend i }, (victims own P pre.length ps).map .killed) ∧
    ((∀ i p, ps[i]? = some p → own (pre.length + i) = P → p.mode = .writing → ¬ p.loc.pc.fragile H) →
    MapSys.SafeKills N H s ((victims own P pre.length ps).map .kill))
  | [], pre, s, hp, _, _ => by
    refine ⟨?_, fun _ => trivial⟩
    simp only [victims, List.map_nil, MapSys.exec, killAll, hold]
    rw [← hp]
    simp
  | p :: ps, pre, s, hp, hr, hw => by
    have hlen : (pre ++ [p]).length = pre.length + 1 := by simp
    have hget : s.rw.procs[pre.length]? = some (fix p) := by rw [hp]; simp
    have happ : pre ++ p :: ps = (pre ++ [p]) ++ ps := by simp
    by_cases hc : own pre.length = P ∧ p.mode ≠ .dead
    · have hd : ¬ (fix p).mode = .dead := hc.2
      let s1 : MapSys.Sys V := { rw := { s.rw with sem := RwLock.undo s.rw.sem (fix p).adj, procs := s.rw.procs.set pre.length { fix p with mode := .dead, adj := ⟨0, 0⟩ } }
                                 pend := fun i => if i = pre.length then .idle else s.pend i }
      have hstep : MapSys.step N H s (.kill pre.length) = some (s1, [.killed pre.length]) := by
        simp only [MapSys.step, MapSys.Sys.low, RwLock.step, hget, if_neg hd, Option.map_some, RwLock.State.upd, MapSys.Sys.setPend]
        rfl
      let d : Proc (Loc V) := { p with mode := .dead }
      have hlen' : (pre ++ [d]).length = pre.length + 1 := by simp
      have hs1 : s1.rw.procs = ((pre ++ [d]) ++ ps).map fix := by
        have : ((pre ++ [d]) ++ ps) = (pre ++ p :: ps).set pre.length d := by simp
        rw [this, fix_set, ← hp]
        rfl
      have hsr : s1.rw.sem.r = s.rw.sem.r - (if p.mode = .reading then 1 else 0 : Nat) ∧ s1.rw.sem.w = s.rw.sem.w - (if p.mode = .writing then 1 else 0 : Nat) := by
        simp only [hold, hc.1, true_and] at hr hw
        have hv : s1.rw.sem = RwLock.undo s.rw.sem (adjOf p.mode) := rfl
        rw [hv]
        cases hm : p.mode <;> simp [hm, adjOf, RwLock.undo, RwLock.undo1] at hr hw ⊢ <;> omega
      have hh : ∀ m, hold own m P pre.length (p :: ps) = (if p.mode = m then 1 else 0) + hold own m P (pre.length + 1) ps := by
        intro m; simp [hold, hc.1]
      have hvic : victims own P pre.length (p :: ps) = pre.length :: victims own P (pre.length + 1) ps := by simp only [victims, if_pos hc]
      have hka : killAll own P pre.length (p :: ps) = d :: killAll own P (pre.length + 1) ps := by simp only [killAll, if_pos hc]; rfl
      rw [hh] at hr hw
      obtain ⟨ih1, ih2⟩ := kill_exec P ps (pre ++ [d]) s1 hs1 (by rw [hlen', hsr.1]; push_cast at hr ⊢; omega) (by rw [hlen', hsr.2]; push_cast at hw ⊢; omega)
      rw [hlen'] at ih1 ih2
      rw [hvic, hka, hh, hh]
      refine ⟨?_, fun hf => ⟨?_, ?_⟩⟩
      · simp only [List.map_cons, MapSys.exec, hstep, ih1, Option.some.injEq, Prod.mk.injEq]
        refine ⟨?_, rfl⟩
        have hp' : (fun i => if i ∈ victims own P (pre.length + 1) ps then Pend.idle else s1.pend i) =
            (fun i => if i ∈ pre.length :: victims own P (pre.length + 1) ps then Pend.idle else s.pend i) := by
          funext i
          simp only [List.mem_cons]
          by_cases h1 : i ∈ victims own P (pre.length + 1) ps
          · simp [h1]
          · by_cases h2 : i = pre.length
            · simp [h1, h2, s1]
            · simp [h1, h2, s1]
        rw [hp', hsr.1, hsr.2]
        have e1 : s.rw.sem.r - ((if p.mode = .reading then 1 else 0 : Nat) : Int) - (hold own .reading P (pre.length + 1) ps : Nat) =
            s.rw.sem.r - (((if p.mode = .reading then 1 else 0) + hold own .reading P (pre.length + 1) ps : Nat) : Int) := by push_cast; omega
        have e2 : s.rw.sem.w - ((if p.mode = .writing then 1 else 0 : Nat) : Int) - (hold own .writing P (pre.length + 1) ps : Nat) =
            s.rw.sem.w - (((if p.mode = .writing then 1 else 0) + hold own .writing P (pre.length + 1) ps : Nat) : Int) := by push_cast; omega
        rw [e1, e2]
        have e3 : pre ++ [d] ++ killAll own P (pre.length + 1) ps = pre ++ d :: killAll own P (pre.length + 1) ps := by simp
        rw [e3]
      · intro q hq hm
        rw [hget, Option.some.injEq] at hq
        subst hq
        exact hf 0 p rfl (by simpa using hc.1) hm
      · intro s' es e
        rw [hstep] at e
        cases e
        exact ih2 (by intro i q hi ho hm; exact hf (i + 1) q (by simpa using hi) (by rw [← ho]; congr 1; omega) hm)
    · have hvic : victims own P pre.length (p :: ps) = victims own P (pre.length + 1) ps := by simp only [victims, if_neg hc]
      have hka : killAll own P pre.length (p :: ps) = p :: killAll own P (pre.length + 1) ps := by simp only [killAll, if_neg hc]
      have hh : ∀ m, m ≠ .dead → hold own m P pre.length (p :: ps) = hold own m P (pre.length + 1) ps := by
        intro m hm
        have : ¬ (own pre.length = P ∧ p.mode = m) := fun h => hc ⟨h.1, by rw [h.2]; exact hm⟩
        simp [hold, this]
      rw [hh _ (by decide)] at hr hw
      rw [hvic, hka, hh _ (by decide), hh _ (by decide)]
      have := kill_exec P ps (pre ++ [p]) s (by rw [hp, happ]) (by rw [hlen]; exact hr) (by rw [hlen]; exact hw)
      rw [hlen] at this
      have e3 : pre ++ [p] ++ killAll own P (pre.length + 1) ps = pre ++ p :: killAll own P (pre.length + 1) ps := by simp
      rw [e3] at this
      refine ⟨this.1, fun hf => this.2 ?_⟩
      intro i q hi ho hm
      exact hf (i + 1) q (by simpa using hi) (by rw [← ho]; congr 1; omega) hm

theorem hold_killAll_self {P : Nat} {m : Mode} (hm : m ≠ .dead) : ∀ (ps : List (Proc (Loc V))) (k : Nat), hold own m P k (killAll own P k ps) = 0
  | [], k => rfl
  | p :: ps, k => by
    simp only [killAll, hold, hold_killAll_self hm ps (k + 1), Nat.add_zero]
    by_cases hc : own k = P ∧ p.mode ≠ .dead
    · rw [if_pos hc]
      have : ¬ (own k = P ∧ Mode.dead = m) := fun h => hm h.2.symm
      simp [this]
    · rw [if_neg hc]
      have : ¬ (own k = P ∧ p.mode = m) := fun h => hc ⟨h.1, by rw [h.2]; exact hm⟩
      simp [this]

theorem hold_killAll_other {P Q : Nat} {m : Mode} (hQ : Q ≠ P) : ∀ (ps : List (Proc (Loc V))) (k : Nat), hold own m Q k (killAll own P k ps) = hold own m Q k ps
  | [], k => rfl
  | p :: ps, k => by
    simp only [killAll, hold, hold_killAll_other hQ ps (k + 1)]
    by_cases hc : own k = P ∧ p.mode ≠ .dead
    · rw [if_pos hc]
      have h1 : ¬ own k = Q := fun h => hQ (by rw [← h, hc.1])
      simp [h1]
    · rw [if_neg hc]

/-- The steps of processes that a step of threads is. -/
theorem sim_step {t t' : Sys V} {a : Act V} {es : List (Event V)} (h : Inv own t) (e : step own N H t a = some (t', es)) :
    (∃ ys, MapSys.exec N H (abs t.sys) ys = some (abs t'.sys, es) ∧ (SafeKill own H t a → MapSys.SafeKills N H (abs t.sys) ys)) ∧
    ∀ P, t'.padj P = ⟨-(hold own .reading P 0 t'.sys.rw.procs : Nat), -(hold own .writing P 0 t'.sys.rw.procs : Nat)⟩ := by
  have one : ∀ (x : MapSys.Act V) (s' : MapSys.Sys V) (es : List (Event V)), (∀ i, x ≠ .kill i) → MapSys.step N H (abs t.sys) x = some (s', es) →
      ∃ ys, MapSys.exec N H (abs t.sys) ys = some (s', es) ∧ (SafeKill own H t a → MapSys.SafeKills N H (abs t.sys) ys) := by
    intro x s' es hx hs
    refine ⟨[x], by simp [MapSys.exec, hs], fun _ => ⟨?_, fun _ _ _ => trivial⟩⟩
    cases x <;> first | trivial | (exact absurd rfl (hx _))
  have plain : ∀ (x : MapSys.Act V), (match x with
      | .connect _ | .call _ _ | .body _ | .ret _ | .spawn _ => True
      | _ => False) → t.plain N H x = some (t', es) →
      (∃ ys, MapSys.exec N H (abs t.sys) ys = some (abs t'.sys, es) ∧ (SafeKill own H t a → MapSys.SafeKills N H (abs t.sys) ys)) ∧
      ∀ P, t'.padj P = ⟨-(hold own .reading P 0 t'.sys.rw.procs : Nat), -(hold own .writing P 0 t'.sys.rw.procs : Nat)⟩ := by
    intro x hx hs
    unfold Sys.plain at hs
    rw [Option.map_eq_some_iff] at hs
    obtain ⟨⟨s', es'⟩, h1, h2⟩ := hs
    cases h2
    obtain ⟨h3, h4⟩ := plain_step (own := own) hx h1
    refine ⟨one x _ _ (by intro i hi; rw [hi] at hx; exact hx) h3, ?_⟩
    intro P
    simp only
    rw [h.adj, h4 _ P (Or.inl rfl), h4 _ P (Or.inr rfl)]
  cases a with
  | connect i =>
    simp only [step] at e
    by_cases hg : t.gone i = true
    · rw [if_pos hg] at e; cases e
    · rw [if_neg hg] at e; exact plain _ trivial e
  | call i c =>
    simp only [step] at e
    by_cases hg : t.gone i = true
    · rw [if_pos hg] at e; cases e
    · rw [if_neg hg] at e; exact plain _ trivial e
  | body i =>
    simp only [step] at e
    by_cases hg : t.gone i = true
    · rw [if_pos hg] at e; cases e
    · rw [if_neg hg] at e; exact plain _ trivial e
  | ret i =>
    simp only [step] at e
    by_cases hg : t.gone i = true
    · rw [if_pos hg] at e; cases e
    · rw [if_neg hg] at e; exact plain _ trivial e
  | spawn i =>
    simp only [step] at e
    by_cases hg : t.gone i = true
    · rw [if_pos hg] at e; cases e
    · rw [if_neg hg] at e; exact plain _ trivial e
  | exit i =>
    simp only [step] at e
    by_cases hg : t.gone i = true
    · rw [if_pos hg] at e; cases e
    · rw [if_neg hg] at e; cases e
      exact ⟨⟨[], rfl, fun _ => trivial⟩, h.adj⟩
  | lock i =>
    simp only [step] at e
    by_cases hg : t.gone i = true
    · rw [if_pos hg] at e; cases e
    · rw [if_neg hg] at e
      cases hpd : t.sys.pend i with
      | idle => rw [hpd] at e; cases e
      | returning r => rw [hpd] at e; cases e
      | called c =>
        cases hp : t.sys.rw.procs[i]? with
        | none => rw [hpd, hp] at e; cases e
        | some p =>
          rw [hpd, hp] at e
          simp only at e
          by_cases hm : p.mode = .out
          · rw [if_pos hm, Option.map_eq_some_iff] at e
            obtain ⟨t1, h1, h2⟩ := e
            cases h2
            have hpa : (abs t.sys).rw.procs[i]? = some (fix p) := by rw [abs_get, hp]; rfl
            have hma : (fix p).mode = .out := hm
            have hpda : (abs t.sys).pend i = .called c := hpd
            by_cases hr : c.reads = true
            · rw [if_pos hr] at h1
              obtain ⟨h3, h4, _, h5⟩ := sem_step h .lr hp hm h1
              refine ⟨one (.lock i) _ _ (by intro j hj; cases hj) ?_, h5⟩
              simp only [MapSys.step, hpda, if_pos hr, MapSys.Sys.low, RwLock.step, hpa, if_pos hma, h3, Option.map_some, Option.some.injEq, Prod.mk.injEq, and_true]
              simp only [abs, h4]
            · rw [if_neg hr] at h1
              obtain ⟨h3, h4, _, h5⟩ := sem_step h .lw hp hm h1
              refine ⟨one (.lock i) _ _ (by intro j hj; cases hj) ?_, h5⟩
              simp only [MapSys.step, hpda, if_neg hr, MapSys.Sys.low, RwLock.step, hpa, if_pos hma, h3, Option.map_some, Option.some.injEq, Prod.mk.injEq, and_true]
              simp only [abs, h4]
          · rw [if_neg hm] at e; cases e
  | unlock i =>
    simp only [step] at e
    by_cases hg : t.gone i = true
    · rw [if_pos hg] at e; cases e
    · rw [if_neg hg] at e
      cases hpd : t.sys.pend i with
      | idle => rw [hpd] at e; cases e
      | returning r => rw [hpd] at e; cases e
      | called c =>
        cases hp : t.sys.rw.procs[i]? with
        | none => rw [hpd, hp] at e; cases e
        | some p =>
          rw [hpd, hp] at e
          simp only at e
          by_cases hf : p.loc.finished = true
          · rw [if_pos hf, Option.map_eq_some_iff] at e
            obtain ⟨t1, h1, h2⟩ := e
            cases h2
            have hpa : (abs t.sys).rw.procs[i]? = some (fix p) := by rw [abs_get, hp]; rfl
            have hfa : (fix p).loc.finished = true := hf
            have hpda : (abs t.sys).pend i = .called c := hpd
            by_cases hm : p.mode = .writing
            · have hma : (fix p).mode = .writing := hm
              rw [if_pos hm] at h1
              obtain ⟨h3, h4, _, h5⟩ := sem_step h .uw hp hm h1
              refine ⟨one (.unlock i) _ _ (by intro j hj; cases hj) ?_, h5⟩
              have h3' : (abs t.sys).rw.doSem i (fix p) RwLock.unlock_write_rw .out (fix p).loc = some (abs t1.sys).rw := h3
              simp only [MapSys.step, hpda, hpa, if_pos hfa, MapSys.Sys.low, RwLock.step, if_pos hma, h3', Option.map_some, Option.some.injEq, Prod.mk.injEq, and_true]
              simp only [abs, MapSys.Sys.setPend, h4]
              rfl
            · have hma : ¬ (fix p).mode = .writing := hm
              rw [if_neg hm] at h1
              by_cases hr : p.mode = .reading
              · have hra : (fix p).mode = .reading := hr
                rw [if_pos hr] at h1
                obtain ⟨h3, h4, _, h5⟩ := sem_step h .ur hp hr h1
                refine ⟨one (.unlock i) _ _ (by intro j hj; cases hj) ?_, h5⟩
                have h3' : (abs t.sys).rw.doSem i (fix p) RwLock.unlock_read_rw .out (fix p).loc = some (abs t1.sys).rw := h3
                simp only [MapSys.step, hpda, hpa, if_pos hfa, MapSys.Sys.low, RwLock.step, if_neg hma, if_pos hra, h3', Option.map_some, Option.some.injEq, Prod.mk.injEq, and_true]
                simp only [abs, MapSys.Sys.setPend, h4]
                rfl
              · rw [if_neg hr] at h1; cases h1
          · rw [if_neg hf] at e; cases e
  | kill P =>
    simp only [step, Option.some.injEq, Prod.mk.injEq] at e
    obtain ⟨rfl, rfl⟩ := e
    have hr : (hold own .reading P 0 t.sys.rw.procs : Int) ≤ t.sys.rw.sem.r := by
      have h1 := hold_le (own := own) .reading P t.sys.rw.procs 0
      have h2 : t.sys.rw.sem.r = (cnt .reading (t.sys.rw.procs.map fix) : Nat) := h.rw.r
      rw [cnt_fix] at h2
      omega
    have hw : (hold own .writing P 0 t.sys.rw.procs : Int) ≤ t.sys.rw.sem.w := by
      have h1 := hold_le (own := own) .writing P t.sys.rw.procs 0
      have h2 : t.sys.rw.sem.w = (cnt .writing (t.sys.rw.procs.map fix) : Nat) := h.rw.w
      rw [cnt_fix] at h2
      omega
    obtain ⟨h1, h2⟩ := kill_exec (N := N) (H := H) (own := own) P t.sys.rw.procs [] (abs t.sys) rfl hr hw
    refine ⟨⟨_, ?_, fun hk => h2 (by
      intro i p hi ho hm
      exact hk i p hi (by simpa using ho) hm)⟩, ?_⟩
    · rw [h1]
      simp only [Option.some.injEq, Prod.mk.injEq, and_true]
      have hu : RwLock.undo t.sys.rw.sem (t.padj P) = ⟨t.sys.rw.sem.r - (hold own .reading P 0 t.sys.rw.procs : Nat), t.sys.rw.sem.w - (hold own .writing P 0 t.sys.rw.procs : Nat)⟩ := by
        rw [h.adj]
        simp only [RwLock.undo, RwLock.undo1]
        rw [if_neg (by omega), if_neg (by omega)]
        rfl
      simp only [Sys.kill, abs, hu]
      exact ⟨rfl, rfl⟩
    · intro Q
      simp only [Sys.kill]
      by_cases hQ : Q = P
      · rw [if_pos hQ, hQ, hold_killAll_self (by decide), hold_killAll_self (by decide)]; rfl
      · rw [if_neg hQ, hold_killAll_other hQ, hold_killAll_other hQ, h.adj]

/-- The state of the lock holds in all states of Verif.MapSys. -/
theorem rw_exec : ∀ (ys : List (MapSys.Act V)) {s s' : MapSys.Sys V} {es : List (Event V)}, RwLock.Inv s.rw → MapSys.exec N H s ys = some (s', es) → RwLock.Inv s'.rw
  | [], s, s', es, h, e => by cases e; exact h
  | y :: ys, s, s', es, h, e => by
    simp only [MapSys.exec] at e
    cases hs : MapSys.step N H s y with
    | none => rw [hs] at e; cases e
    | some r =>
      rw [hs] at e
      simp only at e
      cases hx : MapSys.exec N H r.1 ys with
      | none => rw [hx] at e; cases e
      | some q =>
        rw [hx] at e
        cases e
        exact rw_exec ys (rw_step h hs) hx
where
  rw_step {s s' : MapSys.Sys V} {y : MapSys.Act V} {es : List (Event V)} (h : RwLock.Inv s.rw) (e : MapSys.step N H s y = some (s', es)) : RwLock.Inv s'.rw := by
    have low : ∀ {s1 : MapSys.Sys V} {a : RwLock.Label (Loc V)}, s.low N H a = some s1 → RwLock.Inv s1.rw := by
      intro s1 a h1
      obtain ⟨rw', e1, rfl⟩ := MapSys.low_some h1
      exact RwLock.inv_step h e1
    cases y with
    | connect i =>
      simp only [MapSys.step, Option.map_eq_some_iff] at e
      obtain ⟨s1, h1, h2⟩ := e; cases h2; have := low h1; exact this
    | call i c =>
      simp only [MapSys.step] at e
      split at e
      · split at e
        · cases e; exact h
        · cases e
      · cases e
    | lock i =>
      simp only [MapSys.step] at e
      split at e
      · simp only [Option.map_eq_some_iff] at e
        obtain ⟨s1, h1, h2⟩ := e; cases h2; have := low h1; exact this
      · cases e
    | body i =>
      simp only [MapSys.step, Option.map_eq_some_iff] at e
      obtain ⟨s1, h1, h2⟩ := e; cases h2; have := low h1; exact this
    | unlock i =>
      simp only [MapSys.step] at e
      split at e
      · split at e
        · simp only [Option.map_eq_some_iff] at e
          obtain ⟨s1, h1, h2⟩ := e; cases h2; have := low h1; exact this
        · cases e
      · cases e
    | ret i =>
      simp only [MapSys.step] at e
      split at e
      · cases e; exact h
      · cases e
    | kill i =>
      simp only [MapSys.step, Option.map_eq_some_iff] at e
      obtain ⟨s1, h1, h2⟩ := e; cases h2; have := low h1; exact this
    | spawn i =>
      simp only [MapSys.step, Option.map_eq_some_iff] at e
      obtain ⟨s1, h1, h2⟩ := e; cases h2; have := low h1; exact this

theorem sim_exec : ∀ (as : List (Act V)) {t t' : Sys V} {es : List (Event V)}, Inv own t → exec own N H t as = some (t', es) →
    (∃ ys, MapSys.exec N H (abs t.sys) ys = some (abs t'.sys, es) ∧ (SafeKills own N H t as → MapSys.SafeKills N H (abs t.sys) ys)) ∧ Inv own t'
  | [], t, t', es, h, e => by cases e; exact ⟨⟨[], rfl, fun _ => trivial⟩, h⟩
  | a :: as, t, t', es, h, e => by
    simp only [exec] at e
    cases hs : step own N H t a with
    | none => rw [hs] at e; cases e
    | some r =>
      obtain ⟨t1, es1⟩ := r
      rw [hs] at e
      simp only at e
      cases hx : exec own N H t1 as with
      | none => rw [hx] at e; cases e
      | some q =>
        obtain ⟨t2, es2⟩ := q
        rw [hx] at e
        cases e
        obtain ⟨⟨ys, h1, h2⟩, h3⟩ := sim_step h hs
        have hI : Inv own t1 := ⟨rw_exec ys h.rw h1, h3⟩
        obtain ⟨⟨zs, h4, h5⟩, h6⟩ := sim_exec as hI hx
        refine ⟨⟨ys ++ zs, exec_append ys zs h1 h4, fun hk => safe_append ys zs (h2 hk.1) ?_⟩, h6⟩
        intro s' es' e'
        rw [h1] at e'
        cases e'
        exact h5 (hk.2 _ _ hs)

theorem start_abs {H : Nat} {t : Sys V} (h : Start H t) : MapSys.Start H (abs t.sys) ∧ Inv own t := by
  obtain ⟨⟨⟨h1, h2, h3⟩, h4, h5⟩, h6, h7⟩ := h
  have hs : RwLock.Start (abs t.sys).rw := by
    refine ⟨h1, h2, ?_⟩
    intro p hp
    obtain ⟨q, hq, rfl⟩ := List.mem_map.mp hp
    have := (h3 q hq).1
    refine ⟨this, ?_⟩
    rcases this with e | e <;> simp only [fix, e] <;> rfl
  refine ⟨⟨hs, h4, h5⟩, RwLock.inv_start hs, ?_⟩
  intro P
  have hz : ∀ m, m ≠ .fresh → m ≠ .out → ∀ (ps : List (Proc (Loc V))) (k : Nat), (∀ p ∈ ps, p.mode = .fresh ∨ p.mode = .out) → hold own m P k ps = 0 := by
    intro m hf ho ps
    induction ps with
    | nil => intro k _; rfl
    | cons p ps ih =>
      intro k hp
      simp only [hold]
      rw [ih (k + 1) (fun q hq => hp q (List.mem_cons_of_mem _ hq))]
      have : ¬ p.mode = m := by
        rcases hp p List.mem_cons_self with e | e <;> rw [e]
        · exact fun h => hf h.symm
        · exact fun h => ho h.symm
      simp [this]
  rw [hz _ (by decide) (by decide) _ _ (fun p hp => (h3 p hp).1), hz _ (by decide) (by decide) _ _ (fun p hp => (h3 p hp).1), h6]
  rfl

theorem killAll_get {P : Nat} : ∀ (ps : List (Proc (Loc V))) (k i : Nat), own (k + i) ≠ P → (killAll own P k ps)[i]? = ps[i]?
  | [], k, i, _ => rfl
  | p :: ps, k, 0, h => by
    have : ¬ (own k = P ∧ p.mode ≠ .dead) := fun h' => h h'.1
    simp [killAll, this]
  | p :: ps, k, i + 1, h => by
    simp only [killAll, List.getElem?_cons_succ]
    exact killAll_get ps (k + 1) i (by rw [show k + 1 + i = k + (i + 1) by omega]; exact h)

theorem killAll_dead {P : Nat} : ∀ (ps : List (Proc (Loc V))) (k i : Nat) (p : Proc (Loc V)), own (k + i) = P → (killAll own P k ps)[i]? = some p → p.mode = .dead
  | [], k, i, p, _, e => by simp [killAll] at e
  | q :: ps, k, 0, p, h, e => by
    simp only [killAll, List.getElem?_cons_zero, Option.some.injEq] at e
    subst e
    by_cases hc : own k = P ∧ q.mode ≠ .dead
    · rw [if_pos hc]
    · rw [if_neg hc]
      by_cases hd : q.mode = .dead
      · exact hd
      · exact absurd ⟨h, hd⟩ hc
  | q :: ps, k, i + 1, p, h, e => by
    simp only [killAll, List.getElem?_cons_succ] at e
    exact killAll_dead ps (k + 1) i p (by rw [show k + 1 + i = k + (i + 1) by omega]; exact h) e

theorem victims_own {P : Nat} : ∀ {ps : List (Proc (Loc V))} {k i : Nat}, i ∈ victims own P k ps → own i = P
  | [], k, i, h => by simp [victims] at h
  | p :: ps, k, i, h => by
    simp only [victims] at h
    by_cases hc : own k = P ∧ p.mode ≠ .dead
    · rw [if_pos hc] at h
      rcases List.mem_cons.mp h with rfl | h
      · exact hc.1
      · exact victims_own h
    · rw [if_neg hc] at h; exact victims_own h

theorem kill_mode_other (t : Sys V) {P i : Nat} (h : own i ≠ P) : (t.kill own P).sys.rw.mode i = t.sys.rw.mode i := by
  simp only [RwLock.State.mode, Sys.kill]
  rw [killAll_get _ _ _ (by rw [Nat.zero_add]; exact h)]

theorem kill_mode_self (t : Sys V) {P i : Nat} (h : own i = P) : (t.kill own P).sys.rw.mode i = none ∨ (t.kill own P).sys.rw.mode i = some .dead := by
  simp only [RwLock.State.mode, Sys.kill]
  cases hx : (killAll own P 0 t.sys.rw.procs)[i]? with
  | none => exact Or.inl rfl
  | some p => exact Or.inr (by rw [Option.map_some, killAll_dead _ _ _ _ (by rw [Nat.zero_add]; exact h) hx])

/-- The steps of a thread leave the others where they are. -/
theorem plain_frame {t t' : Sys V} {a : MapSys.Act V} {es : List (Event V)} {i j : Nat} (hij : i ≠ j)
    (ha : a = .connect j ∨ (∃ c, a = .call j c) ∨ a = .body j ∨ a = .ret j ∨ a = .spawn j) (e : t.plain N H a = some (t', es)) :
    t'.sys.rw.procs[i]? = t.sys.rw.procs[i]? ∧ t'.gone = t.gone := by
  unfold Sys.plain at e
  rw [Option.map_eq_some_iff] at e
  obtain ⟨⟨s', es'⟩, h1, h2⟩ := e
  cases h2
  refine ⟨?_, rfl⟩
  simp only
  have hset : ∀ (q : Proc (Loc V)), (t.sys.rw.procs.set j q)[i]? = t.sys.rw.procs[i]? := fun q => List.getElem?_set_ne (Ne.symm hij)
  rcases ha with rfl | ⟨c, rfl⟩ | rfl | rfl | rfl
  · simp only [MapSys.step, Option.map_eq_some_iff] at h1
    obtain ⟨s1, h3, h4⟩ := h1
    cases h4
    obtain ⟨rw', e1, rfl⟩ := MapSys.low_some h3
    simp only [RwLock.step] at e1
    split at e1
    · split at e1
      · cases e1; exact hset _
      · cases e1
    · cases e1
  · simp only [MapSys.step] at h1
    split at h1
    · split at h1
      · cases h1; rfl
      · cases h1
    · cases h1
  · simp only [MapSys.step, Option.map_eq_some_iff] at h1
    obtain ⟨s1, h3, h4⟩ := h1
    cases h4
    obtain ⟨rw', e1, rfl⟩ := MapSys.low_some h3
    simp only [RwLock.step] at e1
    split at e1
    · split at e1
      · cases e1; exact hset _
      · split at e1
        · cases e1; exact hset _
        · cases e1
    · cases e1
  · simp only [MapSys.step] at h1
    split at h1
    · cases h1; rfl
    · cases h1
  · simp only [MapSys.step, Option.map_eq_some_iff] at h1
    obtain ⟨s1, h3, h4⟩ := h1
    cases h4
    obtain ⟨rw', e1, rfl⟩ := MapSys.low_some h3
    simp only [RwLock.step] at e1
    split at e1
    · split at e1
      · cases e1; exact hset _
      · cases e1
    · cases e1

theorem sem_frame {t t' : Sys V} {i j P : Nat} {p : Proc (Loc V)} {ops : List RwLock.SemBuf} {m : Mode} {l : Loc V} (hij : i ≠ j)
    (e : t.sem P j p ops m l = some t') : t'.sys.rw.procs[i]? = t.sys.rw.procs[i]? ∧ t'.gone = t.gone := by
  unfold Sys.sem at e
  split at e
  · cases e
    exact ⟨List.getElem?_set_ne (Ne.symm hij), rfl⟩
  · cases e

/-- A thread that has left a section without a release stays where it is until its process ends. -/
theorem gone_step {t t' : Sys V} {a : Act V} {es : List (Event V)} {i : Nat} (hg : t.gone i = true) (ha : a ≠ .kill (own i)) (e : step own N H t a = some (t', es)) :
    t'.gone i = true ∧ t'.sys.rw.mode i = t.sys.rw.mode i := by
  have fin : ∀ {t' : Sys V}, t'.sys.rw.procs[i]? = t.sys.rw.procs[i]? ∧ t'.gone = t.gone → t'.gone i = true ∧ t'.sys.rw.mode i = t.sys.rw.mode i := by
    intro t' h
    refine ⟨by rw [h.2]; exact hg, ?_⟩
    simp only [RwLock.State.mode, h.1]
  have ne : ∀ {j : Nat}, ¬ t.gone j = true → i ≠ j := by
    intro j hj hij; subst hij; exact hj hg
  cases a with
  | connect j =>
    simp only [step] at e
    by_cases h : t.gone j = true
    · rw [if_pos h] at e; cases e
    · rw [if_neg h] at e; exact fin (plain_frame (ne h) (Or.inl rfl) e)
  | call j c =>
    simp only [step] at e
    by_cases h : t.gone j = true
    · rw [if_pos h] at e; cases e
    · rw [if_neg h] at e; exact fin (plain_frame (ne h) (Or.inr (Or.inl ⟨c, rfl⟩)) e)
  | body j =>
    simp only [step] at e
    by_cases h : t.gone j = true
    · rw [if_pos h] at e; cases e
    · rw [if_neg h] at e; exact fin (plain_frame (ne h) (Or.inr (Or.inr (Or.inl rfl))) e)
  | ret j =>
    simp only [step] at e
    by_cases h : t.gone j = true
    · rw [if_pos h] at e; cases e
    · rw [if_neg h] at e; exact fin (plain_frame (ne h) (Or.inr (Or.inr (Or.inr (Or.inl rfl)))) e)
  | spawn j =>
    simp only [step] at e
    by_cases h : t.gone j = true
    · rw [if_pos h] at e; cases e
    · rw [if_neg h] at e; exact fin (plain_frame (ne h) (Or.inr (Or.inr (Or.inr (Or.inr rfl)))) e)
  | exit j =>
    simp only [step] at e
    by_cases h : t.gone j = true
    · rw [if_pos h] at e; cases e
    · rw [if_neg h] at e
      cases e
      refine ⟨?_, rfl⟩
      simp only [if_neg (ne h)]
      exact hg
  | lock j =>
    simp only [step] at e
    by_cases h : t.gone j = true
    · rw [if_pos h] at e; cases e
    · rw [if_neg h] at e
      split at e
      · split at e
        · rw [Option.map_eq_some_iff] at e
          obtain ⟨t1, h1, h2⟩ := e
          cases h2
          split at h1
          · exact fin (sem_frame (ne h) h1)
          · exact fin (sem_frame (ne h) h1)
        · cases e
      · cases e
  | unlock j =>
    simp only [step] at e
    by_cases h : t.gone j = true
    · rw [if_pos h] at e; cases e
    · rw [if_neg h] at e
      split at e
      · split at e
        · rw [Option.map_eq_some_iff] at e
          obtain ⟨t1, h1, h2⟩ := e
          cases h2
          split at h1
          · have := sem_frame (ne h) h1
            exact fin (t' := { t1 with sys := t1.sys.setPend j _ }) this
          · split at h1
            · have := sem_frame (ne h) h1
              exact fin (t' := { t1 with sys := t1.sys.setPend j _ }) this
            · cases h1
        · cases e
      · cases e
  | kill P =>
    simp only [step, Option.some.injEq, Prod.mk.injEq] at e
    obtain ⟨rfl, _⟩ := e
    have hP : own i ≠ P := by intro h; rw [h] at ha; exact ha rfl
    refine ⟨?_, kill_mode_other t hP⟩
    have : i ∉ victims own P 0 t.sys.rw.procs := fun h => hP (victims_own h)
    simp only [Sys.kill, if_neg this]
    exact hg

theorem gone_exec {i : Nat} : ∀ (as : List (Act V)) {t t' : Sys V} {es : List (Event V)}, t.gone i = true → (∀ a ∈ as, a ≠ .kill (own i)) →
    exec own N H t as = some (t', es) → t'.gone i = true ∧ t'.sys.rw.mode i = t.sys.rw.mode i
  | [], t, t', es, h, _, e => by cases e; exact ⟨h, rfl⟩
  | a :: as, t, t', es, h, ha, e => by
    simp only [exec] at e
    cases hs : step own N H t a with
    | none => rw [hs] at e; cases e
    | some r =>
      rw [hs] at e
      simp only at e
      cases hx : exec own N H r.1 as with
      | none => rw [hx] at e; cases e
      | some q =>
        rw [hx] at e
        cases e
        obtain ⟨h1, h2⟩ := gone_step h (ha a List.mem_cons_self) hs
        obtain ⟨h3, h4⟩ := gone_exec as h1 (fun b hb => ha b (List.mem_cons_of_mem _ hb)) hx
        exact ⟨h3, h4.trans h2⟩

/-- The semaphores are at least as high as the threads inside say. -/
theorem sem_pos {t : Sys V} (h : Inv own t) {i : Nat} : (t.sys.rw.mode i = some .writing → t.sys.rw.sem.w ≠ 0) ∧ (t.sys.rw.mode i = some .reading → t.sys.rw.sem.r ≠ 0) := by
  have hw : t.sys.rw.sem.w = (cnt .writing t.sys.rw.procs : Nat) := by
    have := h.rw.w
    rw [show (abs t.sys).rw.procs = t.sys.rw.procs.map fix from rfl, cnt_fix] at this
    exact this
  have hr : t.sys.rw.sem.r = (cnt .reading t.sys.rw.procs : Nat) := by
    have := h.rw.r
    rw [show (abs t.sys).rw.procs = t.sys.rw.procs.map fix from rfl, cnt_fix] at this
    exact this
  refine ⟨?_, ?_⟩ <;>
  · intro hm
    simp only [RwLock.State.mode, Option.map_eq_some_iff] at hm
    obtain ⟨p, hp, hm⟩ := hm
    have := RwLock.cnt_pos hp hm
    omega

theorem semop_w_none {v a : Vals} (h : v.w ≠ 0) : RwLock.semop v a RwLock.lock_read_rw = none ∧ RwLock.semop v a RwLock.lock_write_rw = none := by
  have h1 : ∀ x : Vals, x.w = v.w → RwLock.semop1 (x.get .W) 0 = none := by
    intro x hx
    have : x.get .W = v.w := hx
    rw [this]; exact RwLock.semop1_wait h
  refine ⟨?_, ?_⟩
  · simp only [RwLock.semop, RwLock.lock_read_rw, h1 v rfl]
  · simp only [RwLock.semop, RwLock.lock_write_rw]
    cases RwLock.semop1 (v.get .R) 0 with
    | none => rfl
    | some x =>
      simp only
      rw [h1 (v.set .R x) rfl]

theorem semop_r_none {v a : Vals} (h : v.r ≠ 0) : RwLock.semop v a RwLock.lock_write_rw = none := by
  have : RwLock.semop1 (v.get .R) 0 = none := RwLock.semop1_wait h
  simp only [RwLock.semop, RwLock.lock_write_rw, this]

theorem texec_append : ∀ (xs ys : List (Act V)) {s s1 s2 : Sys V} {es1 es2 : List (Event V)}, exec own N H s xs = some (s1, es1) →
    exec own N H s1 ys = some (s2, es2) → exec own N H s (xs ++ ys) = some (s2, es1 ++ es2)
  | [], ys, s, s1, s2, es1, es2, h1, h2 => by cases h1; exact h2
  | x :: xs, ys, s, s1, s2, es1, es2, h1, h2 => by
    simp only [exec, List.cons_append] at h1 ⊢
    cases hx : step own N H s x with
    | none => rw [hx] at h1; cases h1
    | some r =>
      rw [hx] at h1
      simp only at h1 ⊢
      cases hy : exec own N H r.1 xs with
      | none => rw [hy] at h1; cases h1
      | some q =>
        rw [hy] at h1
        cases h1
        rw [texec_append xs ys hy h2]
        simp [List.append_assoc]

theorem sem_zero {t : Sys V} (h : Inv own t) (hno : ∀ j, ¬ inside t j) : t.sys.rw.sem = ⟨0, 0⟩ := by
  have c : ∀ m, m = .writing ∨ m = .reading → cnt m t.sys.rw.procs = 0 := by
    intro m hm
    unfold cnt
    rw [List.countP_eq_zero]
    intro p hp hmp
    simp only [decide_eq_true_eq] at hmp
    obtain ⟨j, hj⟩ := List.getElem?_of_mem hp
    have := hno j
    unfold inside RwLock.State.mode at this
    rw [hj, Option.map_some, hmp] at this
    rcases hm with rfl | rfl
    · exact this (Or.inl rfl)
    · exact this (Or.inr rfl)
  have hw := h.rw.w
  have hr := h.rw.r
  rw [show (abs t.sys).rw.procs = t.sys.rw.procs.map fix from rfl, cnt_fix, c _ (Or.inl rfl)] at hw
  rw [show (abs t.sys).rw.procs = t.sys.rw.procs.map fix from rfl, cnt_fix, c _ (Or.inr rfl)] at hr
  have hw' : t.sys.rw.sem.w = 0 := hw
  have hr' : t.sys.rw.sem.r = 0 := hr
  cases hs : t.sys.rw.sem with
  | mk r w => rw [hs] at hw' hr'; simp only at hw' hr'; rw [hw', hr']

theorem lock_free {t : Sys V} {i : Nat} {c : Call V} (hs : t.sys.rw.sem = ⟨0, 0⟩) (hg : t.gone i = false) (hm : t.sys.rw.mode i = some .out) (hp : t.sys.pend i = .called c) :
    (step own N H t (.lock i)).isSome := by
  simp only [RwLock.State.mode, Option.map_eq_some_iff] at hm
  obtain ⟨p, hpp, hm⟩ := hm
  simp only [step, hg, Bool.false_eq_true, if_false, hp, hpp, if_pos hm, Sys.sem, hs]
  by_cases hr : c.reads = true
  · rw [if_pos hr]; rfl
  · rw [if_neg hr]; rfl

theorem lock_none {t : Sys V} {j : Nat} (h1 : ∀ a, RwLock.semop t.sys.rw.sem a RwLock.lock_read_rw = none) (h2 : ∀ a, RwLock.semop t.sys.rw.sem a RwLock.lock_write_rw = none) :
    step own N H t (.lock j) = none := by
  simp only [step]
  by_cases h : t.gone j = true
  · rw [if_pos h]
  · rw [if_neg h]
    split
    · split
      · simp only [Sys.sem, h1, h2]
        split <;> rfl
      · rfl
    · rfl

theorem lock_none_w {t : Sys V} {j : Nat} {c : Call V} (hc : t.sys.pend j = .called c) (hw : c.reads = false)
    (h2 : ∀ a, RwLock.semop t.sys.rw.sem a RwLock.lock_write_rw = none) : step own N H t (.lock j) = none := by
  simp only [step, hc]
  by_cases h : t.gone j = true
  · rw [if_pos h]
  · rw [if_neg h]
    cases t.sys.rw.procs[j]? with
    | none => rfl
    | some p =>
      simp only [hw, Bool.false_eq_true, if_false, Sys.sem, h2]
      split <;> rfl

end Verif.MapThreads
