import Verif.RwLock.Lemmas
/-
  Property C51: reader/writer exclusion of shm::hash_map in every interleaving, with kills.
-/
set_option linter.unusedVariables false

namespace Verif.RwLock

variable {M L : Type}

/-- The semaphores exist with value 0, every process is unconnected or outside a critical section. -/
def Start (s : State M L) : Prop :=
  s.exist = true ∧ s.sem = ⟨0, 0⟩ ∧ ∀ p ∈ s.procs, (p.mode = .fresh ∨ p.mode = .out) ∧ p.adj = ⟨0, 0⟩

theorem inv_start {s : State M L} (h : Start s) : Inv s := by
  obtain ⟨h1, h2, h3⟩ := h
  have c : ∀ m, m ≠ .fresh → m ≠ .out → cnt m s.procs = 0 := by
    intro m hf ho
    unfold cnt
    rw [List.countP_eq_zero]
    intro p hp
    rcases (h3 p hp).1 with h | h <;> rw [h] <;> simp only [decide_eq_true_eq]
    · exact fun e => hf e.symm
    · exact fun e => ho e.symm
  refine ⟨h1, by rw [h2, c _ (by decide) (by decide)]; rfl, by rw [h2, c _ (by decide) (by decide)]; rfl, ?_, ?_, ?_, ?_, by rw [h2]; decide⟩
  · rw [c _ (by decide) (by decide)]; omega
  · rw [c _ (by decide) (by decide)]; omega
  · intro p hp
    rw [(h3 p hp).2]
    rcases (h3 p hp).1 with h | h <;> rw [h] <;> rfl
  · intro p hp
    rcases (h3 p hp).1 with h | h <;> rw [h] <;> decide

/-- A state reached from a start by some interleaving. -/
def Reach (wbody : M → L → M × L) (rbody : M → L → L) (s : State M L) : Prop :=
  ∃ s0 as, Start s0 ∧ exec wbody rbody s0 as = some s

/-- **C51, exclusion.** In every reachable state — any number of processes, any interleaving, any kills — a process inside a writer's
critical section is the only process inside a critical section. -/
theorem C51_exclusion {wbody : M → L → M × L} {rbody : M → L → L} {s : State M L} (h : Reach wbody rbody s) (i j : Nat) (hij : i ≠ j)
    (hi : s.mode i = some .writing) : s.mode j ≠ some .writing ∧ s.mode j ≠ some .reading := by
  obtain ⟨s0, as, h0, he⟩ := h
  have hinv := inv_exec (inv_start h0) he
  unfold State.mode at *
  rw [Option.map_eq_some_iff] at hi
  obtain ⟨p, hp, hw⟩ := hi
  cases hq : s.procs[j]? with
  | none => simp
  | some q =>
    have := inv_excl hinv hp hq hij hw
    simp [this.1, this.2]

/-- `n` steps of a writer's body executed alone. -/
def runW (wbody : M → L → M × L) : Nat → M → L → M × L
  | 0, m, l => (m, l)
  | n + 1, m, l => runW wbody n (wbody m l).1 (wbody m l).2

/-- `n` steps of a reader's body executed alone. -/
def runR (rbody : M → L → L) (m : M) : Nat → L → L
  | 0, l => l
  | n + 1, l => runR rbody m n (rbody m l)

/-- **C51, what exclusion is for.** While process `i` is inside a critical section (it is neither killed nor unlocks in `as`), whatever the
others do, the memory and its local state are exactly what they would be had it run alone: a writer's section is atomic, and a reader sees
one unchanging memory. -/
theorem C51_atomic {wbody : M → L → M × L} {rbody : M → L → L} {s s' : State M L} (h : Reach wbody rbody s) (i : Nat)
    (as : List (Label L)) (hstay : ∀ a ∈ as, ¬ (a.pid = i ∧ a.leaves = true)) (he : exec wbody rbody s as = some s') (p : Proc L)
    (hp : s.procs[i]? = some p) :
    let n := as.countP (fun a => decide (a.pid = i) && a.isBody)
    (p.mode = .writing → s'.mem = (runW wbody n s.mem p.loc).1 ∧ (s'.procs[i]?).map (·.loc) = some (runW wbody n s.mem p.loc).2 ∧
      s'.mode i = some .writing) ∧
    (p.mode = .reading → s'.mem = s.mem ∧ (s'.procs[i]?).map (·.loc) = some (runR rbody s.mem n p.loc) ∧ s'.mode i = some .reading) := by
  intro n
  obtain ⟨s0, as0, h0, he0⟩ := h
  have hinv := inv_exec (inv_start h0) he0
  clear h0 he0
  have key : ∀ (as : List (Label L)) (s : State M L) (p : Proc L), Inv s → s.procs[i]? = some p →
      (∀ a ∈ as, ¬ (a.pid = i ∧ a.leaves = true)) → exec wbody rbody s as = some s' →
      (p.mode = .writing → s'.mem = (runW wbody (as.countP (fun a => decide (a.pid = i) && a.isBody)) s.mem p.loc).1 ∧
        (s'.procs[i]?).map (·.loc) = some (runW wbody (as.countP (fun a => decide (a.pid = i) && a.isBody)) s.mem p.loc).2 ∧
        s'.mode i = some .writing) ∧
      (p.mode = .reading → s'.mem = s.mem ∧
        (s'.procs[i]?).map (·.loc) = some (runR rbody s.mem (as.countP (fun a => decide (a.pid = i) && a.isBody)) p.loc) ∧
        s'.mode i = some .reading) := by
    intro as
    induction as with
    | nil =>
      intro s p _ hp _ he
      simp only [exec, Option.some.injEq] at he
      subst he
      refine ⟨fun hm => ⟨rfl, by rw [hp]; rfl, by unfold State.mode; rw [hp, ← hm]; rfl⟩,
        fun hm => ⟨rfl, by rw [hp]; rfl, by unfold State.mode; rw [hp, ← hm]; rfl⟩⟩
    | cons a as ih =>
      intro s p hinv hp hstay he
      simp only [exec] at he
      cases hs : step wbody rbody s a with
      | none => simp [hs] at he
      | some s1 =>
        simp only [hs] at he
        have hinv1 := inv_step hinv hs
        have hst1 := fun b hb => hstay b (List.mem_cons_of_mem _ hb)
        by_cases hb : a.pid = i ∧ a.isBody = true
        · have ha : a = .body i := by
            obtain ⟨h1, h2⟩ := hb
            cases a <;> simp_all [Label.pid, Label.isBody]
          subst ha
          obtain ⟨hw, hr⟩ := step_body hp hs
          simp only [List.countP_cons, Label.pid, Label.isBody, decide_true, Bool.and_self, if_true]
          refine ⟨fun hm => ?_, fun hm => ?_⟩
          · obtain ⟨h1, h2⟩ := hw hm
            have := (ih s1 _ hinv1 h2 hst1 he).1 hm
            rw [h1] at this
            exact this
          · obtain ⟨h1, h2⟩ := hr hm
            have := (ih s1 _ hinv1 h2 hst1 he).2 hm
            rw [h1] at this
            exact this
        · have hc : (decide (a.pid = i) && a.isBody) = false := by
            rw [Bool.eq_false_iff]
            intro hh
            rw [Bool.and_eq_true, decide_eq_true_eq] at hh
            exact hb hh
          rw [List.countP_cons_of_neg (by rw [hc]; decide)]
          refine ⟨fun hm => ?_, fun hm => ?_⟩
          · obtain ⟨h1, h2⟩ := step_frame hinv hs hp (Or.inl hm) (hstay a (by simp)) hb
            have := (ih s1 p hinv1 h2 hst1 he).1 hm
            rw [h1] at this
            exact this
          · obtain ⟨h1, h2⟩ := step_frame hinv hs hp (Or.inr hm) (hstay a (by simp)) hb
            have := (ih s1 p hinv1 h2 hst1 he).2 hm
            rw [h1] at this
            exact this
  exact key as s p hinv hp hstay he

/-- **C51, kills release the lock.** In every reachable state in which no process is inside a critical section (those that were have left or
have been killed), every connected process can take the write lock at once, and the read lock too. -/
theorem C51_released {wbody : M → L → M × L} {rbody : M → L → L} {s : State M L} (h : Reach wbody rbody s)
    (hout : ∀ j, s.mode j ≠ some .writing ∧ s.mode j ≠ some .reading) (i : Nat) (hi : s.mode i = some .out) (l : L) :
    (step wbody rbody s (.lockW i l)).isSome ∧ (step wbody rbody s (.lockR i l)).isSome := by
  obtain ⟨s0, as, h0, he⟩ := h
  have hinv := inv_exec (inv_start h0) he
  have c : ∀ m, m = .writing ∨ m = .reading → cnt m s.procs = 0 := by
    intro m hm
    unfold cnt
    rw [List.countP_eq_zero]
    intro p hp hmp
    simp only [decide_eq_true_eq] at hmp
    obtain ⟨j, hj⟩ := List.getElem?_of_mem hp
    have := hout j
    unfold State.mode at this
    rw [hj, Option.map_some, hmp] at this
    rcases hm with rfl | rfl
    · exact this.1 rfl
    · exact this.2 rfl
  have hr := hinv.r
  have hw := hinv.w
  rw [c _ (Or.inr rfl)] at hr
  rw [c _ (Or.inl rfl)] at hw
  unfold State.mode at hi
  rw [Option.map_eq_some_iff] at hi
  obtain ⟨p, hp, hm⟩ := hi
  have hsem : s.sem = ⟨0, 0⟩ := by
    cases hs : s.sem with
    | mk r w => rw [hs] at hr hw; simp only at hr hw; rw [hr, hw]; rfl
  refine ⟨?_, ?_⟩
  · simp only [step, hp, if_pos hm, State.doSem, hsem]
    rfl
  · simp only [step, hp, if_pos hm, State.doSem, hsem]
    rfl

/-! The memory of the examples is a number, a writer's body adds its local state to it in two steps (read, then write). -/

def wb : Nat → Option Nat → Nat × Option Nat := fun m l => match l with
  | none => (m, some m)
  | some v => (v + 1, none)

def rb : Nat → Option Nat → Option Nat := fun m _ => some m

def sx : State Nat (Option Nat) := ⟨true, ⟨0, 0⟩, 0, [⟨.out, none, ⟨0, 0⟩⟩, ⟨.out, none, ⟨0, 0⟩⟩, ⟨.fresh, none, ⟨0, 0⟩⟩]⟩

theorem sx_start : Start sx := by
  refine ⟨rfl, rfl, ?_⟩
  intro p hp
  simp only [sx, List.mem_cons, List.not_mem_nil, or_false] at hp
  rcases hp with rfl | rfl | rfl <;> simp

/-- Two increments by different processes are not lost; a writer killed in its section releases the lock; two readers share it. -/
example : ((exec wb rb sx [.lockW 0 none, .body 0, .get 2, .body 0, .unlock 0, .lockW 1 none, .body 1, .body 1, .unlock 1, .lockW 2 none,
    .body 2, .kill 2, .lockR 0 none, .lockR 1 none, .body 0, .unlock 1]).map (fun s => (s.mem, s.sem, s.mode 0, s.mode 2))) =
    some (2, ⟨1, 0⟩, some .reading, some .dead) := by decide

/-- A process cannot enter while another one is writing. -/
example : exec wb rb sx [.lockW 0 none, .lockR 1 none] = none ∧ exec wb rb sx [.lockW 0 none, .lockW 1 none] = none ∧
    exec wb rb sx [.lockR 0 none, .lockW 1 none] = none := ⟨rfl, rfl, rfl⟩

/-! ## C81: creating the semaphores -/

/-- Nothing exists yet, nobody is connected. -/
def sy : State Nat (Option Nat) := { sx with exist := false, procs := [⟨.fresh, none, ⟨0, 0⟩⟩, ⟨.fresh, none, ⟨0, 0⟩⟩] }

/-- The premises of `C81_connect_partial` are met by `sy`. -/
example : sy.exist = false ∧ sy.procs.length = 2 := ⟨rfl, rfl⟩

/-- **C81 is false.** Two processes connect at the same time.  Both find no semaphores; the first creates and initialises them and takes the
write lock; the second "creates" them again and resets the values to 0, and then takes the write lock too: two writers. -/
theorem C81_refuted : (exec wb rb sy [.getMissing 0, .getMissing 1, .create 0, .setR 0, .setW 0, .lockW 0 none, .create 1, .setR 1, .setW 1,
    .lockW 1 none]).map (fun s => (s.mode 0, s.mode 1)) = some (some .writing, some .writing) := by decide

/-- It is also false with a single creator: a process that connects between the creation and the initialisation loses its lock. -/
theorem C81_refuted_single : (exec wb rb sy [.getMissing 0, .create 0, .get 1, .lockW 1 none, .setR 0, .setW 0, .lockW 0 none]).map
    (fun s => (s.mode 0, s.mode 1)) = some (some .writing, some .writing) := by decide

/-- **C81, the part that holds.** If the first `connect_sem` is complete before any other process connects, the state is a `Start`, from which
all the theorems of C51 hold, however the other processes connect.  Missing: concurrent first connects (`C81_refuted`). -/
theorem C81_connect_partial {wbody : M → L → M × L} {rbody : M → L → L} {s : State M L} (hex : s.exist = false)
    (hf : ∀ p ∈ s.procs, p.mode = .fresh ∧ p.adj = ⟨0, 0⟩) (i : Nat) (hi : i < s.procs.length) :
    ∃ s', exec wbody rbody s [.getMissing i, .create i, .setR i, .setW i] = some s' ∧ Start s' ∧ s'.mode i = some .out ∧ s'.mem = s.mem := by
  have hp : s.procs[i]? = some s.procs[i] := List.getElem?_eq_getElem hi
  have hm := (hf _ (List.getElem_mem hi)).1
  let q := s.procs[i]
  let s1 : State M L := s.upd i { q with mode := .missing }
  have e1 : step wbody rbody s (.getMissing i) = some s1 := by simp [step, hp, hm, hex, s1, q]
  have p1 : s1.procs[i]? = some { q with mode := .missing } := by simp [s1, State.upd, hi]
  let s2 : State M L := { s1 with exist := true }.upd i { q with mode := .setR }
  have e2 : step wbody rbody s1 (.create i) = some s2 := by simp [step, p1, s2]
  have hl1 : i < s1.procs.length := by simp [s1, State.upd, hi]
  have p2 : s2.procs[i]? = some { q with mode := .setR } := by simp [s2, State.upd, hl1]
  have hl2 : i < s2.procs.length := by simp [s2, State.upd, hl1]
  let s3 : State M L := { s2 with sem := s2.sem.set .R 0, procs := clearAdj .R (s2.procs.set i { q with mode := .setW }) }
  have e3 : step wbody rbody s2 (.setR i) = some s3 := by simp [step, p2, s3]
  have p3 : s3.procs[i]? = some { q with mode := .setW, adj := q.adj.set .R 0 } := by simp [s3, clearAdj, hl2]
  have hl3 : i < s3.procs.length := by simp [s3, clearAdj, hl2]
  let s4 : State M L :=
    { s3 with sem := s3.sem.set .W 0, procs := clearAdj .W (s3.procs.set i { q with mode := .out, adj := q.adj.set .R 0 }) }
  have e4 : step wbody rbody s3 (.setW i) = some s4 := by simp [step, p3, s4]
  refine ⟨s4, by simp [exec, e1, e2, e3, e4], ⟨rfl, rfl, ?_⟩, by simp [State.mode, s4, clearAdj, hl3], rfl⟩
  have hq := (hf q (List.getElem_mem hi)).2
  have h4 : s4.procs = (s.procs.map (fun p => { p with adj := (p.adj.set .R 0).set .W 0 })).set i
      { q with mode := .out, adj := ((q.adj.set .R 0)).set .W 0 } := by
    simp [s4, s3, s2, s1, State.upd, clearAdj, List.map_set, List.set_set, Function.comp_def]
  intro p hp'
  rw [h4] at hp'
  rcases mem_set hp' with hx | rfl
  · obtain ⟨x, hx', rfl⟩ := List.mem_map.mp hx
    have := hf x hx'
    exact ⟨Or.inl this.1, by rw [this.2]; rfl⟩
  · exact ⟨Or.inr rfl, by rw [hq]; rfl⟩

end Verif.RwLock
