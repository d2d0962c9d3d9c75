import Verif.RwLock.Props
/-
  C116: signals.  A signal handler makes `semop` fail with EINTR while it waits; lock_* then throw, coda/shm_hash_map.tcc:470-473, 504-507.
-/
namespace Verif.RwLock

variable {M L : Type}

/-- The steps of RwLock, and the interruption of a process that waits for the lock.  Bookkeeping: the steps of coda/shm_hash_map.tcc:379-522 in any order, and signals. -/
inductive XLabel (L : Type) where
  | base (a : Label L)
  | intrOp (i : Nat)        -- in read, size, insert, erase, clear, connect_shm: the exception leaves the lock alone
  | intrConnect (i : Nat)   -- in connect, coda/shm_hash_map.tcc:428-439: the handler of the exception calls unlock_write_rw

/-- The interrupted `connect` is one step here: the exception, and the `semop` of unlock_write_rw (coda/shm_hash_map.tcc:436), which itself waits until mySEM_W is positive. -/
def xstep (wbody : M → L → M × L) (rbody : M → L → L) (s : State M L) : XLabel L → Option (State M L)
  | .base a => step wbody rbody s a
  | .intrOp i => if s.mode i = some .out then some s else none
  | .intrConnect i =>
    match s.procs[i]? with
    | some p => if p.mode = .out then s.doSem i p unlock_write_rw .fresh p.loc else none
    | none => none

/-- Bookkeeping: the steps of coda/shm_hash_map.tcc:379-522 in any order, and signals. -/
def xexec (wbody : M → L → M × L) (rbody : M → L → L) (s : State M L) : List (XLabel L) → Option (State M L)
  | [] => some s
  | a :: as =>
    match xstep wbody rbody s a with
    | some s' => xexec wbody rbody s' as
    | none => none

/-- No connect is interrupted.  What the semaphores of coda/shm_hash_map.tcc:379-412 are like. -/
def Calm (as : List (XLabel L)) : Prop := ∀ a ∈ as, ∀ i, a ≠ .intrConnect i

theorem calm_exec {wbody : M → L → M × L} {rbody : M → L → L} : ∀ {as : List (XLabel L)} {s s' : State M L}, Calm as → xexec wbody rbody s as = some s' → ∃ bs, exec wbody rbody s bs = some s' := by
  intro as
  induction as with
  | nil => intro s s' _ e; exact ⟨[], e⟩
  | cons a as ih =>
    intro s s' hc e
    simp only [xexec] at e
    cases h : xstep wbody rbody s a with
    | none => rw [h] at e; cases e
    | some s1 =>
      rw [h] at e
      obtain ⟨bs, hb⟩ := ih (fun b hb => hc b (List.mem_cons_of_mem _ hb)) e
      cases a with
      | base b => exact ⟨b :: bs, by simp only [exec]; simp only [xstep] at h; rw [h]; exact hb⟩
      | intrOp i =>
        simp only [xstep] at h
        split at h
        · cases h; exact ⟨bs, hb⟩
        · cases h
      | intrConnect i => exact absurd rfl (hc _ (List.mem_cons_self ..) i)

/-- **C116, the part that holds.** Signals that interrupt operations waiting for the lock do no harm: a writer is alone, whatever else happens.  Missing: signals that interrupt connect, for which it is false. -/
theorem C116_signals_partial {wbody : M → L → M × L} {rbody : M → L → L} {s0 s : State M L} (h0 : Start s0) (as : List (XLabel L)) (hc : Calm as) (he : xexec wbody rbody s0 as = some s) (i j : Nat) (hij : i ≠ j)
    (hi : s.mode i = some .writing) : s.mode j ≠ some .writing ∧ s.mode j ≠ some .reading := by
  obtain ⟨bs, hb⟩ := calm_exec hc he
  exact C51_exclusion ⟨s0, bs, h0, hb⟩ i j hij hi

example : Calm [.base (.lockW 0 none), .intrOp 1, .base (.body 0), .base (.unlock 0), .base (.lockW 1 (none : Option Nat))] ∧
    ((xexec wb rb sx [.base (.lockW 0 none), .intrOp 1, .base (.body 0), .base (.unlock 0), .base (.lockW 1 none)]).map (fun s => s.mode 1)) = some (some .writing) := by
  refine ⟨?_, by decide⟩
  intro a ha i
  simp only [List.mem_cons, List.not_mem_nil, or_false] at ha
  rcases ha with rfl | rfl | rfl | rfl | rfl <;> intro c <;> cases c

/-- The semaphores while a process is writing. -/
theorem sem_writing {wbody : M → L → M × L} {rbody : M → L → L} {s : State M L} (h : Reach wbody rbody s) {i : Nat} {p : Proc L} (hp : s.procs[i]? = some p) (hm : p.mode = .writing) : s.sem = ⟨0, 1⟩ := by
  obtain ⟨s0, as, h0, he⟩ := h
  have hinv := inv_exec (inv_start h0) he
  have hr := hinv.r
  have hw := hinv.w
  have one := hinv.one
  have pos : 0 < cnt .writing s.procs := by
    unfold cnt
    rw [List.countP_pos_iff]
    exact ⟨p, List.mem_of_getElem? hp, by simp [hm]⟩
  rw [hinv.excl pos] at hr
  have e1 : cnt .writing s.procs = 1 := by omega
  rw [e1] at hw
  cases hs : s.sem with
  | mk r w => rw [hs] at hr hw; simp only at hr hw; rw [hr, hw]; rfl

theorem intr_step {wbody : M → L → M × L} {rbody : M → L → L} {s : State M L} (hsem : s.sem = ⟨0, 1⟩) {j : Nat} {q : Proc L} (hq : s.procs[j]? = some q) (hm : q.mode = .out) :
    xstep wbody rbody s (.intrConnect j) = some ({ s with sem := ⟨0, 0⟩ }.upd j ⟨.fresh, q.loc, q.adj.set .W (q.adj.get .W + 1)⟩) := by
  simp only [xstep, hq, hm, if_true, State.doSem, hsem]
  rfl

/-- **C116 is false, 1.** In every reachable state in which a process is writing, a signal to a process that waits in connect frees the lock: any third process can write too. -/
theorem C116_refuted {wbody : M → L → M × L} {rbody : M → L → L} {s : State M L} (h : Reach wbody rbody s) (i j k : Nat) (hi : s.mode i = some .writing) (hj : s.mode j = some .out)
    (hk : s.mode k = some .out) (hjk : j ≠ k) (l : L) :
    ∃ s', xexec wbody rbody s [.intrConnect j, .base (.lockW k l)] = some s' ∧ s'.mode i = some .writing ∧ s'.mode k = some .writing := by
  have hij : i ≠ j := by intro c; subst c; rw [hi] at hj; cases hj
  have hik : i ≠ k := by intro c; subst c; rw [hi] at hk; cases hk
  unfold State.mode at hi hj hk ⊢
  rw [Option.map_eq_some_iff] at hi hj hk
  obtain ⟨p, hp, hm⟩ := hi
  obtain ⟨q, hq, hmq⟩ := hj
  obtain ⟨t, ht, hmt⟩ := hk
  have e1 := intr_step (wbody := wbody) (rbody := rbody) (sem_writing h hp hm) hq hmq
  have ht' : (({ s with sem := ⟨0, 0⟩ } : State M L).upd j ⟨.fresh, q.loc, q.adj.set .W (q.adj.get .W + 1)⟩).procs[k]? = some t := by
    simp only [State.upd]
    rw [List.getElem?_set_ne hjk]
    exact ht
  have hp' : (({ s with sem := ⟨0, 0⟩ } : State M L).upd j ⟨.fresh, q.loc, q.adj.set .W (q.adj.get .W + 1)⟩).procs[i]? = some p := by
    simp only [State.upd]
    rw [List.getElem?_set_ne (fun c => hij c.symm)]
    exact hp
  have hz : (({ s with sem := ⟨0, 0⟩ } : State M L).upd j ⟨.fresh, q.loc, q.adj.set .W (q.adj.get .W + 1)⟩).sem = ⟨0, 0⟩ := rfl
  simp only [xexec, e1]
  generalize (({ s with sem := ⟨0, 0⟩ } : State M L).upd j ⟨.fresh, q.loc, q.adj.set .W (q.adj.get .W + 1)⟩) = s1 at *
  have e2 : xstep wbody rbody s1 (.base (.lockW k l)) = some ({ s1 with sem := ⟨0, 1⟩ }.upd k ⟨.writing, l, (t.adj.set .R (t.adj.get .R - 0)).set .W (t.adj.w - 0) |>.set .W (t.adj.w - 0 - 1)⟩) := by
    simp only [xstep, step, ht', hmt, if_true, State.doSem, hz]
    rfl
  simp only [e2]
  have hkl : k < s1.procs.length := by
    rcases Nat.lt_or_ge k s1.procs.length with c | c
    · exact c
    · rw [List.getElem?_eq_none c] at ht'; cases ht'
  refine ⟨_, rfl, ?_, ?_⟩
  · simp only [State.upd]
    rw [List.getElem?_set_ne (fun c => hik c.symm), hp', Option.map_some, hm]
  · simp only [State.upd]
    rw [List.getElem?_set_self hkl]
    rfl

/-- **C116 is false, 2.** After such a signal the writer cannot leave its section: its unlock waits. -/
theorem C116_refuted_unlock {wbody : M → L → M × L} {rbody : M → L → L} {s : State M L} (h : Reach wbody rbody s) (i j : Nat) (hi : s.mode i = some .writing) (hj : s.mode j = some .out) :
    ∃ s', xexec wbody rbody s [.intrConnect j] = some s' ∧ s'.mode i = some .writing ∧ xstep wbody rbody s' (.base (.unlock i)) = none := by
  have hij : i ≠ j := by intro c; subst c; rw [hi] at hj; cases hj
  unfold State.mode at hi hj ⊢
  rw [Option.map_eq_some_iff] at hi hj
  obtain ⟨p, hp, hm⟩ := hi
  obtain ⟨q, hq, hmq⟩ := hj
  have e1 := intr_step (wbody := wbody) (rbody := rbody) (sem_writing h hp hm) hq hmq
  have hp' : (({ s with sem := ⟨0, 0⟩ } : State M L).upd j ⟨.fresh, q.loc, q.adj.set .W (q.adj.get .W + 1)⟩).procs[i]? = some p := by
    simp only [State.upd]
    rw [List.getElem?_set_ne (fun c => hij c.symm)]
    exact hp
  have hz : (({ s with sem := ⟨0, 0⟩ } : State M L).upd j ⟨.fresh, q.loc, q.adj.set .W (q.adj.get .W + 1)⟩).sem = ⟨0, 0⟩ := rfl
  simp only [xexec, e1]
  refine ⟨_, rfl, by rw [hp', Option.map_some, hm], ?_⟩
  generalize (({ s with sem := ⟨0, 0⟩ } : State M L).upd j ⟨.fresh, q.loc, q.adj.set .W (q.adj.get .W + 1)⟩) = s1 at *
  simp only [xstep, step, hp', hm, if_true, State.doSem, hz]
  rfl

/-- A state in which a writer works, one process connects and another one is connected. -/
example : Reach wb rb { sx with sem := ⟨0, 1⟩, procs := [⟨.writing, none, ⟨0, -1⟩⟩, ⟨.out, none, ⟨0, 0⟩⟩, ⟨.out, none, ⟨0, 0⟩⟩] } :=
  ⟨sx, [.get 2, .lockW 0 none], sx_start, rfl⟩

/-- Nobody is in a section or has an adjustment, but the semaphore of the writers is not 0.  What the semaphores of coda/shm_hash_map.tcc:379-412 are like. -/
structure Jammed (s : State M L) : Prop where
  exist : s.exist = true
  w : 0 < s.sem.w
  procs : ∀ p ∈ s.procs, (p.mode = .fresh ∨ p.mode = .out ∨ p.mode = .dead) ∧ p.adj = ⟨0, 0⟩

theorem jam_upd {s : State M L} (J : Jammed s) {i : Nat} {p : Proc L} (hp : s.procs[i]? = some p) {m : Mode} (hm : m = .fresh ∨ m = .out ∨ m = .dead) : Jammed (s.upd i { p with mode := m }) := by
  refine ⟨J.exist, J.w, ?_⟩
  intro q hq
  rcases mem_set hq with h | rfl
  · exact J.procs q h
  · exact ⟨hm, (J.procs p (List.mem_of_getElem? hp)).2⟩

theorem jam_lock {s : State M L} (J : Jammed s) (i : Nat) (p : Proc L) (m : Mode) (l : L) : s.doSem i p lock_read_rw m l = none ∧ s.doSem i p lock_write_rw m l = none := by
  have hw := J.w
  have w0 : s.sem.w ≠ 0 := by omega
  constructor
  · simp [State.doSem, semop, lock_read_rw, semop1, Vals.get, w0]
  · by_cases hr : s.sem.r = 0
    · simp [State.doSem, semop, lock_write_rw, semop1, Vals.get, Vals.set, w0, hr]
    · simp [State.doSem, semop, lock_write_rw, semop1, Vals.get, hr]

theorem jam_step {wbody : M → L → M × L} {rbody : M → L → L} {s s' : State M L} {a : Label L} (J : Jammed s) (h : step wbody rbody s a = some s') : Jammed s' := by
  have md : ∀ {i : Nat} {p : Proc L}, s.procs[i]? = some p → p.mode = .fresh ∨ p.mode = .out ∨ p.mode = .dead := fun hp => (J.procs _ (List.mem_of_getElem? hp)).1
  cases a with
  | get i =>
    simp only [step] at h
    split at h
    · split at h
      · cases h; exact jam_upd J ‹_› (Or.inr (Or.inl rfl))
      · cases h
    · cases h
  | getMissing i =>
    simp only [step] at h
    split at h
    · split at h
      · rename_i c; rw [J.exist] at c; cases c.2
      · cases h
    · cases h
  | create i =>
    simp only [step] at h
    split at h
    · rename_i p hp
      split at h
      · rename_i c; have := md hp; rw [c] at this; simp at this
      · cases h
    · cases h
  | setR i =>
    simp only [step] at h
    split at h
    · rename_i p hp
      split at h
      · rename_i c; have := md hp; rw [c] at this; simp at this
      · cases h
    · cases h
  | setW i =>
    simp only [step] at h
    split at h
    · rename_i p hp
      split at h
      · rename_i c; have := md hp; rw [c] at this; simp at this
      · cases h
    · cases h
  | lockR i l =>
    simp only [step] at h
    split at h
    · split at h
      · rw [(jam_lock J _ _ _ _).1] at h; cases h
      · cases h
    · cases h
  | lockW i l =>
    simp only [step] at h
    split at h
    · split at h
      · rw [(jam_lock J _ _ _ _).2] at h; cases h
      · cases h
    · cases h
  | body i =>
    simp only [step] at h
    split at h
    · rename_i p hp
      split at h
      · rename_i c; have := md hp; rw [c] at this; simp at this
      · split at h
        · rename_i c; have := md hp; rw [c] at this; simp at this
        · cases h
    · cases h
  | unlock i =>
    simp only [step] at h
    split at h
    · rename_i p hp
      split at h
      · rename_i c; have := md hp; rw [c] at this; simp at this
      · split at h
        · rename_i c; have := md hp; rw [c] at this; simp at this
        · cases h
    · cases h
  | kill i =>
    simp only [step] at h
    split at h
    · rename_i p hp
      split at h
      · cases h
      · cases h
        have ha := (J.procs p (List.mem_of_getElem? hp)).2
        have hw := J.w
        refine ⟨J.exist, ?_, ?_⟩
        · simp only [State.upd, undo, ha, undo1]
          split <;> omega
        · intro q hq
          rcases mem_set hq with c | rfl
          · exact J.procs q c
          · exact ⟨Or.inr (Or.inr rfl), rfl⟩
    · cases h
  | spawn i =>
    simp only [step] at h
    split at h
    · split at h
      · cases h; exact jam_upd J ‹_› (Or.inl rfl)
      · cases h
    · cases h

/-- From a jammed state nobody ever enters a section. -/
theorem jam_exec {wbody : M → L → M × L} {rbody : M → L → L} : ∀ {as : List (XLabel L)} {s s' : State M L}, Jammed s → Calm as → xexec wbody rbody s as = some s' → Jammed s' := by
  intro as s s' J hc e
  obtain ⟨bs, hb⟩ := calm_exec hc e
  clear e hc
  induction bs generalizing s with
  | nil => simp only [exec] at hb; cases hb; exact J
  | cons b bs ih =>
    simp only [exec] at hb
    cases h : step wbody rbody s b with
    | none => rw [h] at hb; cases hb
    | some s1 => rw [h] at hb; exact ih (jam_step J h) hb

/-- **C116 is false, 3.** A writer (0) is killed after a signal has interrupted the connect of another process (1), which then ends: from then on nobody can use the map any more, whatever processes connect
or end. -/
theorem C116_refuted_forever : ∃ s, xexec wb rb sx [.base (.lockW 0 none), .intrConnect 1, .base (.kill 0), .base (.kill 1), .base (.get 2)] = some s ∧ s.mode 2 = some .out ∧
    ∀ (as : List (XLabel (Option Nat))) s', Calm as → xexec wb rb s as = some s' → ∀ i, s'.mode i ≠ some .writing ∧ s'.mode i ≠ some .reading := by
  refine ⟨⟨true, ⟨0, 1⟩, 0, [⟨.dead, none, ⟨0, 0⟩⟩, ⟨.dead, none, ⟨0, 0⟩⟩, ⟨.out, none, ⟨0, 0⟩⟩]⟩, rfl, rfl, ?_⟩
  intro as s' hc e i
  have J := jam_exec (s := ⟨true, ⟨0, 1⟩, 0, [⟨.dead, none, ⟨0, 0⟩⟩, ⟨.dead, none, ⟨0, 0⟩⟩, ⟨.out, none, ⟨0, 0⟩⟩]⟩) ⟨rfl, by decide, by
    intro p hp
    simp only [List.mem_cons, List.not_mem_nil, or_false] at hp
    rcases hp with rfl | rfl | rfl <;> simp⟩ hc e
  unfold State.mode
  cases hq : s'.procs[i]? with
  | none => simp
  | some q =>
    have := (J.procs q (List.mem_of_getElem? hq)).1
    rcases this with c | c | c <;> simp [c]

end Verif.RwLock
