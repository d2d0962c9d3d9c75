import Verif.ShmQueue.Trace

set_option linter.unusedSimpArgs false
set_option linter.unusedVariables false

namespace Verif.ShmQueue

open RwLock (Vals SemBuf semop semop1 undo undo1 SEMVMX)

variable {size bs : Nat}

theorem exec_append (s : State) (xs ys : List Label) : exec size bs s (xs ++ ys) = (exec size bs s xs).bind (fun t => exec size bs t ys) := by
  induction xs generalizing s with
  | nil => rfl
  | cons a as ih =>
    simp only [List.cons_append, exec]
    cases step size bs s a with
    | none => rfl
    | some t => exact ih t

/-- Process `i`, running alone, gets from `s` to `s'` and is idle there. -/
structure Fin (size bs : Nat) (s s' : State) (i : Nat) (da dr : List (List UInt8)) (w : Int) (lost : Nat) : Prop where
  run : ∃ n, exec size bs s (List.replicate n (.adv i)) = some s'
  procs : ∃ q : Proc, q.mode = .idle ∧ s'.procs = s.procs.set i q ∧ q.adj = ⟨0, 0⟩
  acc : s'.acc = s.acc ++ da
  rcv : s'.rcv = s.rcv ++ dr
  w : s'.sem.w = w
  lost : s'.lost = lost
  inv : Inv size bs s'

theorem Fin.step {s t s' : State} {i : Nat} {p1 : Proc} {a1 r1 da dr : List (List UInt8)} {w : Int} {lost : Nat}
    (hst : step size bs s (.adv i) = some t) (hp : t.procs = s.procs.set i p1) (ha : t.acc = s.acc ++ a1) (hr : t.rcv = s.rcv ++ r1)
    (h : Fin size bs t s' i da dr w lost) : Fin size bs s s' i (a1 ++ da) (r1 ++ dr) w lost := by
  obtain ⟨n, hn⟩ := h.run
  obtain ⟨q, hq, hqs, hqa⟩ := h.procs
  refine ⟨⟨n + 1, ?_⟩, ⟨q, hq, ?_, hqa⟩, ?_, ?_, h.w, h.lost, h.inv⟩
  · rw [List.replicate_succ]
    simp only [exec, hst]
    exact hn
  · rw [hqs, hp, List.set_set]
  · rw [h.acc, ha, List.append_assoc]
  · rw [h.rcv, hr, List.append_assoc]

def bumpW (w : Int) : Int := if 0 ≤ w + 1 ∧ w + 1 ≤ SEMVMX then w + 1 else w
def bumpL (w : Int) (lost : Nat) : Nat := if 0 ≤ w + 1 ∧ w + 1 ≤ SEMVMX then lost else lost + 1

theorem adv_step {s : State} {i : Nat} {p : Proc} (hp : s.procs[i]? = some p) : step size bs s (.adv i) = adv size bs s i p := by
  simp only [step, hp]

theorem inv_adv1 {s s' : State} {i : Nat} (h1 : 1 ≤ size) (hz : size < 2 ^ 32) (hs : size * bs < 2 ^ 32) (h : Inv size bs s)
    (he : step size bs s (.adv i) = some s') : Inv size bs s' := inv_step (l := .adv i) h1 hz hs h trivial he

theorem run1 {s s' : State} {i : Nat} (h : step size bs s (.adv i) = some s') : exec size bs s (List.replicate 1 (.adv i)) = some s' := by
  simp only [List.replicate_succ, List.replicate_zero, exec, h]

set_option linter.unusedSectionVars false

section
variable (h1 : 1 ≤ size) (hz : size < 2 ^ 32) (hs : size * bs < 2 ^ 32)
include h1 hz hs

theorem fin_f6 {s : State} {i : Nat} {p : Proc} (h : Inv size bs s) (hp : s.procs[i]? = some p) (hm : p.mode = .f6) :
    ∃ s', Fin size bs s s' i [] [] s.sem.w s.lost := by
  obtain ⟨hr, _, _⟩ := held h hp (by rw [hm]; rfl)
  have hadj := h.adj p (List.mem_of_getElem? hp)
  rw [hm] at hadj
  simp only [Mode.inCS, if_true] at hadj
  have hst : step size bs s (.adv i) =
      some ({ s with sem := ⟨1, s.sem.w⟩ }.upd i ⟨.idle, List.replicate bs 0, ⟨0, 0⟩⟩) := by
    rw [adv_step hp]
    simp only [adv, hm, State.doSem, hadj, sem_unlock hr]
    rfl
  exact ⟨_, ⟨1, run1 hst⟩, ⟨_, rfl, rfl, rfl⟩, (List.append_nil _).symm, (List.append_nil _).symm, rfl, rfl, inv_adv1 h1 hz hs h hst⟩

theorem fin_u6 {s : State} {i : Nat} {p : Proc} (h : Inv size bs s) (hp : s.procs[i]? = some p) (hm : p.mode = .u6) :
    ∃ s', Fin size bs s s' i [] [] s.sem.w s.lost := by
  obtain ⟨hr, _, _⟩ := held h hp (by rw [hm]; rfl)
  have hadj := h.adj p (List.mem_of_getElem? hp)
  rw [hm] at hadj
  simp only [Mode.inCS, if_true] at hadj
  have hst : step size bs s (.adv i) = some ({ s with sem := ⟨1, s.sem.w⟩ }.upd i ⟨.idle, p.cb, ⟨0, 0⟩⟩) := by
    rw [adv_step hp]
    simp only [adv, hm, State.doSem, hadj, sem_unlock hr]
    rfl
  exact ⟨_, ⟨1, run1 hst⟩, ⟨_, rfl, rfl, rfl⟩, (List.append_nil _).symm, (List.append_nil _).symm, rfl, rfl, inv_adv1 h1 hz hs h hst⟩

theorem fin_f5 {s : State} {i : Nat} {p : Proc} (h : Inv size bs s) (hp : s.procs[i]? = some p) (hm : p.mode = .f5) :
    ∃ s', Fin size bs s s' i [] [] (bumpW s.sem.w) (bumpL s.sem.w s.lost) := by
  by_cases hc : 0 ≤ s.sem.w + 1 ∧ s.sem.w + 1 ≤ SEMVMX
  · have hst : step size bs s (.adv i) = some ({ s with sem := ⟨s.sem.r, s.sem.w + 1⟩ }.upd i { p with mode := .f6 }) := by
      rw [adv_step hp]
      simp only [adv, hm, sem_up_ok hc]
    obtain ⟨s', hf⟩ := fin_f6 h1 hz hs (inv_adv1 h1 hz hs h hst) (hand_set hp rfl) rfl
    have := Fin.step (a1 := []) (r1 := []) hst rfl (by simp [State.upd]) (by simp [State.upd]) hf
    refine ⟨s', ?_⟩
    unfold bumpW bumpL
    rw [if_pos hc, if_pos hc]
    exact this
  · have hst : step size bs s (.adv i) = some ({ s with lost := s.lost + 1 }.upd i { p with mode := .f6 }) := by
      rw [adv_step hp]
      simp only [adv, hm, sem_up_no hc]
    obtain ⟨s', hf⟩ := fin_f6 h1 hz hs (inv_adv1 h1 hz hs h hst) (hand_set hp rfl) rfl
    have := Fin.step (a1 := []) (r1 := []) hst rfl (by simp [State.upd]) (by simp [State.upd]) hf
    refine ⟨s', ?_⟩
    unfold bumpW bumpL
    rw [if_neg hc, if_neg hc]
    exact this

theorem fin_f4 {s : State} {i : Nat} {p : Proc} (h : Inv size bs s) (hp : s.procs[i]? = some p) (hm : p.mode = .f4) :
    ∃ s', Fin size bs s s' i [] [] (bumpW s.sem.w) (bumpL s.sem.w s.lost) := by
  have hst : step size bs s (.adv i) = some ({ s with end_ := s.end_ % size }.upd i { p with mode := .f5 }) := by
    rw [adv_step hp]
    simp only [adv, hm]
    rw [if_neg (by omega)]
  obtain ⟨s', hf⟩ := fin_f5 h1 hz hs (inv_adv1 h1 hz hs h hst) (hand_set hp rfl) rfl
  exact ⟨s', Fin.step (a1 := []) (r1 := []) hst rfl (by simp [State.upd]) (by simp [State.upd]) hf⟩

theorem fin_f2 (n : Nat) : ∀ {s : State} {i : Nat} {p : Proc} {k : Nat} (h : Inv size bs s) (hp : s.procs[i]? = some p) (hm : p.mode = .f2 k)
    (hn : n = bs - k), ∃ s', Fin size bs s s' i [p.cb] [] (bumpW s.sem.w) (bumpL s.sem.w s.lost) := by
  induction n with
  | zero =>
    intro s i p k h hp hm hn
    have hst : step size bs s (.adv i) =
        some ({ s with end_ := (s.end_ + 1) % 2 ^ 32, acc := s.acc ++ [p.cb] }.upd i { p with mode := .f4 }) := by
      rw [adv_step hp]
      simp only [adv, hm]
      rw [if_neg (by omega)]
    obtain ⟨s', hf⟩ := fin_f4 h1 hz hs (inv_adv1 h1 hz hs h hst) (hand_set hp rfl) rfl
    exact ⟨s', Fin.step (a1 := [p.cb]) (r1 := []) hst rfl (by simp [State.upd]) (by simp [State.upd]) hf⟩
  | succ n ih =>
    intro s i p k h hp hm hn
    have hst : step size bs s (.adv i) =
        some ((s.store size bs (addr bs s.end_ k) (p.cb.getD k 0)).upd i { p with mode := .f2 (k + 1) }) := by
      rw [adv_step hp]
      simp only [adv, hm]
      rw [if_pos (by omega)]
    have hf0 := store_fields (size := size) (bs := bs) (s := s) (a := addr bs s.end_ k) (v := p.cb.getD k 0)
    obtain ⟨s', hf⟩ := ih (inv_adv1 h1 hz hs h hst) (hand_set hp store_upd_procs) rfl (by omega)
    have := Fin.step (a1 := []) (r1 := []) hst store_upd_procs (hf0.2.1.trans (List.append_nil _).symm) (hf0.2.2.1.trans (List.append_nil _).symm) hf
    simp only [State.upd, hf0.2.2.2.1, hf0.2.2.2.2] at this
    exact ⟨s', this⟩

theorem fin_f1 {s : State} {i : Nat} {p : Proc} (h : Inv size bs s) (hp : s.procs[i]? = some p) (hm : p.mode = .f1) :
    (s.acc.length - s.rcv.length < size - 1 → ∃ s', Fin size bs s s' i [p.cb] [] (bumpW s.sem.w) (bumpL s.sem.w s.lost)) ∧
    (¬ s.acc.length - s.rcv.length < size - 1 → ∃ s', Fin size bs s s' i [] [] s.sem.w s.lost) := by
  obtain ⟨hr, ho, hd⟩ := held h hp (by rw [hm]; rfl)
  rw [hm] at hd
  have hd' : Stb size bs s (s.rcv.length % size) (s.acc.length % size) s.rcv.length := hd
  have hf := full_iff h1 hz hd'.le hd'.room
  have hroom := hd'.room
  constructor
  · intro hlt
    have hst : step size bs s (.adv i) = some (s.upd i { p with mode := .f2 0 }) := by
      rw [adv_step hp]
      simp only [adv, hm]
      rw [if_neg (by omega), hd'.end_, hd'.start, if_pos (fun he => by have := hf.mp he; omega)]
    obtain ⟨s', hf'⟩ := fin_f2 h1 hz hs bs (inv_adv1 h1 hz hs h hst) (hand_set hp rfl) rfl rfl
    exact ⟨s', Fin.step (a1 := []) (r1 := []) hst rfl (by simp [State.upd]) (by simp [State.upd]) hf'⟩
  · intro hge
    have hst : step size bs s (.adv i) = some (s.upd i { p with mode := .f6 }) := by
      rw [adv_step hp]
      simp only [adv, hm]
      rw [if_neg (by omega), hd'.end_, hd'.start, if_neg (fun hne => hne (hf.mpr (by omega)))]
    obtain ⟨s', hf'⟩ := fin_f6 h1 hz hs (inv_adv1 h1 hz hs h hst) (hand_set hp rfl) rfl
    exact ⟨s', Fin.step (a1 := []) (r1 := []) hst rfl (by simp [State.upd]) (by simp [State.upd]) hf'⟩

theorem fin_u5 {s : State} {i : Nat} {p : Proc} (h : Inv size bs s) (hp : s.procs[i]? = some p) (hm : p.mode = .u5) :
    ∃ s', Fin size bs s s' i [] [] s.sem.w s.lost := by
  have hst : step size bs s (.adv i) = some ({ s with start := s.start % size }.upd i { p with mode := .u6 }) := by
    rw [adv_step hp]
    simp only [adv, hm]
    rw [if_neg (by omega)]
  obtain ⟨s', hf⟩ := fin_u6 h1 hz hs (inv_adv1 h1 hz hs h hst) (hand_set hp rfl) rfl
  exact ⟨s', Fin.step (a1 := []) (r1 := []) hst rfl (by simp [State.upd]) (by simp [State.upd]) hf⟩

theorem fin_u3 (n : Nat) : ∀ {s : State} {i : Nat} {p : Proc} {k : Nat} (h : Inv size bs s) (hp : s.procs[i]? = some p) (hm : p.mode = .u3 k)
    (hn : n = bs - k), ∃ s', Fin size bs s s' i [] [s.acc.getD s.rcv.length []] s.sem.w s.lost := by
  induction n with
  | zero =>
    intro s i p k h hp hm hn
    obtain ⟨_, _, hd⟩ := held h hp (by rw [hm]; rfl)
    rw [hm] at hd
    have hst : step size bs s (.adv i) =
        some ({ s with start := (s.start + 1) % 2 ^ 32, rcv := s.rcv ++ [p.cb] }.upd i { p with mode := .u5 }) := by
      rw [adv_step hp]
      simp only [adv, hm]
      rw [if_neg (by omega)]
    obtain ⟨s', hf⟩ := fin_u5 h1 hz hs (inv_adv1 h1 hz hs h hst) (hand_set hp rfl) rfl
    refine ⟨s', ?_⟩
    rw [← hd.2.2.2.1]
    exact Fin.step (a1 := []) (r1 := [p.cb]) hst rfl (by simp [State.upd]) (by simp [State.upd]) hf
  | succ n ih =>
    intro s i p k h hp hm hn
    have hst : step size bs s (.adv i) =
        some ((s.store size bs (addr bs s.start k) 0).upd i { p with mode := .u3 (k + 1) }) := by
      rw [adv_step hp]
      simp only [adv, hm]
      rw [if_pos (by omega)]
    have hf0 := store_fields (size := size) (bs := bs) (s := s) (a := addr bs s.start k) (v := 0)
    obtain ⟨s', hf⟩ := ih (inv_adv1 h1 hz hs h hst) (hand_set hp store_upd_procs) rfl (by omega)
    have := Fin.step (a1 := []) (r1 := []) hst store_upd_procs (hf0.2.1.trans (List.append_nil _).symm) (hf0.2.2.1.trans (List.append_nil _).symm) hf
    simp only [State.upd, hf0.2.1, hf0.2.2.1, hf0.2.2.2.1, hf0.2.2.2.2] at this
    exact ⟨s', this⟩

theorem fin_u2 (n : Nat) : ∀ {s : State} {i : Nat} {p : Proc} {k : Nat} (h : Inv size bs s) (hp : s.procs[i]? = some p) (hm : p.mode = .u2 k)
    (hn : n = bs - k), ∃ s', Fin size bs s s' i [] [s.acc.getD s.rcv.length []] s.sem.w s.lost := by
  induction n with
  | zero =>
    intro s i p k h hp hm hn
    have hst : step size bs s (.adv i) = some (s.upd i { p with mode := .u3 0 }) := by
      rw [adv_step hp]
      simp only [adv, hm]
      rw [if_neg (by omega)]
    obtain ⟨s', hf⟩ := fin_u3 h1 hz hs bs (inv_adv1 h1 hz hs h hst) (hand_set hp rfl) rfl rfl
    exact ⟨s', Fin.step (a1 := []) (r1 := []) hst rfl (by simp [State.upd]) (by simp [State.upd]) hf⟩
  | succ n ih =>
    intro s i p k h hp hm hn
    obtain ⟨_, _, hd⟩ := held h hp (by rw [hm]; rfl)
    rw [hm] at hd
    obtain ⟨ea, el⟩ := addr_eq (k := k) (Nat.mod_lt s.rcv.length h1) (by omega : k < bs) hs
    have hst : step size bs s (.adv i) =
        some (s.upd i { p with mode := .u2 (k + 1), cb := p.cb.set k (s.mem (addr bs s.start k)) }) := by
      rw [adv_step hp]
      simp only [adv, hm]
      rw [if_pos (by omega), if_pos]
      rw [hd.1.start, ea]; exact el
    obtain ⟨s', hf⟩ := ih (inv_adv1 h1 hz hs h hst) (hand_set hp rfl) rfl (by omega)
    exact ⟨s', Fin.step (a1 := []) (r1 := []) hst rfl (by simp [State.upd]) (by simp [State.upd]) hf⟩

/-- Whoever holds the lock can finish alone. -/
theorem fin_holder {s : State} {i : Nat} {p : Proc} (h : Inv size bs s) (hp : s.procs[i]? = some p) (hc : p.mode.inCS = true) :
    ∃ s' da dr w lost, Fin size bs s s' i da dr w lost := by
  cases hm : p.mode with
  | f1 =>
    by_cases hlt : s.acc.length - s.rcv.length < size - 1
    · obtain ⟨s', hf⟩ := (fin_f1 h1 hz hs h hp hm).1 hlt; exact ⟨s', _, _, _, _, hf⟩
    · obtain ⟨s', hf⟩ := (fin_f1 h1 hz hs h hp hm).2 hlt; exact ⟨s', _, _, _, _, hf⟩
  | f2 k => obtain ⟨s', hf⟩ := fin_f2 h1 hz hs _ h hp hm rfl; exact ⟨s', _, _, _, _, hf⟩
  | f4 => obtain ⟨s', hf⟩ := fin_f4 h1 hz hs h hp hm; exact ⟨s', _, _, _, _, hf⟩
  | f5 => obtain ⟨s', hf⟩ := fin_f5 h1 hz hs h hp hm; exact ⟨s', _, _, _, _, hf⟩
  | f6 => obtain ⟨s', hf⟩ := fin_f6 h1 hz hs h hp hm; exact ⟨s', _, _, _, _, hf⟩
  | u2 k => obtain ⟨s', hf⟩ := fin_u2 h1 hz hs _ h hp hm rfl; exact ⟨s', _, _, _, _, hf⟩
  | u3 k => obtain ⟨s', hf⟩ := fin_u3 h1 hz hs _ h hp hm rfl; exact ⟨s', _, _, _, _, hf⟩
  | u5 => obtain ⟨s', hf⟩ := fin_u5 h1 hz hs h hp hm; exact ⟨s', _, _, _, _, hf⟩
  | u6 => obtain ⟨s', hf⟩ := fin_u6 h1 hz hs h hp hm; exact ⟨s', _, _, _, _, hf⟩
  | _ => rw [hm] at hc; simp [Mode.inCS] at hc

theorem lock_step {s : State} {i : Nat} {p : Proc} (m : Mode) (h : Inv size bs s) (hp : s.procs[i]? = some p) (ho : ∀ q ∈ s.procs, q.mode.inCS = false) :
    semop s.sem p.adj lock_queue = some (⟨0, s.sem.w⟩, ⟨1, 0⟩) := by
  have hr : s.sem.r = 1 := by
    rcases h.lock with ⟨hr, _⟩ | ⟨_, j, q, hq, hqc, _⟩
    · exact hr
    · rw [ho q (List.mem_of_getElem? hq)] at hqc; simp at hqc
  have hadj := h.adj p (List.mem_of_getElem? hp)
  rw [ho p (List.mem_of_getElem? hp)] at hadj
  simp only [Bool.false_eq_true, if_false] at hadj
  have hsm : semop1 1 (-1) = some 0 := rfl
  simp only [lock_queue, semop, Vals.get, hr, hsm, Vals.set, if_true, hadj]
  rfl

/-- A flush running alone while nobody is inside. -/
theorem solo_flush {s : State} {i : Nat} {p : Proc} {b : List UInt8} (h : Inv size bs s) (hp : s.procs[i]? = some p) (hi : p.mode = .idle)
    (ho : ∀ q ∈ s.procs, q.mode.inCS = false) (hb : b.length = bs) :
    ∃ t s', step size bs s (.flush i b) = some t ∧
      (if s.acc.length - s.rcv.length < size - 1 then Fin size bs t s' i [b] [] (bumpW s.sem.w) (bumpL s.sem.w s.lost)
       else Fin size bs t s' i [] [] s.sem.w s.lost) ∧ t.acc = s.acc ∧ t.rcv = s.rcv ∧
      (∃ q : Proc, t.procs = s.procs.set i q) := by
  have hst : step size bs s (.flush i b) = some (s.upd i { p with mode := .f0, cb := b }) := by
    simp only [step, hp]
    rw [if_pos ⟨hi, hb⟩]
  have hI := inv_step (l := .flush i b) h1 hz hs h trivial hst
  have hp2 : (s.upd i { p with mode := .f0, cb := b }).procs[i]? = some { p with mode := .f0, cb := b } := hand_set hp rfl
  have ho2 : ∀ q ∈ (s.upd i { p with mode := .f0, cb := b }).procs, q.mode.inCS = false := by
    intro q hq
    rcases mem_set hq with hq | rfl
    · exact ho q hq
    · rfl
  have hst2 : step size bs (s.upd i { p with mode := .f0, cb := b }) (.adv i) =
      some ({ s.upd i { p with mode := .f0, cb := b } with sem := ⟨0, s.sem.w⟩ }.upd i ⟨.f1, b, ⟨1, 0⟩⟩) := by
    rw [adv_step hp2]
    have hl := lock_step h1 hz hs .f1 hI hp2 ho2
    simp only [adv, State.doSem]
    rw [hl]
    rfl
  have hI3 := inv_adv1 h1 hz hs hI hst2
  have hf := fin_f1 h1 hz hs hI3 (hand_set hp2 rfl) rfl
  by_cases hlt : s.acc.length - s.rcv.length < size - 1
  · obtain ⟨s', hf'⟩ := hf.1 hlt
    refine ⟨_, s', hst, ?_, rfl, rfl, ⟨_, rfl⟩⟩
    rw [if_pos hlt]
    exact Fin.step (a1 := []) (r1 := []) hst2 rfl (by simp [State.upd]) (by simp [State.upd]) hf'
  · obtain ⟨s', hf'⟩ := hf.2 hlt
    refine ⟨_, s', hst, ?_, rfl, rfl, ⟨_, rfl⟩⟩
    rw [if_neg hlt]
    exact Fin.step (a1 := []) (r1 := []) hst2 rfl (by simp [State.upd]) (by simp [State.upd]) hf'

/-- An unflush running alone while nobody is inside and the count is positive. -/
theorem solo_unflush {s : State} {i : Nat} {p : Proc} (h : Inv size bs s) (hp : s.procs[i]? = some p) (hi : p.mode = .idle)
    (ho : ∀ q ∈ s.procs, q.mode.inCS = false) (hw : 1 ≤ s.sem.w) (hw2 : s.sem.w ≤ SEMVMX) :
    ∃ t s', step size bs s (.unflush i) = some t ∧ Fin size bs t s' i [] [s.acc.getD s.rcv.length []] (s.sem.w - 1) s.lost ∧
      t.acc = s.acc ∧ t.rcv = s.rcv ∧ (∃ q : Proc, t.procs = s.procs.set i q) := by
  have hst : step size bs s (.unflush i) = some (s.upd i { p with mode := .u0 }) := by
    simp only [step, hp]
    rw [if_pos hi]
  have hI := inv_step (l := .unflush i) h1 hz hs h trivial hst
  have hp2 : (s.upd i { p with mode := .u0 }).procs[i]? = some { p with mode := .u0 } := hand_set hp rfl
  have hst2 : step size bs (s.upd i { p with mode := .u0 }) (.adv i) =
      some ({ s.upd i { p with mode := .u0 } with sem := ⟨s.sem.r, s.sem.w + -1⟩ }.upd i { p with mode := .u1 }) := by
    rw [adv_step hp2]
    have hsd : semop s.sem p.adj count_down = some (⟨s.sem.r, s.sem.w + -1⟩, p.adj) := by
      simp only [count_down, semop, Vals.get, RwLock.semop1_ok (v := s.sem.w) (op := -1) (by decide) ⟨by omega, by omega⟩, Vals.set, Bool.false_eq_true, if_false]
    simp only [adv, State.doSem]
    rw [show (s.upd i { p with mode := .u0 }).sem = s.sem from rfl, hsd]
  have hI3 := inv_adv1 h1 hz hs hI hst2
  have hp3 := hand_set (s := s.upd i { p with mode := .u0 }) (s' := { s.upd i { p with mode := .u0 } with sem := ⟨s.sem.r, s.sem.w + -1⟩ }.upd i { p with mode := .u1 }) hp2 rfl
  have ho3 : ∀ q ∈ ({ s.upd i { p with mode := .u0 } with sem := ⟨s.sem.r, s.sem.w + -1⟩ }.upd i { p with mode := .u1 }).procs, q.mode.inCS = false := by
    intro q hq
    rcases mem_set hq with hq | rfl
    · rcases mem_set hq with hq | rfl
      · exact ho q hq
      · rfl
    · rfl
  have hst3 : step size bs ({ s.upd i { p with mode := .u0 } with sem := ⟨s.sem.r, s.sem.w + -1⟩ }.upd i { p with mode := .u1 }) (.adv i) =
      some ({ { s.upd i { p with mode := .u0 } with sem := ⟨s.sem.r, s.sem.w + -1⟩ }.upd i { p with mode := .u1 } with sem := ⟨0, s.sem.w + -1⟩ }.upd i
        ⟨.u2 0, p.cb, ⟨1, 0⟩⟩) := by
    rw [adv_step hp3]
    have hl := lock_step h1 hz hs (.u2 0) hI3 hp3 ho3
    simp only [adv, State.doSem]
    rw [hl]
    rfl
  have hI4 := inv_adv1 h1 hz hs hI3 hst3
  obtain ⟨s', hf⟩ := fin_u2 h1 hz hs bs hI4 (hand_set hp3 rfl) rfl rfl
  refine ⟨_, s', hst, ?_, rfl, rfl, ⟨_, rfl⟩⟩
  have f2 := Fin.step (a1 := []) (r1 := []) hst3 rfl (by simp [State.upd]) (by simp [State.upd]) hf
  have f1 := Fin.step (a1 := []) (r1 := []) hst2 rfl (by simp [State.upd]) (by simp [State.upd]) f2
  exact f1

end

end Verif.ShmQueue
