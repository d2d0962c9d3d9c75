import Verif.MapWords.Lemmas
/-
  Property C162: concurrent calls on a hash map with values of any size are atomic.  The specification is that of C117, Verif/MapSys/Spec.lean.
-/
set_option linter.unusedVariables false

namespace Verif.MapWords

open Verif.ShmPool Verif.ShmMap Verif.MapSys Verif.MapTorn

variable {W : Type} {n N H : Nat}

/-- The semaphores exist and are free, the map is fresh, nobody is in a call; any number of processes, connected or not. -/
def Start (H : Nat) (s : SysW n W) : Prop := RwLock.Start s.rw ∧ Init H s.rw.mem ∧ ∀ i, s.pend i = .idle

theorem start_rel {ord : List (Fin n)} {s : SysW n W} (h : Start H s) : Rel N ord s.rw.mem s.rw ∧ RwLock.Inv s.rw ∧ MapSys.Start H (abs s.rw.mem s) := by
  have hm : ∀ (i : Nat) (p : RwLock.Proc (LocW n W)), s.rw.procs[i]? = some p → p.mode = .fresh ∨ p.mode = .out :=
    fun i p hp => (h.1.2.2 p (List.mem_of_getElem? hp)).1
  refine ⟨⟨?_, fun _ => rfl, ?_⟩, RwLock.inv_start h.1, ⟨⟨h.1.1, h.1.2.1, ?_⟩, h.2.1, h.2.2⟩⟩
  · intro i p hp hw
    rcases hm i p hp with h | h <;> rw [h] at hw <;> cases hw
  · intro i p hp hw
    rcases hm i p hp with h | h <;> rw [h] at hw <;> rcases hw with hw | hw <;> cases hw
  · intro p hp
    simp only [abs, absR, List.mem_map] at hp
    obtain ⟨q, hq, rfl⟩ := hp
    exact h.1.2.2 q hq

/-- **C162.** Values consist of any number of words, which are read and written one by one, in any order; the accesses of any number of processes
interleave in every way that the lock lets them.  Processes may be killed at any moment except where C117 excludes it and between two words of a
value that is being written.  What they see is a history of the atomic map, in which values are read and written as a whole.
Missing: kills inside of the copy of a value (`C162_refuted`; C161 says what is left then) and those of C117. -/
theorem C162_atomic_partial (hN : N < 2 ^ 31) (hH : 0 < H) {ord : List (Fin n)} (ho : ∀ j, j ∈ ord) (b : Val n W) (s s' : SysW n W) (h : Start H s)
    (xs : List (Act (Val n W))) (hk : SafeKillsW N H ord b s xs) (es : List (Event (Val n W))) (he : exec N H ord b s xs = some (s', es)) :
    MapSys.Spec.Atomic N MapSys.Spec.State.init es := by
  obtain ⟨R, hi, hs⟩ := start_rel (N := N) (ord := ord) h
  obtain ⟨am', ys, h1, h2, _, _⟩ := sim_execW ho xs R hi hk he
  exact C117_atomic_partial hN hH _ _ hs ys h2 es h1

/-- **C162, no access outside the segment.** -/
theorem C162_no_ub_partial (hN : N < 2 ^ 31) (hH : 0 < H) {ord : List (Fin n)} (ho : ∀ j, j ∈ ord) (b : Val n W) (s s' : SysW n W) (h : Start H s)
    (xs : List (Act (Val n W))) (hk : SafeKillsW N H ord b s xs) (es : List (Event (Val n W))) (he : exec N H ord b s xs = some (s', es))
    (i : Nat) (p : RwLock.Proc (LocW n W)) (hp : s'.rw.procs[i]? = some p) (hm : p.mode = .writing ∨ p.mode = .reading) : p.loc.l.pc ≠ .ub := by
  obtain ⟨R, hi, hs⟩ := start_rel (N := N) (ord := ord) h
  obtain ⟨am', ys, h1, h2, _, _⟩ := sim_execW ho xs R hi hk he
  exact C117_no_ub_partial hN hH _ _ hs ys h2 es h1 i (absP p) (by simp only [abs, absR_get, hp]; rfl) hm

/-! ## Examples: values of two words, two connected processes and one that is not. -/

/-- the pair of two words -/
def pr (a c : Nat) : Val 2 Nat := fun j => if j = 0 then a else c

def junk : Val 2 Nat := pr 99 99

def l0 : LocW 2 Nat := ⟨⟨.idle, [], .unit, 0, []⟩, 0, junk⟩

def s0 : SysW 2 Nat :=
  ⟨⟨true, ⟨0, 0⟩, { pool := ⟨0, ⟨NONE, fun _ => 77⟩⟩, key := fun _ => 5, val := fun _ => junk, next := fun _ => 13, hash := fun _ => NONE },
    [⟨.out, l0, ⟨0, 0⟩⟩, ⟨.out, l0, ⟨0, 0⟩⟩, ⟨.fresh, l0, ⟨0, 0⟩⟩]⟩, fun _ => .idle⟩

theorem s0_start (H : Nat) : Start H s0 := by
  refine ⟨⟨rfl, rfl, ?_⟩, ⟨rfl, rfl, fun _ _ => rfl⟩, fun _ => rfl⟩
  intro p hp
  simp only [s0, List.mem_cons, List.not_mem_nil, or_false] at hp
  rcases hp with rfl | rfl | rfl <;> simp

/-- A complete call of process `i`. -/
def whole (i : Nat) (c : Call (Val 2 Nat)) : List (Act (Val 2 Nat)) := [.call i c, .lock i] ++ List.replicate 24 (.body i) ++ [.unlock i, .ret i]

/-- Process 1 reads key 4 word by word while 0 reads it too and then waits to overwrite it; 0 is killed after it has written a new key (6) but not linked it. -/
def busy : List (Act (Val 2 Nat)) :=
  whole 0 (.op (.insert 4 (pr 4 40))) ++
  [.call 1 (.op (.read 4)), .lock 1] ++ List.replicate 4 (.body 1) ++ [.call 0 (.readSection [4, 6]), .lock 0] ++ List.replicate 5 (.body 0) ++ List.replicate 3 (.body 1) ++ [.unlock 1, .ret 1] ++
  List.replicate 12 (.body 0) ++ [.unlock 0, .ret 0] ++ whole 0 (.op (.insert 4 (pr 8 80))) ++ whole 1 (.op (.read 4)) ++
  [.call 0 (.op (.insert 6 (pr 6 60))), .lock 0] ++ List.replicate 8 (.body 0) ++ [.kill 0] ++ whole 1 (.op (.read 6))

/-- The values read, as pairs. -/
def seen : List (Event (Val 2 Nat)) → List (Nat × Option (Nat × Nat)) := fun es =>
  es.flatMap (fun e => match e with
    | .ret i rs => rs.filterMap (fun r => match r with
      | .val (some v) => some (i, some (v 0, v 1))
      | .val none => some (i, none)
      | _ => none)
    | _ => [])

example : (exec 3 2 [1, 0] junk s0 busy).map (fun r => seen r.2) = some [(1, some (4, 40)), (0, some (4, 40)), (0, none), (1, some (8, 80)), (1, none)] := by decide +kernel

/-- A checker for `SafeKillsW`. -/
def safeB (N H : Nat) (ord : List (Fin 2)) (b : Val 2 Nat) : SysW 2 Nat → List (Act (Val 2 Nat)) → Bool
  | _, [] => true
  | s, x :: xs =>
    (match x with
      | .kill i => (match s.rw.procs[i]? with
        | some p => (match p.loc.l.pc with
          | .frData _ _ => false
          | .clTop => false
          | .clHash i => decide (¬ i < H)
          | .inVal _ _ => p.loc.g == 0
          | .nVal _ _ _ => p.loc.g == 0
          | _ => true)
        | none => true)
      | _ => true) && (match step N H ord b s x with
      | some (s', _) => safeB N H ord b s' xs
      | none => true)

theorem safe_of {ord : List (Fin 2)} {b : Val 2 Nat} : ∀ {xs : List (Act (Val 2 Nat))} {s : SysW 2 Nat}, safeB N H ord b s xs = true → SafeKillsW N H ord b s xs := by
  intro xs
  induction xs with
  | nil => intro s _; trivial
  | cons x xs ih =>
    intro s h
    simp only [safeB, Bool.and_eq_true] at h
    refine ⟨?_, ?_⟩
    · cases x with
      | kill i =>
        intro p hp _
        have := h.1
        simp only [hp] at this
        refine ⟨?_, ?_⟩
        · intro hf
          cases hpc : p.loc.l.pc <;> rw [hpc] at this hf <;> simp_all [Pc.fragile]
        · intro hf
          cases hpc : p.loc.l.pc <;> rw [hpc] at this hf <;> simp_all [target]
      | _ => trivial
    · intro s' es hs
      have := h.2
      rw [hs] at this
      exact ih this

/-- The premises of `C162_atomic_partial` are met by `busy`, with a copy from the last word to the first. -/
example : SafeKillsW 3 2 [1, 0] junk s0 busy ∧ ∀ j : Fin 2, j ∈ [(1 : Fin 2), 0] := ⟨safe_of (by decide +kernel), by decide⟩

set_option maxRecDepth 100000 in
/-- **C162 is false if a process may be killed anywhere.** Process 0 is killed after the first word of a value that replaces (4, 40); process 1 reads (8, 40). -/
theorem C162_refuted : ∃ (xs : List (Act (Val 2 Nat))) (s' : SysW 2 Nat) (es : List (Event (Val 2 Nat))), exec 2 2 [0, 1] junk s0 xs = some (s', es) ∧
    ¬ MapSys.Spec.Atomic 2 MapSys.Spec.State.init es := by
  have hx : ∃ (s' : SysW 2 Nat) (u : Val 2 Nat), exec 2 2 [0, 1] junk s0 (whole 0 (.op (.insert 4 (pr 4 40))) ++ [.call 0 (.op (.insert 4 (pr 8 80))), .lock 0] ++ List.replicate 4 (.body 0) ++ [.kill 0] ++
      whole 1 (.op (.read 4))) =
      some (s', [.call 0 (.op (.insert 4 (pr 4 40))), .ret 0 [(.bool true)], .call 0 (.op (.insert 4 (pr 8 80))), .killed 0, .call 1 (.op (.read 4)), .ret 1 [.val (some u)]]) ∧
      u 0 = 8 ∧ u 1 = 40 := ⟨_, _, rfl, by decide +kernel, by decide +kernel⟩
  obtain ⟨s', u, hx, hu0, hu1⟩ := hx
  refine ⟨_, s', _, hx, ?_⟩
  intro h
  obtain ⟨_, h⟩ := C117_spec_sequential (fun _ => rfl) h
  obtain ⟨t, hp, hout, h⟩ := C117_spec_killed (fun _ => rfl) h
  have key : ShmMap.Spec.lookup t.map 4 = some (pr 4 40) ∨ ShmMap.Spec.lookup t.map 4 = some (pr 8 80) := by
    cases hp with
    | @pre pre post hops =>
      cases pre with
      | nil => left; rfl
      | cons o pre =>
        cases pre with
        | nil => simp only [MapSys.Spec.meaning, List.cons_append, List.nil_append, List.cons.injEq] at hops; rw [← hops.1]; right; rfl
        | cons _ _ => simp [MapSys.Spec.meaning] at hops
    | @mid pre o post l lk hops hl _ =>
      cases pre with
      | nil =>
        simp only [MapSys.Spec.meaning, List.nil_append, List.cons.injEq] at hops
        simp only
        rcases hl with rfl | rfl
        · left; rfl
        · rw [← hops.1]; right; rfl
      | cons _ pre => simp [MapSys.Spec.meaning] at hops
  obtain ⟨hr, _⟩ := C117_spec_sequential hout h
  simp only [MapSys.Spec.State.result, MapSys.Spec.meaning, MapSys.Spec.stepsL, ShmMap.Spec.stepL, ShmMap.Spec.step, MapSys.Spec.answer, List.headD_cons, List.cons.injEq, and_true, Ret.val.injEq] at hr
  rcases key with key | key <;> rw [key] at hr <;> injection hr with hr
  · have := congrFun hr 0; rw [hu0] at this; simp [pr] at this
  · have := congrFun hr 1; rw [hu1] at this; simp [pr] at this

end Verif.MapWords
