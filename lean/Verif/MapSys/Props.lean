import Verif.MapSys.Refine
import Verif.ShmMap.Props
/-
  Property C117: the shared hash map is atomic.
-/
set_option linter.unusedVariables false

namespace Verif.MapSys

open Verif.ShmPool Verif.ShmMap

variable {V : Type} {N H : Nat}

/-- The semaphores exist and are free, the map is fresh, nobody is in a call; any number of processes, connected or not. -/
def Start (H : Nat) (s : Sys V) : Prop := RwLock.Start s.rw ∧ Init H s.rw.mem ∧ ∀ i, s.pend i = .idle

/-- No process is killed between the two writes of `free_nodes.push` or inside `clear` (C52). -/
def SafeKills (N H : Nat) : Sys V → List (Act V) → Prop
  | _, [] => True
  | s, x :: xs => SafeKill H s x ∧ ∀ s' es, step N H s x = some (s', es) → SafeKills N H s' xs

theorem sim_start {s : Sys V} (h : Start H s) : Sim N H s Spec.State.init := by
  refine ⟨RwLock.inv_start h.1, ?_, fun _ => ⟨_, _, rep_init s.rw.mem h.2.1.1 h.2.1.2.1 h.2.1.2.2⟩⟩
  intro i
  rw [h.2.2 i]
  refine ⟨rfl, ?_⟩
  intro q hq
  have := (h.1.2.2 q (List.mem_of_getElem? hq)).1
  rintro (h' | h') <;> rw [h'] at this <;> simp at this

theorem sim_exec (hN : N < NONE) (hH : 0 < H) : ∀ (xs : List (Act V)) {s s' : Sys V} {a : Spec.State V} {es : List (Event V)}, Sim N H s a → SafeKills N H s xs →
    exec N H s xs = some (s', es) → Spec.Atomic N a es ∧ ∃ a', Sim N H s' a' := by
  intro xs
  induction xs with
  | nil => intro s s' a es h _ he; cases he; exact ⟨.nil, a, h⟩
  | cons x xs ih =>
    intro s s' a es h hk he
    simp only [exec] at he
    cases hs : step N H s x with
    | none => rw [hs] at he; cases he
    | some q =>
      obtain ⟨s1, es1⟩ := q
      rw [hs] at he
      simp only at he
      cases hx : exec N H s1 xs with
      | none => rw [hx] at he; cases he
      | some q =>
        obtain ⟨s2, es2⟩ := q
        rw [hx] at he
        cases he
        obtain ⟨a1, h1, hat⟩ := sim_step hN hH h hk.1 hs
        obtain ⟨h2, h3⟩ := ih h1 (hk.2 _ _ hs) hx
        exact ⟨hat _ h2, h3⟩

/-- **C117.** Any number of processes use one map through any calls, in every interleaving of their accesses to shared memory, and any of them may be
killed at any moment except between the two writes of `free_nodes.push` or inside `clear`: what they see is a history of the atomic map — every call
takes effect at one instant between its call and its return (a batch too), and a killed call takes effect up to some point.  Missing: kills at the
excepted places (C52_refuted_erase, C52_refuted_clear). -/
theorem C117_atomic_partial (hN : N < 2 ^ 31) (hH : 0 < H) (s s' : Sys V) (h : Start H s) (xs : List (Act V)) (hk : SafeKills N H s xs) (es : List (Event V))
    (he : exec N H s xs = some (s', es)) : Spec.Atomic N Spec.State.init es :=
  (sim_exec (by unfold NONE; omega) hH xs (sim_start h) hk he).1

/-- **C117, no access outside the segment.** In all these executions no process ever makes an access outside the segment. -/
theorem C117_no_ub_partial (hN : N < 2 ^ 31) (hH : 0 < H) (s s' : Sys V) (h : Start H s) (xs : List (Act V)) (hk : SafeKills N H s xs) (es : List (Event V))
    (he : exec N H s xs = some (s', es)) (i : Nat) (p : RwLock.Proc (Loc V)) (hp : s'.rw.procs[i]? = some p) (hm : p.mode = .writing ∨ p.mode = .reading) : p.loc.pc ≠ .ub := by
  obtain ⟨a, ha⟩ := (sim_exec (by unfold NONE; omega) hH xs (sim_start h) hk he).2
  have := ha.ok i
  rw [hp] at this
  cases hx : s'.pend i with
  | idle => rw [hx] at this; exact absurd hm (this.2 p rfl)
  | returning r => rw [hx] at this; obtain ⟨_, q, hq, hm'⟩ := this; cases hq; rcases hm with h | h <;> rw [hm'] at h <;> cases h
  | called c =>
    rw [hx] at this
    obtain ⟨_, q, hq, hm'⟩ := this
    cases hq
    rcases hm' with hm' | ⟨_, _, hi⟩ | ⟨_, _, hi⟩
    · rcases hm with h | h <;> rw [hm'] at h <;> cases h
    · exact within_ne_ub hi
    · exact within_ne_ub hi

/-! ## the atomic map and the finite map -/

/-- **C117, what the atomic map is for a single process**: a call that returns before anybody else calls returns what the finite map returns, and changes it
as the finite map changes. -/
theorem C117_spec_sequential {s : Spec.State V} (hout : ∀ j, s.st j = .out) {i : Nat} {c : Call V} {r : List (Ret V)} {es : List (Event V)} (h : Spec.Atomic N s (.call i c :: .ret i r :: es)) :
    r = s.result N c ∧ Spec.Atomic N (s.effect N c) es := by
  cases h with
  | effect hst _ => rw [hout] at hst; cases hst
  | call _ h =>
    cases h with
    | ret hst _ => rw [set_same'] at hst; cases hst
    | @effect _ j c' _ hst h =>
      have hj : j = i := by
        by_cases hj : j = i
        · exact hj
        · rw [set_other' _ _ hj, hout] at hst; cases hst
      subst hj
      rw [set_same'] at hst
      cases hst
      cases h with
      | @effect _ j' c' _ hst _ =>
        by_cases hj : j' = j
        · subst hj; rw [set_same'] at hst; cases hst
        · rw [set_other' _ _ hj] at hst
          simp only [Spec.State.effect] at hst
          rw [set_other' _ _ hj, hout] at hst
          cases hst
      | ret hst h =>
        rw [set_same'] at hst
        cases hst
        refine ⟨rfl, ?_⟩
        have : ((((s.set j (.before c)).effect N c).set j (.after ((s.set j (.before c)).result N c))).set j .out) = s.effect N c := by
          simp only [Spec.State.set, Spec.State.effect]
          congr 1
          funext k
          by_cases hk : k = j
          · simp [hk, hout]
          · simp [hk]
        rw [this] at h
        exact h

/-- The same for a call whose process is killed. -/
theorem C117_spec_killed {s : Spec.State V} (hout : ∀ j, s.st j = .out) {i : Nat} {c : Call V} {es : List (Event V)} (h : Spec.Atomic N s (.call i c :: .killed i :: es)) :
    ∃ s', Spec.Partial N s c s' ∧ (∀ j, s'.st j = .out) ∧ Spec.Atomic N s' es := by
  have hset : ∀ (t : Spec.State V), (∀ j, j ≠ i → t.st j = .out) → t.set i .out = { t with st := s.st } := by
    intro t ht
    simp only [Spec.State.set]
    congr 1
    funext k
    by_cases hk : k = i
    · simp [hk, hout]
    · simp [hk, hout, ht k hk]
  cases h with
  | effect hst _ => rw [hout] at hst; cases hst
  | call _ h =>
    cases h with
    | killedOut hst _ => exact absurd (set_same' _ _ _) (hst c)
    | @killedIn _ s' _ c' _ hst hp h =>
      rw [set_same'] at hst
      cases hst
      have hst' : s'.st = (s.set i (.before c)).st := by cases hp <;> rfl
      refine ⟨{ s' with st := s.st }, ?_, hout, ?_⟩
      · cases hp with
        | pre h1 => exact .pre h1
        | mid h1 h2 h3 => exact .mid h1 h2 h3
      · rw [hset s' (by intro j hj; rw [hst', set_other' _ _ hj]; exact hout j)] at h
        exact h
    | @effect _ j c' _ hst h =>
      have hj : j = i := by
        by_cases hj : j = i
        · exact hj
        · rw [set_other' _ _ hj, hout] at hst; cases hst
      subst hj
      rw [set_same'] at hst
      cases hst
      cases h with
      | @effect _ j' c' _ hst _ =>
        by_cases hj : j' = j
        · subst hj; rw [set_same'] at hst; cases hst
        · rw [set_other' _ _ hj] at hst
          simp only [Spec.State.effect] at hst
          rw [set_other' _ _ hj, hout] at hst
          cases hst
      | killedIn hst => rw [set_same'] at hst; cases hst
      | killedOut hst h =>
        refine ⟨s.effect N c, ?_, hout, ?_⟩
        · exact .pre (pre := (Spec.meaning c)) (post := []) (by simp)
        · rw [hset _ (by intro k hk; rw [set_other' _ _ hk]; simp only [Spec.State.effect]; rw [set_other' _ _ hk]; exact hout k)] at h
          exact h

/-! ## examples -/

deriving instance DecidableEq for ShmMap.Op
deriving instance DecidableEq for Unprot
deriving instance DecidableEq for Call
deriving instance DecidableEq for Event

/-- Three processes, two of them connected, and an empty map. -/
def s0 : Sys Nat :=
  ⟨⟨true, ⟨0, 0⟩, m0, [⟨.out, ⟨.idle, [], .unit, 0, []⟩, ⟨0, 0⟩⟩, ⟨.out, ⟨.idle, [], .unit, 0, []⟩, ⟨0, 0⟩⟩, ⟨.fresh, ⟨.idle, [], .unit, 0, []⟩, ⟨0, 0⟩⟩]⟩, fun _ => .idle⟩

theorem s0_start (H : Nat) : Start H s0 := by
  refine ⟨⟨rfl, rfl, ?_⟩, m0_init H, fun _ => rfl⟩
  intro p hp
  simp only [s0, List.mem_cons, List.not_mem_nil, or_false] at hp
  rcases hp with rfl | rfl | rfl <;> simp

/-- A complete call of process `i`. -/
def whole (i : Nat) (c : Call Nat) : List (Act Nat) := [.call i c, .lock i] ++ List.replicate 24 (.body i) ++ [.unlock i, .ret i]

/-- Two processes at once: 1 calls `read` and waits while 0 inserts, then two readers walk the same chain in turns, 2 connects, and 1 is killed in the middle of an
`erase`. -/
def busy : List (Act Nat) :=
  [.call 0 (.insertMany [(4, 40), (6, 60)]), .call 1 (.op (.read 6)), .lock 0] ++ List.replicate 12 (.body 0) ++ [.connect 2] ++ List.replicate 16 (.body 0) ++
  [.unlock 0, .lock 1, .ret 0, .body 1, .body 1, .call 0 (.op (.read 4)), .lock 0, .body 0, .body 1, .body 0, .body 1, .body 0, .body 1, .body 0, .body 1, .body 0, .body 1, .body 0, .body 1,
    .unlock 0, .unlock 1, .ret 1, .ret 0, .call 1 (.op (.erase 4)), .lock 1, .body 1, .body 1, .body 1, .body 1, .body 1, .call 2 (.op .size), .kill 1, .lock 2, .body 2, .body 2, .body 2, .body 2, .unlock 2, .ret 2]

example : (exec 4 2 s0 busy).map (·.2) = some [.call 0 (.insertMany [(4, 40), (6, 60)]), .call 1 (.op (.read 6)), .ret 0 [(.bool true)], .call 0 (.op (.read 4)), .ret 1 [(.val (some 60))],
    .ret 0 [(.val (some 40))], .call 1 (.op (.erase 4)), .call 2 (.op .size), .killed 1, .ret 2 [(.num 2)]] := by decide +kernel

/-- A checker for `SafeKills`. -/
def safeB (N H : Nat) : Sys V → List (Act V) → Bool
  | _, [] => true
  | s, x :: xs =>
    (match x with
      | .kill i => (match s.rw.procs[i]? with
        | some p => (match p.loc.pc with
          | .frData _ _ => false
          | .clTop => false
          | .clHash i => decide (¬ i < H)
          | _ => true)
        | none => true)
      | _ => true) && (match step N H s x with
      | some (s', _) => safeB N H s' xs
      | none => true)

theorem safe_of : ∀ {xs : List (Act V)} {s : Sys V}, safeB N H s xs = true → SafeKills N H s xs := by
  intro xs
  induction xs with
  | nil => intro s _; trivial
  | cons x xs ih =>
    intro s h
    simp only [safeB, Bool.and_eq_true] at h
    refine ⟨?_, ?_⟩
    · cases x with
      | kill i =>
        intro p hp _ hf
        have := h.1
        simp only [hp] at this
        cases hpc : p.loc.pc <;> rw [hpc] at this hf <;> simp_all [Pc.fragile]
      | _ => trivial
    · intro s' es hs
      have := h.2
      rw [hs] at this
      exact ih this

/-- The premises of `C117_atomic_partial` are met by `busy`. -/
example : SafeKills 4 2 s0 busy := safe_of (by decide +kernel)

/-- **C117 is false if a process may be killed anywhere.** Process 0 is killed in `erase(6)` between the two writes of `free_nodes.push`; then process 1 inserts key 9 and
reads key 4, which nobody has erased: it is gone. -/
theorem C117_refuted : ∃ (xs : List (Act Nat)) (s' : Sys Nat) (es : List (Event Nat)), exec 2 2 s0 xs = some (s', es) ∧ ¬ Spec.Atomic 2 Spec.State.init es := by
  have hx : ((exec 2 2 s0 (whole 0 (.op (.insert 5 50)) ++ whole 0 (.op (.erase 5)) ++ whole 0 (.op (.insert 4 40)) ++ whole 0 (.op (.insert 6 60)) ++
      [.call 0 (.op (.erase 6)), .lock 0] ++ List.replicate 10 (.body 0) ++ [.kill 0] ++ whole 1 (.op (.insert 9 90)) ++ whole 1 (.op (.read 4)))).map (·.2)) =
      some [.call 0 (.op (.insert 5 50)), .ret 0 [(.bool true)], .call 0 (.op (.erase 5)), .ret 0 [(.bool true)], .call 0 (.op (.insert 4 40)), .ret 0 [(.bool true)],
        .call 0 (.op (.insert 6 60)), .ret 0 [(.bool true)], .call 0 (.op (.erase 6)), .killed 0, .call 1 (.op (.insert 9 90)), .ret 1 [(.bool true)], .call 1 (.op (.read 4)), .ret 1 [(.val none)]] := by
    decide +kernel
  obtain ⟨q, h1, h2⟩ := map_some' hx
  refine ⟨_, q.1, q.2, h1, ?_⟩
  rw [← h2]
  intro h
  obtain ⟨_, h⟩ := C117_spec_sequential (fun _ => rfl) h
  obtain ⟨_, h⟩ := C117_spec_sequential (fun _ => rfl) h
  obtain ⟨_, h⟩ := C117_spec_sequential (fun _ => rfl) h
  obtain ⟨_, h⟩ := C117_spec_sequential (fun _ => rfl) h
  obtain ⟨t, hp, hout, h⟩ := C117_spec_killed (fun _ => rfl) h
  -- key 4 is still bound
  have key : ShmMap.Spec.lookup t.map 4 = some 40 := by
    cases hp with
    | @pre pre post hops =>
      cases pre with
      | nil => decide
      | cons o pre =>
        cases pre with
        | nil => simp only [Spec.meaning, List.cons_append, List.nil_append, List.cons.injEq] at hops; rw [← hops.1]; decide
        | cons _ _ => simp [Spec.meaning] at hops
    | @mid pre o post l lk hops hl _ =>
      cases pre with
      | nil =>
        simp only [Spec.meaning, List.nil_append, List.cons.injEq] at hops
        simp only
        rcases hl with rfl | rfl
        · decide
        · rw [← hops.1]; decide
      | cons _ pre => simp [Spec.meaning] at hops
  obtain ⟨_, h⟩ := C117_spec_sequential hout h
  obtain ⟨hr, _⟩ := C117_spec_sequential (by intro j; exact hout j) h
  have key' : ShmMap.Spec.lookup (t.effect 2 (.op (.insert 9 90))).map 4 = some 40 := by
    simp only [Spec.State.effect, Spec.meaning, Spec.stepsL, ShmMap.Spec.stepL, ShmMap.Spec.step]
    split
    · simp only
      rw [(C47_spec_last 2 t.map 9 4 90).1, if_neg (by decide)]
      exact key
    · exact key
  simp only [Spec.State.result, Spec.meaning, Spec.stepsL, ShmMap.Spec.stepL, ShmMap.Spec.step, Spec.answer, List.headD_cons, key'] at hr
  cases hr

end Verif.MapSys
