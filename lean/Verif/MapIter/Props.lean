import Verif.MapIter.Model
import Verif.MapSys.Progress
/-
  Property C127: iteration over a shared map while other processes use it.
-/
set_option linter.unusedVariables false

namespace Verif.MapIter

open Verif.ShmPool Verif.ShmMap Verif.MapSys

variable {V : Type} {N H : Nat}

/-- `n` steps of an iteration on a memory that does not change. -/
def runIt (N H : Nat) (m : Map V) : Nat → It V → It V
  | 0, t => t
  | n + 1, t => runIt N H m n (t.step N H m)

theorem runIt_add (m : Map V) : ∀ (a b : Nat) (t : It V), runIt N H m (a + b) t = runIt N H m b (runIt N H m a t) := by
  intro a
  induction a with
  | zero => intro b t; rw [Nat.zero_add]; rfl
  | succ a ih => intro b t; rw [Nat.succ_add]; exact ih b _

theorem runIt_done (m : Map V) (l : List (UInt64 × V)) : ∀ n, runIt N H m n ⟨.done, l⟩ = ⟨.done, l⟩ := by
  intro n
  induction n with
  | zero => rfl
  | succ n ih => exact ih

/-- The loop over the buckets in `operator++`. -/
theorem scan_run (m : Map V) (l : List (UInt64 × V)) : ∀ (n i : Nat), i + n = H →
    (scan m n i = end_ ∧ runIt N H m (n + 1) ⟨.scan1 i, l⟩ = ⟨.test NONE NONE, l⟩) ∨
    ∃ h, i ≤ h ∧ h < H ∧ m.hash h ≠ NONE ∧ scan m n i = (h, m.hash h) ∧ runIt N H m (h - i + 2) ⟨.scan1 i, l⟩ = ⟨.test h (m.hash h), l⟩ := by
  intro n
  induction n with
  | zero =>
    intro i hi
    refine Or.inl ⟨rfl, ?_⟩
    simp only [runIt, It.step, if_neg (show ¬ i < H by omega)]
  | succ n ih =>
    intro i hi
    have hlt : i < H := by omega
    by_cases hb : m.hash i ≠ NONE
    · refine Or.inr ⟨i, Nat.le_refl _, hlt, hb, ?_, ?_⟩
      · simp only [scan, if_pos hb]
      · rw [Nat.sub_self]
        simp only [runIt, It.step, if_pos hlt, if_pos hb]
    · have hs : scan m (n + 1) i = scan m n (i + 1) := by simp only [scan, if_neg hb]
      have h1 : ∀ k, runIt N H m (k + 1) ⟨.scan1 i, l⟩ = runIt N H m k ⟨.scan1 (i + 1), l⟩ := by
        intro k
        simp only [runIt, It.step, if_pos hlt, if_neg hb]
      rw [hs]
      rcases ih (i + 1) (by omega) with ⟨h2, h3⟩ | ⟨h, h2, h3, h4, h5, h6⟩
      · exact Or.inl ⟨h2, by rw [h1]; exact h3⟩
      · refine Or.inr ⟨h, by omega, h3, h4, h5, ?_⟩
        rw [show h - i + 2 = (h - (i + 1) + 2) + 1 by omega, h1]
        exact h6

/-- The loop over the buckets in `begin`. -/
theorem bscan_run (m : Map V) (l : List (UInt64 × V)) : ∀ (n i : Nat), i + n = H →
    (scan m n i = end_ ∧ runIt N H m (n + 1) ⟨.bScan i, l⟩ = ⟨.test NONE NONE, l⟩) ∨
    ∃ h, i ≤ h ∧ h < H ∧ m.hash h ≠ NONE ∧ scan m n i = (h, m.hash h) ∧ runIt N H m (h - i + 1) ⟨.bScan i, l⟩ = ⟨.test h (m.hash h), l⟩ := by
  intro n
  induction n with
  | zero =>
    intro i hi
    refine Or.inl ⟨rfl, ?_⟩
    simp only [runIt, It.step, if_neg (show ¬ i < H by omega)]
  | succ n ih =>
    intro i hi
    have hlt : i < H := by omega
    by_cases hb : m.hash i ≠ NONE
    · refine Or.inr ⟨i, Nat.le_refl _, hlt, hb, ?_, ?_⟩
      · simp only [scan, if_pos hb]
      · rw [Nat.sub_self]
        simp only [runIt, It.step, if_pos hlt, if_pos hb]
    · have hs : scan m (n + 1) i = scan m n (i + 1) := by simp only [scan, if_neg hb]
      have h1 : ∀ k, runIt N H m (k + 1) ⟨.bScan i, l⟩ = runIt N H m k ⟨.bScan (i + 1), l⟩ := by
        intro k
        simp only [runIt, It.step, if_pos hlt, if_neg hb]
      rw [hs]
      rcases ih (i + 1) (by omega) with ⟨h2, h3⟩ | ⟨h, h2, h3, h4, h5, h6⟩
      · exact Or.inl ⟨h2, by rw [h1]; exact h3⟩
      · refine Or.inr ⟨h, by omega, h3, h4, h5, ?_⟩
        rw [show h - i + 1 = (h - (i + 1) + 1) + 1 by omega, h1]
        exact h6

theorem end_run (m : Map V) (l : List (UInt64 × V)) : runIt N H m 1 ⟨.test NONE NONE, l⟩ = ⟨.done, l⟩ := by
  simp [runIt, It.step]

/-- On a memory that does not change, the steps of the loop are the loop of Verif.ShmMap. -/
theorem iterate_run (m : Map V) : ∀ (fuel h e : Nat) (acc l : List (UInt64 × V)), h < H → e ≠ NONE → iterate N H m fuel (h, e) = .ok l →
    runIt N H m (5 * l.length + (H - h)) ⟨.test h e, acc⟩ = ⟨.done, acc ++ l⟩ := by
  intro fuel
  induction fuel with
  | zero =>
    intro h e acc l hh he hi
    simp only [iterate] at hi
    rw [if_neg (by unfold end_; simp [he])] at hi
    cases hi
  | succ fuel ih =>
    intro h e acc l hh he hi
    simp only [iterate] at hi
    rw [if_neg (by unfold end_; simp [he])] at hi
    split at hi
    · rename_i hlt
      cases hc : incr N H m (h, e) with
      | ub => rw [hc] at hi; cases hi
      | ok it' =>
        rw [hc, Res.ok_bind] at hi
        cases hr : iterate N H m fuel it' with
        | ub => rw [hr] at hi; cases hi
        | ok l' =>
          rw [hr, Res.ok_bind] at hi
          cases hi
          simp only [incr] at hc
          rw [if_pos hlt] at hc
          have h3 : runIt N H m 3 ⟨.test h e, acc⟩ = ⟨.next1 h e, acc ++ [(m.key e, m.val e)]⟩ := by
            simp only [runIt, It.step, if_pos (Or.inr he : h ≠ NONE ∨ e ≠ NONE), if_pos hlt]
          have hacc : acc ++ (m.key e, m.val e) :: l' = (acc ++ [(m.key e, m.val e)]) ++ l' := by simp
          rw [List.length_cons, hacc]
          split at hc
          · rename_i hn
            cases hc
            rw [show 5 * (l'.length + 1) + (H - h) = 3 + (2 + (5 * l'.length + (H - h))) by omega, runIt_add, h3, runIt_add]
            have h2 : runIt N H m 2 ⟨.next1 h e, acc ++ [(m.key e, m.val e)]⟩ = ⟨.test h (m.next e), acc ++ [(m.key e, m.val e)]⟩ := by
              simp only [runIt, It.step, if_pos hn]
            rw [h2]
            exact ih h (m.next e) _ l' hh hn hr
          · rename_i hn
            have h1 : runIt N H m 1 ⟨.next1 h e, acc ++ [(m.key e, m.val e)]⟩ = ⟨.scan1 (h + 1), acc ++ [(m.key e, m.val e)]⟩ := by
              simp only [runIt, It.step, if_neg hn]
            cases hc
            rcases scan_run (N := N) (H := H) m (acc ++ [(m.key e, m.val e)]) (H - (h + 1)) (h + 1) (by omega) with ⟨s1, s2⟩ | ⟨h', s1, s2, s3, s4, s5⟩
            · rw [s1] at hr
              have hl : l' = [] := by cases fuel <;> simp [iterate, end_] at hr <;> exact hr
              subst hl
              rw [List.length_nil, List.append_nil, show 5 * (0 + 1) + (H - h) = 3 + (1 + ((H - (h + 1) + 1) + 1)) by omega, runIt_add, h3, runIt_add, h1, runIt_add, s2]
              exact end_run m _
            · rw [s4] at hr
              rw [show 5 * (l'.length + 1) + (H - h) = 3 + (1 + ((h' - (h + 1) + 2) + (5 * l'.length + (H - h')))) by omega, runIt_add, h3, runIt_add, h1, runIt_add, s5]
              exact ih h' _ _ l' s2 s3 hr
    · cases hi

/-- The whole loop takes at most `5 * N + H + 2` steps. -/
theorem begin_run (m : Map V) (fuel : Nat) (l : List (UInt64 × V)) (hl : l.length ≤ N) (h : iterate N H m fuel (begin_ H m) = .ok l) :
    runIt N H m (5 * N + H + 2) ⟨.bScan 0, []⟩ = ⟨.done, l⟩ := by
  unfold begin_ at h
  rcases bscan_run (N := N) (H := H) m [] H 0 (by omega) with ⟨s1, s2⟩ | ⟨h', s1, s2, s3, s4, s5⟩
  · rw [s1] at h
    have hl : l = [] := by cases fuel <;> simp [iterate, end_] at h <;> exact h
    subst hl
    rw [show 5 * N + H + 2 = (H + 1) + (1 + 5 * N) by omega, runIt_add, s2, runIt_add, end_run]
    exact runIt_done m _ _
  · rw [s4] at h
    rw [show 5 * N + H + 2 = (h' - 0 + 1) + ((5 * l.length + (H - h')) + (5 * N + H + 2 - (h' - 0 + 1) - (5 * l.length + (H - h')))) by omega, runIt_add, s5, runIt_add,
      iterate_run m fuel h' _ [] l s2 s3 h]
    exact runIt_done m _ _

/-! ## the iterations of a system -/

/-- The client iterates between its own `lock_read_rw()` and `unlock_read_rw()`: it calls begin() inside the section, and it does not unlock before the loop is over. -/
def Locked (s : ISys V) : IAct V → Prop
  | .begin i => Reads s.sys i ∧ ∃ ks, s.sys.pend i = .called (.readSection ks)
  | .sys (.unlock i) => s.it i = none
  | _ => True

/-- No process is killed between the two writes of `free_nodes.push` or inside `clear` (C52). -/
def SafeAct (H : Nat) (s : ISys V) : IAct V → Prop
  | .sys a => SafeKill H s.sys a
  | _ => True

/-- Every iteration is made inside a section, and every kill is harmless. -/
def Polite (N H : Nat) : ISys V → List (IAct V) → Prop
  | _, [] => True
  | s, x :: xs => Locked s x ∧ SafeAct H s x ∧ ∀ s' es, step N H s x = some (s', es) → Polite N H s' xs

/-- What is known of the iterations: their processes hold the read lock, and from here the loop yields what it would yield without anybody else. -/
def ItInv (N H : Nat) (s : ISys V) (i : Nat) (t : It V) : Prop :=
  Reads s.sys i ∧ (∃ c, s.sys.pend i = .called c) ∧
    ∃ n l, runIt N H s.sys.rw.mem n t = ⟨.done, l⟩ ∧ iterate N H s.sys.rw.mem N (begin_ H s.sys.rw.mem) = .ok l

structure Inv (N H : Nat) (s : ISys V) (a : MapSys.Spec.State V) : Prop where
  sim : Sim N H s.sys a
  it : ∀ i t, s.it i = some t → ItInv N H s i t

/-- While process `i` reads, nobody changes the memory. -/
theorem mem_keep {s s' : Sys V} {x : Act V} {es : List (Event V)} {i : Nat} {c : Call V} (hinv : RwLock.Inv s.rw) (hpend : s.pend i = .called c) (h : Reads s i)
    (hs : MapSys.step N H s x = some (s', es)) (hu : x ≠ .unlock i) (hk : x ≠ .kill i) : s'.rw.mem = s.rw.mem := by
  obtain ⟨p, hp, hm⟩ := h
  by_cases hb : x = .body i
  · subst hb
    obtain ⟨t, ht, e'⟩ := map_some' hs; cases e'
    obtain ⟨rw, e1, rfl⟩ := low_some ht
    exact ((RwLock.step_body hp e1).2 hm).1
  · exact (read_frame hinv hpend hp hm hs hb hu hk).2.2.1

theorem no_writer {s : Sys V} (hinv : RwLock.Inv s.rw) {i : Nat} (h : Reads s i) (j : Nat) (q : RwLock.Proc (Loc V)) (hq : s.rw.procs[j]? = some q) : q.mode ≠ .writing := by
  obtain ⟨p, hp, hm⟩ := h
  intro hw
  by_cases hj : i = j
  · subst hj; rw [hp] at hq; cases hq; rw [hm] at hw; cases hw
  · exact excl hinv hq hw hj p hp (Or.inr hm)

theorem inv_step (hN : N < NONE) (hH : 0 < H) {s s' : ISys V} {a : MapSys.Spec.State V} {x : IAct V} {es : List (Event V)} (h : Inv N H s a) (hl : Locked s x) (hk : SafeAct H s x)
    (hs : step N H s x = some (s', es)) : ∃ a', Inv N H s' a' ∧ ∀ es', MapSys.Spec.Atomic N a' es' → MapSys.Spec.Atomic N a (es ++ es') := by
  cases x with
  | sys x =>
    simp only [step] at hs
    obtain ⟨q, hq, e⟩ := map_some' hs
    obtain ⟨sy, es1⟩ := q
    simp only [Prod.mk.injEq] at e
    obtain ⟨rfl, rfl⟩ := e
    obtain ⟨a', h1, h2⟩ := sim_step hN hH h.sim hk hq
    have key : ∀ i t, s.it i = some t → x ≠ .kill i → Reads sy i ∧ (∃ c, sy.pend i = .called c) ∧ sy.rw.mem = s.sys.rw.mem := by
      intro i t ht hki
      obtain ⟨k1, ⟨c, k2⟩, _⟩ := h.it i t ht
      have hu : x ≠ .unlock i := by
        rintro rfl
        have : s.it i = none := hl
        rw [this] at ht; cases ht
      obtain ⟨_, k3, k4⟩ := reads_keep h.sim.inv k2 k1 hq hu hki
      exact ⟨k4, ⟨c, k3⟩, mem_keep h.sim.inv k2 k1 hq hu hki⟩
    have fin : ∀ i t, s.it i = some t → x ≠ .kill i → ∀ s2 : ISys V, s2.sys = sy → ItInv N H s2 i t := by
      intro i t ht hki s2 e
      obtain ⟨_, _, n, l, k3, k4⟩ := h.it i t ht
      obtain ⟨g1, g2, g3⟩ := key i t ht hki
      refine ⟨by rw [e]; exact g1, by rw [e]; exact g2, n, l, ?_, ?_⟩
      · rw [e, g3]; exact k3
      · rw [e, g3]; exact k4
    refine ⟨a', ⟨?_, ?_⟩, h2⟩
    · cases x <;> exact h1
    · intro i t ht
      cases x with
      | kill j =>
        simp only [afterSys, ISys.setIt] at ht
        by_cases hj : i = j
        · rw [if_pos hj] at ht; cases ht
        · rw [if_neg hj] at ht
          exact fin i t ht (by intro e; cases e; exact hj rfl) _ rfl
      | connect j => exact fin i t ht (by simp) _ rfl
      | call j c => exact fin i t ht (by simp) _ rfl
      | lock j => exact fin i t ht (by simp) _ rfl
      | body j => exact fin i t ht (by simp) _ rfl
      | unlock j => exact fin i t ht (by simp) _ rfl
      | ret j => exact fin i t ht (by simp) _ rfl
      | spawn j => exact fin i t ht (by simp) _ rfl
  | begin i =>
    simp only [step] at hs
    split at hs
    · split at hs
      · cases hs
        refine ⟨a, ⟨h.sim, ?_⟩, fun es' he => he⟩
        intro j t ht
        simp only [ISys.setIt] at ht
        by_cases hj : j = i
        · rw [if_pos hj] at ht
          cases ht
          subst hj
          obtain ⟨g1, ks, g2⟩ := hl
          obtain ⟨f, fr, hr⟩ := h.sim.rep (no_writer h.sim.inv g1)
          have hb := begin_spec hN hr
          refine ⟨g1, ⟨_, g2⟩, 5 * N + H + 2, _, begin_run _ N _ ?_ hb, hb⟩
          rw [List.length_map]
          have := count_le hr.pool
          omega
        · rw [if_neg hj] at ht
          exact h.it j t ht
      · cases hs
    · cases hs
  | iter i =>
    simp only [step] at hs
    split at hs
    · cases hs
    · rename_i t ht
      obtain ⟨g1, g2, n, l, g3, g4⟩ := h.it i t ht
      split at hs
      · rename_i hd
        cases hs
        have hl' : t.seen = l := by
          obtain ⟨pc, seen⟩ := t
          simp only at hd
          subst hd
          rw [runIt_done] at g3
          cases g3
          rfl
        obtain ⟨f, fr, hr⟩ := h.sim.rep (no_writer h.sim.inv g1)
        have hb := begin_spec hN hr
        rw [g4] at hb
        cases hb
        refine ⟨a, ⟨h.sim, ?_⟩, ?_⟩
        · intro j t' ht'
          simp only [ISys.setIt] at ht'
          by_cases hj : j = i
          · rw [if_pos hj] at ht'; cases ht'
          · rw [if_neg hj] at ht'; exact h.it j t' ht'
        · intro es' he
          rw [hl']
          refine .iterated hr.abs.symm ?_ he
          rw [List.map_map]; exact hr.keys
      · rename_i hd
        cases hs
        refine ⟨a, ⟨h.sim, ?_⟩, fun es' he => he⟩
        intro j t' ht'
        simp only [ISys.setIt] at ht'
        by_cases hj : j = i
        · rw [if_pos hj] at ht'
          cases ht'
          subst hj
          refine ⟨g1, g2, n - 1, l, ?_, g4⟩
          cases n with
          | zero =>
            simp only [runIt] at g3
            rw [g3] at hd
            exact absurd rfl hd
          | succ n => exact g3
        · rw [if_neg hj] at ht'; exact h.it j t' ht'

theorem inv_exec (hN : N < NONE) (hH : 0 < H) : ∀ (xs : List (IAct V)) {s s' : ISys V} {a : MapSys.Spec.State V} {es : List (Event V)}, Inv N H s a → Polite N H s xs →
    exec N H s xs = some (s', es) → MapSys.Spec.Atomic N a es ∧ ∃ a', Inv N H s' a' := by
  intro xs
  induction xs with
  | nil => intro s s' a es h _ he; cases he; exact ⟨.nil, a, h⟩
  | cons x xs ih =>
    intro s s' a es h hk he
    simp only [exec] at he
    cases hs : step N H s x with
    | none => rw [hs] at he; cases he
    | some q =>
      obtain ⟨s1, es1⟩ := q
      rw [hs] at he
      simp only at he
      cases hx : exec N H s1 xs with
      | none => rw [hx] at he; cases he
      | some q =>
        obtain ⟨s2, es2⟩ := q
        rw [hx] at he
        cases he
        obtain ⟨a1, h1, hat⟩ := inv_step hN hH h hk.1 hk.2.1 hs
        obtain ⟨h2, h3⟩ := ih h1 (hk.2.2 _ _ hs) hx
        exact ⟨hat _ h2, h3⟩

/-- The state of Verif.MapSys before anything has happened, and nobody iterates. -/
def Start (H : Nat) (s : ISys V) : Prop := MapSys.Start H s.sys ∧ ∀ i, s.it i = none

theorem inv_start {s : ISys V} (h : Start H s) : Inv N H s MapSys.Spec.State.init :=
  ⟨sim_start h.1, fun i t ht => by rw [h.2 i] at ht; cases ht⟩

/-- **C127.** Any number of processes use one map through any calls, and iterate over it between their own `lock_read_rw()` and `unlock_read_rw()`, in every interleaving of their
accesses to shared memory: what they see is a history of the atomic map, in which an iteration sees every entry exactly once, with its value, all at one instant.  Missing:
iterations without the lock (`C127_refuted`, `C127_refuted_twice`, `C127_refuted_ub`), and kills at the places of C52. -/
theorem C127_iteration_partial (hN : N < 2 ^ 31) (hH : 0 < H) (s s' : ISys V) (h : Start H s) (xs : List (IAct V)) (hk : Polite N H s xs) (es : List (Event V))
    (he : exec N H s xs = some (s', es)) : MapSys.Spec.Atomic N MapSys.Spec.State.init es :=
  (inv_exec (by unfold NONE; omega) hH xs (inv_start h) hk he).1

/-- **C127, no access outside the segment.** Such an iteration never reads outside of the segment. -/
theorem C127_no_ub_partial (hN : N < 2 ^ 31) (hH : 0 < H) (s s' : ISys V) (h : Start H s) (xs : List (IAct V)) (hk : Polite N H s xs) (es : List (Event V))
    (he : exec N H s xs = some (s', es)) (i : Nat) (t : It V) (ht : s'.it i = some t) : t.pc ≠ .ub := by
  obtain ⟨a, ha⟩ := (inv_exec (by unfold NONE; omega) hH xs (inv_start h) hk he).2
  obtain ⟨_, _, n, l, h1, _⟩ := ha.it i t ht
  intro e
  have : ∀ n (t : It V), t.pc = .ub → (runIt N H s'.sys.rw.mem n t).pc = .ub := by
    intro n
    induction n with
    | zero => intro t h; exact h
    | succ n ih => intro t h; exact ih _ (by simp only [It.step, h])
  have := this n t e
  rw [h1] at this
  cases this

/-! ## the loop ends -/

def IAct.iterOf (i : Nat) : IAct V → Bool
  | .iter j => j == i
  | _ => false

theorem ends_aux (hN : N < NONE) (hH : 0 < H) {i : Nat} : ∀ (ys : List (IAct V)) {s s' : ISys V} {a : MapSys.Spec.State V} {es : List (Event V)} {t : It V} {n : Nat} {l : List (UInt64 × V)},
    Inv N H s a → Polite N H s ys → (∀ x ∈ ys, x ≠ .sys (.kill i)) → exec N H s ys = some (s', es) → s.it i = some t → runIt N H s.sys.rw.mem n t = ⟨.done, l⟩ →
    .iterated i l ∈ es ∨ (s'.it i ≠ none ∧ ys.countP (IAct.iterOf i) ≤ n) := by
  intro ys
  induction ys with
  | nil => intro s s' a es t n l _ _ _ he ht _; cases he; exact .inr ⟨by rw [ht]; simp, Nat.zero_le _⟩
  | cons x ys ih =>
    intro s s' a es t n l h hp hk he ht hr
    simp only [exec] at he
    cases hs : step N H s x with
    | none => rw [hs] at he; cases he
    | some q =>
      obtain ⟨s1, es1⟩ := q
      rw [hs] at he
      simp only at he
      cases hx : exec N H s1 ys with
      | none => rw [hx] at he; cases he
      | some q =>
        obtain ⟨s2, es2⟩ := q
        rw [hx] at he
        cases he
        obtain ⟨a1, h1, _⟩ := inv_step hN hH h hp.1 hp.2.1 hs
        have hk' : ∀ y ∈ ys, y ≠ .sys (.kill i) := fun y hy => hk y (List.mem_cons_of_mem _ hy)
        have goon : ∀ (t' : It V) (n' k : Nat), s1.it i = some t' → runIt N H s1.sys.rw.mem n' t' = ⟨.done, l⟩ → k + n' ≤ n →
            Event.iterated i l ∈ es1 ++ es2 ∨ (s'.it i ≠ none ∧ ys.countP (IAct.iterOf i) + k ≤ n) := by
          intro t' n' k g1 g2 g3
          rcases ih h1 (hp.2.2 _ _ hs) hk' hx g1 g2 with g | ⟨g, g'⟩
          · exact .inl (List.mem_append_right _ g)
          · exact .inr ⟨g, by omega⟩
        cases x with
        | sys y =>
          rw [List.countP_cons_of_neg (by simp [IAct.iterOf])]
          simp only [step] at hs
          obtain ⟨q, hq, e⟩ := map_some' hs
          obtain ⟨sy, es'⟩ := q
          simp only [Prod.mk.injEq] at e
          obtain ⟨rfl, rfl⟩ := e
          have hki : y ≠ .kill i := fun e => hk _ (List.mem_cons_self) (by rw [e])
          have hit : (afterSys s sy y).it i = some t := by
            cases y with
            | kill j =>
              simp only [afterSys, ISys.setIt]
              rw [if_neg (fun e => hki (by rw [e]))]
              exact ht
            | _ => exact ht
          have hsys : (afterSys s sy y).sys = sy := by cases y <;> rfl
          refine goon t n 0 hit ?_ (by omega)
          obtain ⟨k1, ⟨c, k2⟩, _⟩ := h.it i t ht
          have hu : y ≠ .unlock i := by
            rintro rfl
            have : s.it i = none := hp.1
            rw [this] at ht; cases ht
          rw [hsys, mem_keep h.sim.inv k2 k1 hq hu hki]
          exact hr
        | begin j =>
          rw [List.countP_cons_of_neg (by simp [IAct.iterOf])]
          simp only [step] at hs
          split at hs
          · rename_i hj
            split at hs
            · cases hs
              refine goon t n 0 ?_ hr (by omega)
              simp only [ISys.setIt]
              rw [if_neg (by rintro rfl; rw [hj] at ht; cases ht)]
              exact ht
            · cases hs
          · cases hs
        | iter j =>
          by_cases hj : j = i
          · subst hj
            rw [List.countP_cons_of_pos (by simp [IAct.iterOf])]
            simp only [step, ht] at hs
            split at hs
            · rename_i hd
              cases hs
              obtain ⟨pc, seen⟩ := t
              simp only at hd
              subst hd
              rw [runIt_done] at hr
              cases hr
              exact .inl (List.mem_append_left _ (by simp))
            · rename_i hd
              cases hs
              cases n with
              | zero =>
                simp only [runIt] at hr
                rw [hr] at hd
                exact absurd rfl hd
              | succ n => exact goon _ n 1 (by simp [ISys.setIt]) hr (by omega)
          · rw [List.countP_cons_of_neg (by simp [IAct.iterOf, hj])]
            have hj' : i ≠ j := fun e => hj e.symm
            simp only [step] at hs
            split at hs
            · cases hs
            · split at hs
              · cases hs
                exact goon t n 0 (by simp only [ISys.setIt]; rw [if_neg hj']; exact ht) hr (by omega)
              · cases hs
                exact goon t n 0 (by simp only [ISys.setIt]; rw [if_neg hj']; exact ht) hr (by omega)

/-- **C127, the loop ends.** Whatever the others do meanwhile, an iteration inside a section has ended, or has taken at most `5 * capacity + buckets + 2` of its own steps and can take
the next one at once; unless its process is killed. -/
theorem C127_ends_partial (hN : N < 2 ^ 31) (hH : 0 < H) (s s1 s2 : ISys V) (h : Start H s) (xs ys : List (IAct V)) (i : Nat) (hk : Polite N H s (xs ++ .begin i :: ys)) (es es' : List (Event V))
    (he : exec N H s xs = some (s1, es)) (he' : exec N H s1 (.begin i :: ys) = some (s2, es')) (hn : ∀ x ∈ ys, x ≠ .sys (.kill i)) :
    (∃ l, .iterated i l ∈ es') ∨ (ys.countP (IAct.iterOf i) ≤ 5 * N + H + 2 ∧ (step N H s2 (.iter i)).isSome) := by
  have hN' : N < NONE := by unfold NONE; omega
  have split : ∀ (xs : List (IAct V)) {s s1 : ISys V} {es : List (Event V)} {zs : List (IAct V)}, Polite N H s (xs ++ zs) → exec N H s xs = some (s1, es) → Polite N H s xs ∧ Polite N H s1 zs := by
    intro xs
    induction xs with
    | nil => intro s s1 es zs h he; cases he; exact ⟨trivial, h⟩
    | cons x xs ih =>
      intro s s1 es zs h he
      simp only [exec] at he
      cases hs : step N H s x with
      | none => rw [hs] at he; cases he
      | some q =>
        obtain ⟨t, es1⟩ := q
        rw [hs] at he
        simp only at he
        cases hx : exec N H t xs with
        | none => rw [hx] at he; cases he
        | some q =>
          obtain ⟨s2, es2⟩ := q
          rw [hx] at he
          cases he
          obtain ⟨p1, p2⟩ := ih (h.2.2 _ _ hs) hx
          refine ⟨⟨h.1, h.2.1, ?_⟩, p2⟩
          intro s' es' hs'
          rw [hs] at hs'
          cases hs'
          exact p1
  obtain ⟨p1, p2⟩ := split xs hk he
  obtain ⟨a, ha⟩ := (inv_exec hN' hH xs (inv_start h) p1 he).2
  simp only [exec] at he'
  cases hs : step N H s1 (.begin i) with
  | none => rw [hs] at he'; cases he'
  | some q =>
    obtain ⟨t, es1⟩ := q
    rw [hs] at he'
    simp only at he'
    cases hx : exec N H t ys with
    | none => rw [hx] at he'; cases he'
    | some q =>
      obtain ⟨u, es2⟩ := q
      rw [hx] at he'
      cases he'
      obtain ⟨a1, h1, _⟩ := inv_step hN' hH ha p2.1 p2.2.1 hs
      have hit : t.it i = some ⟨.bScan 0, []⟩ ∧ t.sys = s1.sys := by
        simp only [step] at hs
        split at hs
        · split at hs
          · cases hs; simp [ISys.setIt]
          · cases hs
        · cases hs
      obtain ⟨g1, ks, g2⟩ := p2.1
      obtain ⟨f, fr, hr⟩ := ha.sim.rep (no_writer ha.sim.inv g1)
      have hcnt := count_le hr.pool
      have hb := begin_run _ N _ (by rw [List.length_map]; omega) (begin_spec hN' hr)
      rw [← hit.2] at hb
      rcases ends_aux hN' hH ys h1 (p2.2.2 _ _ hs) hn hx hit.1 hb with g | ⟨g, g'⟩
      · exact .inl ⟨_, List.mem_append_right _ g⟩
      · refine .inr ⟨g', ?_⟩
        cases hu : s2.it i with
        | none => exact absurd hu g
        | some t' =>
          simp only [step, hu]
          split <;> rfl

/-! ## examples -/

/-- Three processes, two of them connected, and an empty map. -/
def i0 : ISys Nat := ⟨s0, fun _ => none⟩

theorem i0_start (H : Nat) : Start H i0 := ⟨s0_start H, fun _ => rfl⟩

def lift (xs : List (Act Nat)) : List (IAct Nat) := xs.map .sys

/-- A checker for `Polite`. -/
def politeB (N H : Nat) : ISys V → List (IAct V) → Bool
  | _, [] => true
  | s, x :: xs =>
    (match x with
      | .begin i => decide (s.sys.rw.mode i = some .reading) && (match s.sys.pend i with
        | .called (.readSection _) => true
        | _ => false)
      | .sys (.unlock i) => (s.it i).isNone
      | .sys (.kill _) => false
      | _ => true) && (match step N H s x with
      | some (s', _) => politeB N H s' xs
      | none => true)

theorem polite_of : ∀ {xs : List (IAct V)} {s : ISys V}, politeB N H s xs = true → Polite N H s xs := by
  intro xs
  induction xs with
  | nil => intro s _; trivial
  | cons x xs ih =>
    intro s h
    simp only [politeB, Bool.and_eq_true] at h
    refine ⟨?_, ?_, ?_⟩
    · cases x with
      | begin i =>
        have := h.1
        simp only [Bool.and_eq_true, decide_eq_true_eq] at this
        obtain ⟨h1, h2⟩ := this
        refine ⟨?_, ?_⟩
        · unfold RwLock.State.mode at h1
          rw [Option.map_eq_some_iff] at h1
          exact h1
        · split at h2
          · rename_i ks e; exact ⟨ks, e⟩
          · cases h2
      | iter i => trivial
      | sys y =>
        cases y with
        | unlock i =>
          have := h.1
          simp only [Option.isNone_iff_eq_none] at this
          exact this
        | _ => trivial
    · cases x with
      | sys y =>
        cases y with
        | kill i => exact absurd h.1 (by simp)
        | _ => trivial
      | _ => trivial
    · intro s' es hs
      have := h.2
      rw [hs] at this
      exact ih this

/-- Process 0 has inserted two keys; process 1 iterates in a section of its own, in turns with process 0, which erases a key but has to wait for the lock. -/
def turns : List (IAct Nat) :=
  lift (whole 0 (.op (.insert 4 40)) ++ whole 0 (.op (.insert 6 60)) ++ [.call 1 (.readSection [6]), .lock 1]) ++ [.begin 1, .iter 1, .iter 1, .sys (.call 0 (.op (.erase 4))), .iter 1, .iter 1, .sys (.body 1)] ++
    List.replicate 10 (.iter 1) ++ lift (List.replicate 10 (.body 1) ++ [.unlock 1, .lock 0, .ret 1])

example : (exec 4 2 i0 turns).map (·.2) = some [.call 0 (.op (.insert 4 40)), .ret 0 [.bool true], .call 0 (.op (.insert 6 60)), .ret 0 [.bool true], .call 1 (.readSection [6]),
    .call 0 (.op (.erase 4)), .iterated 1 [(4, 40), (6, 60)], .ret 1 [.val (some 60)]] := by decide +kernel

/-- The premises of `C127_iteration_partial` are met by `turns`. -/
example : Polite 4 2 i0 turns := polite_of (by decide +kernel)

/-- Process 1 iterates without the lock while process 0 erases the entry at which the iteration stands. -/
def cut (n k : Nat) : List (IAct Nat) :=
  lift (whole 0 (.op (.insert 4 40)) ++ whole 0 (.op (.insert 6 60))) ++ [.begin 1] ++ List.replicate n (.iter 1) ++ lift (whole 0 (.op (.erase 4))) ++ List.replicate k (.iter 1)

/-- **C127 is false without the lock: an entry is missed.** Key 6 is inserted before the iteration begins and never erased; process 0 erases key 4, and the iteration of process 1 ends
without having seen key 6. -/
theorem C127_refuted : (∃ s', exec 4 2 i0 (cut 4 5) = some (s', [.call 0 (.op (.insert 4 40)), .ret 0 [.bool true], .call 0 (.op (.insert 6 60)), .ret 0 [.bool true],
      .call 0 (.op (.erase 4)), .ret 0 [.bool true], .iterated 1 [(4, 40)]])) ∧
    ¬ MapSys.Spec.Atomic 4 MapSys.Spec.State.init ([.call 0 (.op (.insert 4 40)), .ret 0 [.bool true], .call 0 (.op (.insert 6 60)), .ret 0 [.bool true],
      .call 0 (.op (.erase 4)), .ret 0 [.bool true], .iterated 1 [(4, 40)]] : List (Event Nat)) := by
  refine ⟨?_, ?_⟩
  · have hx : (exec 4 2 i0 (cut 4 5)).map (·.2) = some [.call 0 (.op (.insert 4 40)), .ret 0 [.bool true], .call 0 (.op (.insert 6 60)), .ret 0 [.bool true],
      .call 0 (.op (.erase 4)), .ret 0 [.bool true], .iterated 1 [(4, 40)]] := by decide +kernel
    obtain ⟨q, h1, h2⟩ := map_some' hx
    exact ⟨q.1, by rw [h1, h2]⟩
  · intro h
    obtain ⟨_, h⟩ := C117_spec_sequential (fun _ => rfl) h
    obtain ⟨_, h⟩ := C117_spec_sequential (fun _ => rfl) h
    obtain ⟨_, h⟩ := C117_spec_sequential (fun _ => rfl) h
    cases h with
    | effect hst _ => cases hst
    | iterated hp _ _ => exact absurd (hp.mem_iff.mp (List.mem_singleton.mpr rfl)) (by decide)

/-- **C127 is false without the lock: an entry is seen twice.** -/
theorem C127_refuted_twice : (exec 4 2 i0 (lift (whole 0 (.op (.insert 4 40)) ++ whole 0 (.op (.insert 6 60))) ++ [.begin 1] ++ List.replicate 7 (.iter 1) ++
      lift (whole 0 (.op (.erase 4)) ++ whole 0 (.op (.insert 4 40))) ++ List.replicate 12 (.iter 1))).map (fun q => q.2.getLast?) =
    some (some (.iterated 1 [(4, 40), (6, 60), (4, 40)])) := by decide +kernel

/-- **C127 is false without the lock: the iteration reads outside of the segment.** Process 0 erases the entry between the two reads of `next` in `operator++`; process 1 goes on with
`objects[-1]`. -/
theorem C127_refuted_ub : (exec 4 2 i0 (cut 5 3)).map (fun q => (q.1.it 1).map (·.pc)) = some (some .ub) := by decide +kernel

end Verif.MapIter
