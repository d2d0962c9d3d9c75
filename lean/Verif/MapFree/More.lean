import Verif.MapFree.Props
/-
  Property C186: the process that stores is never held up by the others.
-/
set_option linter.unusedVariables false
set_option linter.unusedSimpArgs false

namespace Verif.MapFree

open Verif.ShmPool Verif.ShmMap Verif.MapSys Verif.MapIter

variable {V : Type} {N H : Nat}

/-- Process `w` has at most `n` steps to go before its result is there, and the others only read. -/
structure Down (N H w n : Nat) (s : FSys V) : Prop where
  quiet : ∀ j pc, j ≠ w → s.pc j = some pc → Quiet pc
  path : ∀ pc, s.pc w = some pc → ∃ ws r, Path N H n s.mem pc ws r

/-- a step of somebody else -/
theorem down_other {w n i : Nat} {s s' : FSys V} {es : List (FEvent V)} (h : Down N H w n s) (hi : i ≠ w) (hs : step N H s (.go i) = some (s', es)) : Down N H w n s' := by
  obtain ⟨pc, hpc, ⟨r, rfl, rfl, rfl⟩ | ⟨hr, rfl, rfl⟩⟩ := go_step hs
  · refine ⟨?_, fun pc hp => h.path pc (by rw [set_other _ _ (fun e => hi e.symm)] at hp; exact hp)⟩
    intro j pc hj hp
    by_cases hji : j = i
    · subst hji; rw [set_self] at hp; cases hp
    · rw [set_other _ _ hji] at hp; exact h.quiet j pc hj hp
  · obtain ⟨g1, g2⟩ := quiet_step (N := N) (H := H) (m := s.mem) (h.quiet i pc hi hpc)
    rw [store_none g1]
    refine ⟨?_, fun pc hp => h.path pc (by rw [set_other _ _ (fun e => hi e.symm)] at hp; exact hp)⟩
    intro j pc hj hp
    by_cases hji : j = i
    · subst hji; rw [set_self] at hp; cases hp; exact g2
    · rw [set_other _ _ hji] at hp; exact h.quiet j pc hj hp

/-- a step of its own: the result is delivered, or there is one step less to go -/
theorem down_own {w n : Nat} {s s' : FSys V} {es : List (FEvent V)} (h : Down N H w n s) (hs : step N H s (.go w) = some (s', es)) :
    (s'.pc w = none ∧ Down N H w 0 s') ∨ ∃ n', n = n' + 1 ∧ Down N H w n' s' := by
  obtain ⟨pc, hpc, ⟨r, rfl, rfl, rfl⟩ | ⟨hr, rfl, rfl⟩⟩ := go_step hs
  · refine Or.inl ⟨set_self _ _ _, fun j pc hj hp => h.quiet j pc hj (by rw [set_other _ _ hj] at hp; exact hp), ?_⟩
    intro pc hp; rw [set_self] at hp; cases hp
  · obtain ⟨ws, r, hp⟩ := h.path pc hpc
    cases hp with
    | ret => exact absurd rfl (hr _)
    | @rd n' _ _ _ _ _ hl he hp' =>
      refine Or.inr ⟨n', rfl, ?_⟩
      rw [store_none (by rw [he])]
      refine ⟨fun j pc hj hp => h.quiet j pc hj (by rw [set_other _ _ hj] at hp; exact hp), ?_⟩
      intro pc hp; rw [set_self] at hp; cases hp
      rw [he]; exact ⟨_, _, hp'⟩
    | @wr n' _ m' _ pc' a ws2 _ hl he ha hp' =>
      refine Or.inr ⟨n', rfl, ?_⟩
      rw [store_ok (by rw [he]) ha]
      refine ⟨fun j pc hj hp => h.quiet j pc hj (by rw [set_other _ _ hj] at hp; exact hp), ?_⟩
      intro pc hp; rw [set_self] at hp; cases hp
      rw [he]; exact ⟨_, _, hp'⟩

theorem down_call {w n i : Nat} {u : Unprot V} {s s' : FSys V} {es : List (FEvent V)} (h : Down N H w n s) (hi : i ≠ w) (hu : ∃ k, u = .read k)
    (hs : step N H s (.call i u) = some (s', es)) : Down N H w n s' := by
  obtain ⟨hn, rfl, rfl⟩ := call_step hs
  obtain ⟨k, rfl⟩ := hu
  refine ⟨?_, fun pc hp => h.path pc (by rw [set_other _ _ (fun e => hi e.symm)] at hp; exact hp)⟩
  intro j pc hj hp
  by_cases hji : j = i
  · subst hji; rw [set_self] at hp; cases hp; trivial
  · rw [set_other _ _ hji] at hp; exact h.quiet j pc hj hp

/-- who is not in a call makes no steps until it calls -/
theorem idle_none {w : Nat} : ∀ (ys : List (FAct V)) {n : Nat} {s s' : FSys V} {es : List (FEvent V)}, s.pc w = none → (∀ u, .call w u ∉ ys) →
    exec N H s ys = some (s', es) → ys.countP (FAct.goOf w) = 0 := by
  intro ys
  induction ys with
  | nil => intro _ s s' es _ _ _; rfl
  | cons x ys ih =>
    intro n s s' es hn hno he
    obtain ⟨s1, es1, es2, hs, hx, rfl⟩ := exec_cons he
    have hno' : ∀ u, FAct.call w u ∉ ys := fun u hm => hno u (List.mem_cons_of_mem _ hm)
    cases x with
    | call i u =>
      have hi : i ≠ w := by rintro rfl; exact hno u (by simp)
      obtain ⟨_, rfl, rfl⟩ := call_step hs
      rw [List.countP_cons_of_neg (by simp [FAct.goOf])]
      exact ih (n := n) (by rw [set_other _ _ (fun e => hi e.symm)]; exact hn) hno' hx
    | go i =>
      have hi : i ≠ w := by
        rintro rfl
        obtain ⟨pc, hpc, _⟩ := go_step hs
        rw [hn] at hpc; cases hpc
      rw [List.countP_cons_of_neg (by simp [FAct.goOf, hi])]
      refine ih (n := n) ?_ hno' hx
      obtain ⟨pc, hpc, ⟨r, rfl, rfl, rfl⟩ | ⟨hr, rfl, rfl⟩⟩ := go_step hs
      · rw [set_other _ _ (fun e => hi e.symm)]; exact hn
      · unfold FSys.store
        split
        · rw [set_other _ _ (fun e => hi e.symm)]; exact hn
        · split
          · rw [set_other _ _ (fun e => hi e.symm)]; exact hn
          · rw [set_other _ _ (fun e => hi e.symm)]; exact hn

theorem down_exec {w : Nat} : ∀ (ys : List (FAct V)) {n : Nat} {s s' : FSys V} {es : List (FEvent V)}, Down N H w n s → OneWriter w ys → (∀ u, .call w u ∉ ys) →
    exec N H s ys = some (s', es) → ys.countP (FAct.goOf w) ≤ n + 1 := by
  intro ys
  induction ys with
  | nil => intro n s s' es _ _ _ _; simp
  | cons x ys ih =>
    intro n s s' es h hw hno he
    obtain ⟨s1, es1, es2, hs, hx, rfl⟩ := exec_cons he
    have hno' : ∀ u, FAct.call w u ∉ ys := fun u hm => hno u (List.mem_cons_of_mem _ hm)
    have hw' : OneWriter w ys := fun j u hm hj => hw j u (List.mem_cons_of_mem _ hm) hj
    cases x with
    | call i u =>
      have hi : i ≠ w := by rintro rfl; exact hno u (by simp)
      rw [List.countP_cons_of_neg (by simp [FAct.goOf])]
      exact ih (down_call h hi (hw i u (by simp) hi) hs) hw' hno' hx
    | go i =>
      by_cases hi : i = w
      · subst hi
        rw [List.countP_cons_of_pos (by simp [FAct.goOf])]
        rcases down_own h hs with ⟨hn, _⟩ | ⟨n', rfl, hd⟩
        · rw [idle_none ys (n := 0) hn hno' hx]; omega
        · have := ih hd hw' hno' hx; omega
      · rw [List.countP_cons_of_neg (by simp [FAct.goOf, hi])]
        exact ih (down_other h hi hs) hw' hno' hx

/-- **C186, the process that stores is never held up.** One process `w` inserts, erases and reads without any lock, all others only read without the lock.  Every call of `w` returns
after at most `2 * capacity + buckets + 14` steps of its own, whatever the others do in between and wherever they stop; and as long as it has not returned its next step is possible.
Missing: a second process that inserts or erases. -/
theorem C186_waitfree_partial (hN : N < 2 ^ 31) (hH : 0 < H) (w : Nat) (s0 s s' : FSys V) (h : Start H s0) (xs ys : List (FAct V)) (hw : OneWriter w (xs ++ ys))
    (es0 es : List (FEvent V)) (he0 : exec N H s0 xs = some (s, es0)) (u : Unprot V) (he : exec N H s (.call w u :: ys) = some (s', es)) (hno : ∀ u, .call w u ∉ ys) :
    ys.countP (FAct.goOf w) ≤ 2 * N + H + 14 ∧ (s'.pc w ≠ none → ∃ s'' es'', step N H s' (.go w) = some (s'', es'')) := by
  have hN' : N < NONE := by unfold NONE; omega
  have hfi := finv_exec hN' hH xs (finv_start h) (fun j u hm hj => hw j u (List.mem_append_left _ hm) hj) he0
  obtain ⟨s1, es1, es2, hs, hx, rfl⟩ := exec_cons he
  obtain ⟨hn, rfl, rfl⟩ := call_step hs
  have hd : Down N H w (bound N H) (s.set w (some (start u.op))) := by
    refine ⟨fun j pc hj hp => hfi.quiet j pc hj (by rw [set_other _ _ hj] at hp; exact hp), ?_⟩
    intro pc hp
    rw [set_self] at hp; cases hp
    have hrep : ∃ f fr l, Rep N H s.mem f fr 0 l := by
      have hown := hfi.own
      rw [hn] at hown
      generalize hq : (none : Option (Pc V)) = q at hown
      generalize ([] : List (Op V)) ++ callsOf w es0 = ops at hown
      generalize ([] : List (Ret V)) ++ retsOf w es0 = rets at hown
      cases hown with
      | @idle _ f fr hr => exact ⟨f, fr, _, hr⟩
      | busy => cases hq
    obtain ⟨f, fr, l, hr⟩ := hrep
    obtain ⟨m', f', fr', h1, h2⟩ := step_spec hN' hH hr u.op
    obtain ⟨ws, _, _, hpath⟩ := op_path h1
    exact ⟨ws, _, hpath⟩
  have hc := down_exec ys hd (fun j u hm hj => hw j u (List.mem_append_right _ hm) hj) hno hx
  refine ⟨by unfold bound at hc; omega, fun hne => ?_⟩
  cases hp : s'.pc w with
  | none => exact absurd hp hne
  | some pc =>
    simp only [step, hp]
    cases pc <;> exact ⟨_, _, rfl⟩

/-- Process 1 begins a read and stops, process 0 makes 10 steps. -/
def mid : List (FAct Nat) := [.call 1 (.read 4), .go 1] ++ goes 10 0

/-- `C186_waitfree_partial` applies: process 1 stops in the middle of a read while process 0 inserts, in 10 steps, in a map of capacity 4 with 2 buckets. -/
example : ∃ s' es, exec 4 2 f0 (.call 0 (.insert 4 40) :: mid) = some (s', es) ∧ answers es = [(0, .bool true)] ∧
    OneWriter 0 mid ∧ mid.countP (FAct.goOf 0) = 10 := by
  have hy : (exec 4 2 f0 (.call 0 (.insert 4 40) :: mid)).map (fun q => decide (answers q.2 = [(0, .bool true)])) = some true := by decide +kernel
  obtain ⟨⟨s', es⟩, e, hm⟩ := map_some' hy
  exact ⟨s', es, e, of_decide_eq_true hm.symm, oneWriter_of (by decide +kernel), by decide +kernel⟩

end Verif.MapFree
