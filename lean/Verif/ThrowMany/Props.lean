import Verif.ThrowMany.Spec
import Verif.MapThrow.Props
/-
  C190: exceptions of values in insertions of several pairs.
-/
set_option linter.unusedVariables false
set_option linter.unusedSimpArgs false

namespace Verif.ThrowMany
open Verif.ShmPool Verif.ShmMap Verif.RwLock Verif.MapThrow

variable {V : Type} {N H : Nat}

theorem insert_spec (hN : N < NONE) (hH : 0 < H) {m : Map V} {f : Nat → List Nat} {fr : List Nat} {lk : Nat} {l : ShmMap.Spec.Bindings V} (h : Rep N H m f fr lk l) (k : UInt64) (v : V) :
    ∃ m' f' fr', insert N H m k v = .ok (m', decide (ShmMap.Spec.has l k ∨ l.length + lk < N)) ∧
      Rep N H m' f' fr' lk (if ShmMap.Spec.has l k ∨ l.length + lk < N then ShmMap.Spec.bind l k v else l) := by
  obtain ⟨m', f', fr', e, r⟩ := step_spec hN hH h (.insert k v)
  have hlt : (l.length < N - lk) ↔ (l.length + lk < N) := by omega
  simp only [ShmMap.Spec.stepL, ShmMap.Spec.step, hlt] at e r
  simp only [ShmMap.step] at e
  cases hi : insert N H m k v with
  | ub => rw [hi] at e; cases e
  | ok q =>
    obtain ⟨m1, b⟩ := q
    rw [hi] at e
    simp only [Res.ok_bind, Res.ok.injEq, Prod.mk.injEq] at e
    obtain ⟨rfl, e⟩ := e
    refine ⟨m1, f', fr', ?_, ?_⟩
    · by_cases c : ShmMap.Spec.has l k ∨ l.length + lk < N
      · rw [if_pos c] at e; simp at e; simp [e, c]
      · rw [if_neg c] at e; simp at e; simp [e, c]
    · by_cases c : ShmMap.Spec.has l k ∨ l.length + lk < N
      · rw [if_pos c] at r ⊢; exact r
      · rw [if_neg c] at r ⊢; exact r

theorem loop_spec (hN : N < NONE) (hH : 0 < H) : ∀ (ps : List (UInt64 × V)) {m : Map V} {f : Nat → List Nat} {fr : List Nat} {lk : Nat} {l : ShmMap.Spec.Bindings V}, Rep N H m f fr lk l →
    ∃ m' f' fr' c, insertLoop N H m ps = .ok (m', c) ∧ c ≤ ps.length ∧ (c = ps.length ↔ (Spec.insertAll N lk l ps).2 = true) ∧ Rep N H m' f' fr' lk (Spec.insertAll N lk l ps).1
  | [], m, f, fr, lk, l, h => ⟨m, f, fr, 0, rfl, Nat.le_refl _, by simp [Spec.insertAll], h⟩
  | (k, v) :: ps, m, f, fr, lk, l, h => by
    obtain ⟨m1, f1, fr1, e1, r1⟩ := insert_spec hN hH h k v
    obtain ⟨m2, f2, fr2, c, e2, hc, hb, r2⟩ := loop_spec hN hH ps r1
    refine ⟨m2, f2, fr2, (if decide (ShmMap.Spec.has l k ∨ l.length + lk < N) then 1 else 0) + c, ?_, ?_, ?_, ?_⟩
    · simp only [insertLoop, e1, Res.ok_bind, e2]
    · simp only [List.length_cons]; split <;> omega
    · by_cases g : ShmMap.Spec.has l k ∨ l.length + lk < N
      · rw [if_pos g] at hb
        simp only [Spec.insertAll, if_pos g, g, decide_true, if_true, List.length_cons, ← hb]
        omega
      · simp only [Spec.insertAll, if_neg g, g, decide_false, List.length_cons, Bool.false_eq_true, if_false, iff_false]
        omega
    · by_cases g : ShmMap.Spec.has l k ∨ l.length + lk < N
      · rw [if_pos g] at r2; simp only [Spec.insertAll, if_pos g]; exact r2
      · rw [if_neg g] at r2; simp only [Spec.insertAll, if_neg g]; exact r2

theorem many_free (hN : N < NONE) (hH : 0 < H) {s : State V} (hf : Free s) {f : Nat → List Nat} {fr : List Nat} {lk : Nat} {l : ShmMap.Spec.Bindings V}
    (h : Rep N H s.map f fr lk l) (i : Nat) (ps : List (UInt64 × V)) :
    ∃ s' f' fr', callMany N H s i ps = .ok (s', .ret (.bool (Spec.insertAll N lk l ps).2)) ∧ Free s' ∧ Rep N H s'.map f' fr' lk (Spec.insertAll N lk l ps).1 := by
  obtain ⟨m', f', fr', c, e, hc, hb, r⟩ := loop_spec hN hH ps h
  refine ⟨⟨⟨0, 0⟩, put s.adj i ⟨0, 0⟩, m'⟩, f', fr', ?_, ⟨rfl, ?_⟩, r⟩
  · unfold callMany
    rw [hf.1, hf.2 i, lock_write_free]
    simp only [insertMany, e, Res.ok_bind, unlock_write_free, Res.ok.injEq, Prod.mk.injEq, true_and, Reply.ret.injEq, Ret.bool.injEq]
    rw [Bool.eq_iff_iff, beq_iff_eq]
    exact hb
  · intro j
    show put s.adj i ⟨0, 0⟩ j = _
    rw [put_self _ _ _ (hf.2 i)]
    exact hf.2 j

theorem throwsMany_free (hN : N < NONE) (hH : 0 < H) {s : State V} (hf : Free s) {f : Nat → List Nat} {fr : List Nat} {lk : Nat} {l : ShmMap.Spec.Bindings V}
    (h : Rep N H s.map f fr lk l) (i : Nat) (ps : List (UInt64 × V)) (j : Nat) (part : V) :
    ∃ s' f' fr', throwsMany N H s i ps j part = .ok (s', (Spec.step N lk l (.thrownMany i ps j part)).2.2) ∧
      Rep N H s'.map f' fr' (Spec.step N lk l (.thrownMany i ps j part)).2.1 (Spec.step N lk l (.thrownMany i ps j part)).1 ∧
      (((Spec.step N lk l (.thrownMany i ps j part)).2.2 ≠ .exc ∧ Free s') ∨ ((Spec.step N lk l (.thrownMany i ps j part)).2.2 = .exc ∧ Writing i s')) := by
  obtain ⟨s1, f1, fr1, a1, a2, a3⟩ := many_free hN hH hf h i ps
  cases hj : ps[j]? with
  | none =>
    simp only [throwsMany, Spec.step, hj]
    exact ⟨s1, f1, fr1, a1, a3, Or.inl ⟨by simp, a2⟩⟩
  | some p =>
    obtain ⟨k, v⟩ := p
    obtain ⟨m1, f2, fr2, c, e, _, _, r⟩ := loop_spec hN hH (ps.take j) h
    obtain ⟨b, ws, e2, hc⟩ := throw_spec hN hH r k part
    have hw : ∀ m', Writing i (⟨⟨0, 1⟩, put s.adj i ⟨0, -1⟩, m'⟩ : State V) := fun m' => ⟨rfl, put_eq _ _ _, fun j' hj' => (put_ne _ _ hj').trans (hf.2 j')⟩
    rcases hc with ⟨g1, g2, m', g3, g4⟩ | ⟨g0, g1, g2, m', fr', g3, g4⟩ | ⟨g0, g1, g2⟩
    · refine ⟨⟨⟨0, 1⟩, put s.adj i ⟨0, -1⟩, m'⟩, f2, fr2, ?_⟩
      simp only [throwsMany, Spec.step, hj, hf.1, hf.2 i, lock_write_free, e, e2, Res.ok_bind, if_pos g1, if_pos g2, g3]
      exact ⟨trivial, g4, Or.inr ⟨trivial, hw m'⟩⟩
    · refine ⟨⟨⟨0, 1⟩, put s.adj i ⟨0, -1⟩, m'⟩, f2, fr', ?_⟩
      simp only [throwsMany, Spec.step, hj, hf.1, hf.2 i, lock_write_free, e, e2, Res.ok_bind, if_neg g0, if_pos g1, if_pos g2, g3]
      exact ⟨trivial, g4, Or.inr ⟨trivial, hw m'⟩⟩
    · refine ⟨s1, f1, fr1, ?_⟩
      have g2' : ¬ copies ws = true := by rw [g2]; simp
      simp only [throwsMany, Spec.step, hj, hf.1, hf.2 i, lock_write_free, e, e2, Res.ok_bind, if_neg g0, if_neg g1, if_neg g2']
      exact ⟨a1, a3, Or.inl ⟨by simp, a2⟩⟩

theorem run_append (s : State V) (as bs : List (EvM V)) :
    run N H s (as ++ bs) = (run N H s as >>= fun (s, rs) => run N H s bs >>= fun (s, rs') => .ok (s, rs ++ rs')) := by
  have bnd : ∀ (x : Res (State V × Reply V)) (as : List (EvM V)), (∀ s, run N H s (as ++ bs) = (run N H s as >>= fun (s, rs) => run N H s bs >>= fun (s, rs') => .ok (s, rs ++ rs'))) →
      (x >>= fun (s, r) => run N H s (as ++ bs) >>= fun (s, rs) => (.ok (s, r :: rs) : Res (State V × List (Reply V)))) =
      ((x >>= fun (s, r) => run N H s as >>= fun (s, rs) => (.ok (s, r :: rs) : Res (State V × List (Reply V)))) >>= fun (s, rs) => run N H s bs >>= fun (s, rs') => .ok (s, rs ++ rs')) := by
    intro x as ih
    cases x with
    | ub => rfl
    | ok q =>
      obtain ⟨s1, r⟩ := q
      simp only [Res.ok_bind, ih]
      cases run N H s1 as with
      | ub => rfl
      | ok q =>
        obtain ⟨s2, rs⟩ := q
        simp only [Res.ok_bind]
        cases run N H s2 bs with
        | ub => rfl
        | ok q => rfl
  induction as generalizing s with
  | nil =>
    simp only [List.nil_append, run, Res.ok_bind]
    cases run N H s bs with
    | ub => rfl
    | ok p => rfl
  | cons e as ih =>
    cases e with
    | one e =>
      cases e with
      | call i op => exact bnd _ as ih
      | throws i op part => exact bnd _ as ih
      | ends i => exact ih _
    | many i ps => exact bnd _ as ih
    | throwsMany i ps j part => exact bnd _ as ih

theorem run_blocks (hN : N < NONE) (hH : 0 < H) : ∀ (bs : List (Spec.Block V)) {s : State V} {f : Nat → List Nat} {fr : List Nat} {lk : Nat} {l : ShmMap.Spec.Bindings V},
    Free s → Rep N H s.map f fr lk l →
    ∃ s' f' fr', run N H s (bs.flatMap Spec.evs) = .ok (s', (Spec.run N lk l bs).2.2) ∧ Free s' ∧ Rep N H s'.map f' fr' (Spec.run N lk l bs).2.1 (Spec.run N lk l bs).1
  | [], s, f, fr, lk, l, hf, h => ⟨s, f, fr, rfl, hf, h⟩
  | .one (.call i op) :: bs, s, f, fr, lk, l, hf, h => by
    obtain ⟨s1, f1, fr1, a1, a2, a3⟩ := call_free hN hH hf h i op
    obtain ⟨s2, f2, fr2, b1, b2, b3⟩ := run_blocks hN hH bs a2 a3
    refine ⟨s2, f2, fr2, ?_, b2, b3⟩
    simp only [List.flatMap_cons, Spec.evs, MapThrow.Spec.evs, List.map_cons, List.map_nil, List.cons_append, List.nil_append, run, a1, Res.ok_bind, b1]
    rfl
  | .one (.thrown i op part) :: bs, s, f, fr, lk, l, hf, h => by
    obtain ⟨s1, f1, fr1, a1, a2, a3⟩ := throws_free hN hH hf h i op part
    have hfr : Free (ends s1 i) := by
      apply ends_free
      rcases a3 with ⟨_, a⟩ | ⟨_, ⟨_, _, _, a⟩ | ⟨_, _, a⟩⟩
      · exact Or.inl a
      · exact Or.inr (Or.inl a)
      · exact Or.inr (Or.inr a)
    obtain ⟨s2, f2, fr2, b1, b2, b3⟩ := run_blocks hN hH bs hfr (show Rep N H (ends s1 i).map f1 fr1 _ _ from a2)
    refine ⟨s2, f2, fr2, ?_, b2, b3⟩
    simp only [List.flatMap_cons, Spec.evs, MapThrow.Spec.evs, List.map_cons, List.map_nil, List.cons_append, List.nil_append, run, a1, Res.ok_bind, b1]
    rfl
  | .many i ps :: bs, s, f, fr, lk, l, hf, h => by
    obtain ⟨s1, f1, fr1, a1, a2, a3⟩ := many_free hN hH hf h i ps
    obtain ⟨s2, f2, fr2, b1, b2, b3⟩ := run_blocks hN hH bs a2 a3
    refine ⟨s2, f2, fr2, ?_, b2, b3⟩
    simp only [List.flatMap_cons, Spec.evs, List.cons_append, List.nil_append, run, a1, Res.ok_bind, b1]
    rfl
  | .thrownMany i ps j part :: bs, s, f, fr, lk, l, hf, h => by
    obtain ⟨s1, f1, fr1, a1, a2, a3⟩ := throwsMany_free hN hH hf h i ps j part
    have hfr : Free (ends s1 i) := by
      apply ends_free
      rcases a3 with ⟨_, a⟩ | ⟨_, a⟩
      · exact Or.inl a
      · exact Or.inr (Or.inl a)
    obtain ⟨s2, f2, fr2, b1, b2, b3⟩ := run_blocks hN hH bs hfr (show Rep N H (ends s1 i).map f1 fr1 _ _ from a2)
    refine ⟨s2, f2, fr2, ?_, b2, b3⟩
    simp only [List.flatMap_cons, Spec.evs, List.cons_append, List.nil_append, run, a1, Res.ok_bind, b1]
    rfl

/-- While the lock is held for writing, every call waits. -/
theorem writing_waits (i : Nat) : ∀ (es : List (EvM V)) {s : State V}, Writing i s → (∀ j, .one (.ends j) ∈ es → j ≠ i) →
    ∃ s', run N H s es = .ok (s', List.replicate (Spec.calls es) .waits)
  | [], s, _, _ => ⟨s, rfl⟩
  | e :: es, s, h, he => by
    have hes : ∀ j, .one (.ends j) ∈ es → j ≠ i := fun j h' => he j (List.mem_cons_of_mem _ h')
    have hlock : ∀ j, semop s.sem (s.adj j) lock_write_rw = none := by
      intro j
      have : s.adj j = ⟨0, -1⟩ ∨ s.adj j = ⟨0, 0⟩ := by
        by_cases hj : j = i
        · subst hj; exact Or.inl h.2.1
        · exact Or.inr (h.2.2 j hj)
      rcases this with hz | hz <;> rw [h.1, hz] <;> simp [lock_write_rw, semop, semop1, Vals.get, Vals.set]
    have hmany : ∀ j ps, callMany N H s j ps = .ok (s, .waits) := by intro j ps; unfold callMany; rw [hlock]
    cases e with
    | one e =>
      have key := MapThrow.writing_waits (N := N) (H := H) i [e] h (by
        intro e' he' j hj
        simp only [List.mem_singleton] at he'
        exact he j (by rw [← hj, he']; exact List.mem_cons_self ..))
      obtain ⟨s1, k1⟩ := key
      cases e with
      | call j op =>
        simp only [MapThrow.run] at k1
        cases hc : call N H s j op with
        | ub => rw [hc] at k1; cases k1
        | ok q =>
          obtain ⟨s2, r⟩ := q
          rw [hc] at k1
          simp [MapThrow.Spec.calls] at k1
          have hs : s2 = s := by
            have hl : semop s.sem (s.adj j) (lockOf op) = none := by
              have : s.adj j = ⟨0, -1⟩ ∨ s.adj j = ⟨0, 0⟩ := by
                by_cases hj : j = i
                · subst hj; exact Or.inl h.2.1
                · exact Or.inr (h.2.2 j hj)
              rcases this with hz | hz <;> rw [h.1, hz] <;> cases op <;> simp [lockOf, lock_read_rw, lock_write_rw, semop, semop1, Vals.get, Vals.set]
            unfold call at hc; rw [hl] at hc; cases hc; rfl
          subst hs
          obtain ⟨s', e'⟩ := writing_waits i es h hes
          refine ⟨s', ?_⟩
          simp only [run, hc, Res.ok_bind, e', Spec.calls, List.countP_cons, k1.2]
          simp [List.replicate_succ]
      | throws j op part =>
        have hl : ∀ op : Op V, semop s.sem (s.adj j) (lockOf op) = none := by
          intro op
          have : s.adj j = ⟨0, -1⟩ ∨ s.adj j = ⟨0, 0⟩ := by
            by_cases hj : j = i
            · subst hj; exact Or.inl h.2.1
            · exact Or.inr (h.2.2 j hj)
          rcases this with hz | hz <;> rw [h.1, hz] <;> cases op <;> simp [lockOf, lock_read_rw, lock_write_rw, semop, semop1, Vals.get, Vals.set]
        have hcall : ∀ op : Op V, call N H s j op = .ok (s, .waits) := by intro op; unfold call; rw [hl]
        have ht : throws N H s j op part = .ok (s, .waits) := by
          unfold throws
          cases op with
          | insert k v => have := hl (.insert k v); simp only [lockOf] at this; simp only [this]
          | read k => have := hl (.read k); simp only [lockOf] at this; simp only [this]
          | erase k => exact hcall _
          | clear => exact hcall _
          | size => exact hcall _
        obtain ⟨s', e'⟩ := writing_waits i es h hes
        refine ⟨s', ?_⟩
        simp only [run, ht, Res.ok_bind, e', Spec.calls, List.countP_cons]
        simp [List.replicate_succ]
      | ends j =>
        have hj : j ≠ i := he j (List.mem_cons_self ..)
        have hw : Writing i (ends s j) := by
          refine ⟨?_, ?_, fun j' hj' => ?_⟩
          · unfold ends; simp only [h.1, h.2.2 j hj]; exact undo_zero.2.2.2.1
          · unfold ends; simp only; rw [put_ne _ _ (Ne.symm hj)]; exact h.2.1
          · unfold ends; simp only
            by_cases hjj : j' = j
            · subst hjj; exact put_eq _ _ _
            · rw [put_ne _ _ hjj]; exact h.2.2 j' hj'
        obtain ⟨s', e'⟩ := writing_waits i es hw hes
        refine ⟨s', ?_⟩
        simp only [run, e', Spec.calls, List.countP_cons]
        simp
    | many j ps =>
      obtain ⟨s', e'⟩ := writing_waits i es h hes
      refine ⟨s', ?_⟩
      simp only [run, hmany, Res.ok_bind, e', Spec.calls, List.countP_cons]
      simp [List.replicate_succ]
    | throwsMany j ps k part =>
      have ht : throwsMany N H s j ps k part = .ok (s, .waits) := by
        unfold throwsMany
        cases ps[k]? with
        | none => exact hmany _ _
        | some p => simp only [hlock]
      obtain ⟨s', e'⟩ := writing_waits i es h hes
      refine ⟨s', ?_⟩
      simp only [run, ht, Res.ok_bind, e', Spec.calls, List.countP_cons]
      simp [List.replicate_succ]

/-! ## The theorems -/

/-- **C190, processes that end.** Histories of single calls and of `insert(pairs, n)` in any number of processes; each process in which the assignment of a value throws ends at once.  Then no
call waits, and all replies are those of the finite map in which an `insert(pairs, n)` that throws at pair `j` has bound the pairs before `j`.  Missing: processes that go on
(`C190_refuted`), all or nothing (`C190_refuted_part`). -/
theorem C190_ended_partial (hN : N < 2 ^ 31) (hH : 0 < H) (s : State V) (hs : Start H s) (bs : List (Spec.Block V)) :
    ∃ s', run N H s (bs.flatMap Spec.evs) = .ok (s', (Spec.run N 0 [] bs).2.2) := by
  obtain ⟨s', _, _, h, _, _⟩ := run_blocks (N := N) (by unfold NONE; omega) hH bs ⟨hs.1, hs.2.1⟩ (rep_init s.map hs.2.2.1 hs.2.2.2.1 hs.2.2.2.2)
  exact ⟨s', h⟩

/-- **C190 is false for processes that go on.** After every history, when the assignment of the value of some pair throws in `insert(pairs, n)` and the process goes on, every later call of every
process, that one included, waits until that process ends. -/
theorem C190_refuted (hN : N < 2 ^ 31) (hH : 0 < H) (s : State V) (hs : Start H s) (bs : List (Spec.Block V)) (i : Nat) (ps : List (UInt64 × V)) (j : Nat) (part : V) (es : List (EvM V))
    (hx : (Spec.step N (Spec.run N 0 [] bs).2.1 (Spec.run N 0 [] bs).1 (.thrownMany i ps j part)).2.2 = .exc) (he : ∀ j, .one (.ends j) ∈ es → j ≠ i) :
    ∃ s', run N H s (bs.flatMap Spec.evs ++ .throwsMany i ps j part :: es) = .ok (s', (Spec.run N 0 [] bs).2.2 ++ .exc :: List.replicate (Spec.calls es) .waits) := by
  have hN' : N < NONE := by unfold NONE; omega
  obtain ⟨s', f, fr, h1, h2, h3⟩ := run_blocks (N := N) hN' hH bs ⟨hs.1, hs.2.1⟩ (rep_init s.map hs.2.2.1 hs.2.2.2.1 hs.2.2.2.2)
  obtain ⟨s1, f1, fr1, a1, a2, a3⟩ := throwsMany_free hN' hH h2 h3 i ps j part
  rw [hx] at a1 a3
  rcases a3 with ⟨a, _⟩ | ⟨_, a⟩
  · exact absurd rfl a
  · obtain ⟨s2, e⟩ := writing_waits (N := N) (H := H) i es a he
    refine ⟨s2, ?_⟩
    rw [run_append, h1]
    simp only [Res.ok_bind, run, a1, e]

theorem spec_append : ∀ (as bs : List (Spec.Block V)) (lk : Nat) (l : ShmMap.Spec.Bindings V),
    (Spec.run N lk l (as ++ bs)).2.2 = (Spec.run N lk l as).2.2 ++ (Spec.run N (Spec.run N lk l as).2.1 (Spec.run N lk l as).1 bs).2.2
  | [], bs, lk, l => rfl
  | a :: as, bs, lk, l => by
    simp only [List.cons_append, Spec.run, List.cons.injEq, true_and]
    exact spec_append as bs _ _

/-- **C190 is false: neither all nor nothing.** After every history with room for two more entries, `insert(pairs, 2)` of two new keys in which the assignment of the second value throws leaves
the first pair in the map and the second one out, and `size` grows by two, although the process ended. -/
theorem C190_refuted_part (hN : N < 2 ^ 31) (hH : 0 < H) (s : State V) (hs : Start H s) (bs : List (Spec.Block V)) (i j : Nat) (k1 k2 : UInt64) (v1 v2 part : V) (hk : k1 ≠ k2)
    (h1 : ¬ ShmMap.Spec.has (Spec.run N 0 [] bs).1 k1) (h2 : ¬ ShmMap.Spec.has (Spec.run N 0 [] bs).1 k2)
    (hroom : (Spec.run N 0 [] bs).1.length + (Spec.run N 0 [] bs).2.1 + 2 ≤ N) :
    ∃ (n : Nat) (s' : State V), run N H s (bs.flatMap Spec.evs ++
        [.one (.call j .size), .throwsMany i [(k1, v1), (k2, v2)] 1 part, .one (.ends i), .one (.call j (.read k1)), .one (.call j (.read k2)), .one (.call j .size)]) =
      .ok (s', (Spec.run N 0 [] bs).2.2 ++ [.ret (.num n), .exc, .ret (.val (some v1)), .ret (.val none), .ret (.num (n + 2))]) := by
  obtain ⟨s', e⟩ := C190_ended_partial hN hH s hs (bs ++ [.one (.call j .size), .thrownMany i [(k1, v1), (k2, v2)] 1 part, .one (.call j (.read k1)), .one (.call j (.read k2)), .one (.call j .size)])
  rw [spec_append] at e
  generalize (Spec.run N 0 [] bs).1 = l at *
  generalize (Spec.run N 0 [] bs).2.1 = lk at *
  have hb : ShmMap.Spec.bind l k1 v1 = (k1, v1) :: l := by unfold ShmMap.Spec.bind; rw [if_neg h1]
  have hn2 : ¬ ShmMap.Spec.has ((k1, v1) :: l) k2 := by
    unfold ShmMap.Spec.has at *
    simp only [List.map_cons, List.mem_cons]
    rintro (g | g)
    · exact hk g.symm
    · exact h2 g
  have hl1 : ShmMap.Spec.lookup ((k1, v1) :: l) k1 = some v1 := by
    unfold ShmMap.Spec.lookup
    simp
  have hl2 : ShmMap.Spec.lookup ((k1, v1) :: l) k2 = none := by
    unfold ShmMap.Spec.lookup
    rw [Option.map_eq_none_iff, List.find?_eq_none]
    intro x hx g
    exact hn2 (by unfold ShmMap.Spec.has; exact List.mem_map.mpr ⟨x, hx, by simpa using g⟩)
  have c1 : ShmMap.Spec.has l k1 ∨ l.length + lk < N := Or.inr (by omega)
  have c2 : l.length + 1 + lk < N := by omega
  refine ⟨l.length + lk, s', ?_⟩
  simp only [List.flatMap_append, List.flatMap_cons, List.flatMap_nil, Spec.evs, MapThrow.Spec.evs, List.map_cons, List.map_nil, List.cons_append, List.nil_append, List.append_nil] at e
  rw [e]
  simp only [Spec.run, Spec.step, MapThrow.Spec.step, ShmMap.Spec.stepL, ShmMap.Spec.step, List.getElem?_cons_succ, List.getElem?_cons_zero, List.take_succ_cons, List.take_zero, Spec.insertAll,
    if_pos c1, hb, if_neg hn2, List.length_cons, if_pos c2, hl1, hl2, List.length_cons, List.length_nil]
  have : l.length + 1 + (lk + 1) = l.length + lk + 2 := by omega
  rw [this]

/-- `C190_refuted` and `C190_refuted_part` apply, in a map of three entries in which key 5 is bound: the second pair of the call is the one that throws. -/
example : (Spec.step 3 (Spec.run 3 0 [] [.one (.call 0 (.insert 5 (50 : Nat)))]).2.1 (Spec.run 3 0 [] [.one (.call 0 (.insert 5 (50 : Nat)))]).1 (.thrownMany 1 [(6, 60), (7, 70)] 1 0)).2.2 = .exc ∧
    ¬ ShmMap.Spec.has (Spec.run 3 0 [] [.one (.call 0 (.insert 5 (50 : Nat)))]).1 6 ∧ ¬ ShmMap.Spec.has (Spec.run 3 0 [] [.one (.call 0 (.insert 5 (50 : Nat)))]).1 7 ∧
    (Spec.run 3 0 [] [.one (.call 0 (.insert 5 (50 : Nat)))]).1.length + (Spec.run 3 0 [] [.one (.call 0 (.insert 5 (50 : Nat)))]).2.1 + 2 ≤ 3 := by decide +kernel

/-- A key that is bound keeps what the assignment left; a pair that does not fit assigns nothing, so that it cannot throw; while the lock is kept everybody waits. -/
example : replies (run 3 2 sx [.many 0 [(5, 50), (6, 60)], .throwsMany 1 [(7, 70), (5, 55), (6, 66)] 1 99, .one (.call 0 .size), .one (.ends 1), .one (.call 0 (.read 5)), .one (.call 0 (.read 6)),
      .one (.call 0 (.read 7)), .throwsMany 2 [(6, 61), (8, 80), (5, 51)] 1 99, .one (.call 0 (.read 5)), .one (.call 0 (.read 8))]) =
    some [.ret (.bool true), .exc, .waits, .ret (.val (some 99)), .ret (.val (some 60)), .ret (.val (some 70)), .ret (.bool false), .ret (.val (some 51)), .ret (.val none)] := by decide +kernel

example : Start 2 sx := ⟨rfl, fun _ => rfl, m0_init 2⟩

end Verif.ThrowMany
