import Verif.ShmMap.Lemmas
/-
  Properties C47–C50, C52, C53 of shm::hash_map.

  `Init H m`: the state of a map right after `attach` to a zeroed segment or after `clear`.
-/
set_option linter.unusedVariables false
set_option linter.unusedSimpArgs false

namespace Verif.ShmMap

open Verif.ShmPool

variable {V : Type} {N H : Nat}

/-- A fresh map: nothing allocated, no free nodes, every bucket empty.  Nodes contain anything. -/
def Init (H : Nat) (m : Map V) : Prop := m.pool.cur = 0 ∧ m.pool.free.top = NONE ∧ ∀ b, b < H → m.hash b = NONE

/-- the empty map used in the examples -/
def m0 : Map Nat := { pool := ⟨0, ⟨NONE, fun _ => 77⟩⟩, key := fun _ => 5, val := fun _ => 99, next := fun _ => 13, hash := fun _ => NONE }

theorem m0_init (H : Nat) : Init H m0 := ⟨rfl, rfl, fun _ _ => rfl⟩

theorem run_rep (hN : N < NONE) (hH : 0 < H) : ∀ (ops : List (Op V)) {m : Map V} {f : Nat → List Nat} {fr : List Nat} {l : Spec.Bindings V},
    Rep N H m f fr 0 l → ∃ m' f' fr', run N H m ops = .ok (m', (Spec.run N l ops).2) ∧ Rep N H m' f' fr' 0 (Spec.run N l ops).1 := by
  intro ops
  induction ops with
  | nil => intro m f fr l h; exact ⟨m, f, fr, rfl, h⟩
  | cons op ops ih =>
    intro m f fr l h
    have hL : Spec.stepL N 0 l op = ((Spec.step N l op).1, 0, (Spec.step N l op).2) := by cases op <;> rfl
    obtain ⟨m1, f1, fr1, e1, h1⟩ := step_spec hN hH h op
    rw [hL] at e1 h1
    obtain ⟨m2, f2, fr2, e2, h2⟩ := ih h1
    refine ⟨m2, f2, fr2, ?_, h2⟩
    simp only [run, e1, Res.ok_bind, e2, Spec.run]

/-! ## C47: a finite map -/

/-- **C47.** Any sequence of read, insert, erase, clear and size on a fresh map returns exactly what a finite map of capacity `N` returns
(`Spec.run`), for every capacity and number of buckets. -/
theorem C47_finite_map (hN : N < 2 ^ 31) (hH : 0 < H) (m : Map V) (hm : Init H m) (ops : List (Op V)) :
    ∃ m', run N H m ops = .ok (m', (Spec.run N [] ops).2) := by
  obtain ⟨m', _, _, e, _⟩ := run_rep (by unfold NONE; omega) hH ops (rep_init (N := N) (H := H) m hm.1 hm.2.1 hm.2.2)
  exact ⟨m', e⟩

/-- Two entries, two buckets: colliding keys, a full map, reuse of a freed node. -/
example : ((run 2 2 m0 [.insert 4 40, .insert 6 60, .insert 8 80, .insert 4 41, .read 4, .read 6, .erase 4, .erase 4, .insert 8 81,
    .read 8, .read 4, .read 6, .size, .clear, .read 6, .size]).map (·.2)) =
    .ok [.bool true, .bool true, .bool false, .bool true, .val (some 41), .val (some 60), .bool true, .bool false, .bool true,
      .val (some 81), .val none, .val (some 60), .num 2, .unit, .val none, .num 0] := by decide

/-! ## the specification is the finite map of the English text -/

/-- After any history, the value of `k` in the specification is decided by the last event that concerns `k`. -/
theorem C47_spec_last (N : Nat) (l : Spec.Bindings V) (k k' : UInt64) (v : V) :
    Spec.lookup (Spec.bind l k v) k' = (if k' = k then some v else Spec.lookup l k') ∧
    Spec.lookup (Spec.unbind l k) k' = (if k' = k then none else Spec.lookup l k') ∧
    (Spec.has l k ↔ (Spec.lookup l k).isSome) := by
  refine ⟨?_, ?_, ?_⟩
  · unfold Spec.bind
    by_cases hh : Spec.has l k
    · rw [if_pos hh]
      unfold Spec.has at hh
      unfold Spec.lookup
      induction l with
      | nil => simp at hh
      | cons p l ih =>
        rw [List.map_cons, List.find?_cons, List.find?_cons]
        by_cases hp : p.1 = k
        · rw [if_pos hp]
          by_cases hk : k' = k
          · subst hk; simp [hp]
          · rw [if_neg hk]
            have h1 : ¬ k = k' := fun h => hk h.symm
            have h2 : ¬ p.1 = k' := fun h => hk (by rw [← h, hp])
            simp only [h1, h2, decide_false]
            by_cases hm : k ∈ l.map (·.1)
            · have := ih hm; rw [if_neg hk] at this; exact this
            · rw [List.map_congr_left (g := id), List.map_id]
              intro q hq
              rw [if_neg]; · rfl
              rintro rfl; exact hm (List.mem_map.mpr ⟨q, hq, rfl⟩)
        · rw [if_neg hp]
          have hm : k ∈ l.map (·.1) := by
            rw [List.map_cons, List.mem_cons] at hh
            rcases hh with h | h
            · exact absurd h.symm hp
            · exact h
          have := ih hm
          by_cases hk : k' = k
          · rw [if_pos hk] at this ⊢
            have h2 : ¬ p.1 = k' := fun h => hp (by rw [h, hk])
            simp only [h2, decide_false]
            exact this
          · rw [if_neg hk] at this ⊢
            by_cases h2 : p.1 = k'
            · simp [h2]
            · simp only [h2, decide_false]
              exact this
    · rw [if_neg hh]
      unfold Spec.lookup
      rw [List.find?_cons]
      by_cases hk : k' = k
      · subst hk; simp
      · have h1 : ¬ k = k' := fun h => hk h.symm
        simp [h1, hk]
  · unfold Spec.lookup Spec.unbind
    induction l with
    | nil => simp
    | cons p l ih =>
      rw [List.filter_cons, List.find?_cons]
      by_cases hp : p.1 = k
      · simp only [hp, ne_eq, not_true_eq_false, decide_false, Bool.false_eq_true, if_false]
        rw [ih]
        by_cases hk : k' = k
        · rw [if_pos hk, if_pos hk]
        · have h1 : ¬ k = k' := fun h => hk h.symm
          rw [if_neg hk, if_neg hk]
          simp [h1]
      · simp only [ne_eq, hp, not_false_eq_true, decide_true, if_true]
        rw [List.find?_cons]
        by_cases h2 : p.1 = k'
        · have : ¬ k' = k := fun h => hp (by rw [h2, h])
          simp [h2, this]
        · simp only [h2, decide_false]
          exact ih
  · unfold Spec.has Spec.lookup
    rw [Option.isSome_map, List.find?_isSome]
    simp only [List.mem_map, decide_eq_true_eq]

/-! ## C48: capacity -/

/-- **C48.** After any history, an `insert` fails exactly when its key cannot be read and `size()` is `capacity()`; a failed insert leaves
the shared memory as it was; `size()` is the number of bindings, never more than `capacity()`. -/
theorem C48_capacity (hN : N < 2 ^ 31) (hH : 0 < H) (m : Map V) (hm : Init H m) (ops : List (Op V)) (m' : Map V) (rs : List (Ret V))
    (hr : run N H m ops = .ok (m', rs)) (k : UInt64) (v : V) :
    ∃ m'' r, insert N H m' k v = .ok (m'', r) ∧
      (r = false ↔ unprotected_read N H m' k = .ok none ∧ size m' = capacity N) ∧ (r = false → m'' = m') ∧
      size m' = (Spec.run N [] ops).1.length ∧ size m' ≤ capacity N := by
  have hN' : N < NONE := by unfold NONE; omega
  obtain ⟨m1, f, fr, e, h⟩ := run_rep hN' hH ops (rep_init (N := N) (H := H) m hm.1 hm.2.1 hm.2.2)
  rw [hr] at e
  simp only [Res.ok.injEq, Prod.mk.injEq] at e
  obtain ⟨rfl, rfl⟩ := e
  obtain ⟨m'', r, f', fr', e, hcase⟩ := insert_done hN' hH h k v
  have hs := size_spec hN' h
  have hcl := count_le h.pool
  rw [h.length] at hcl
  have hrd := read_spec hN' hH h k
  refine ⟨m'', r, e, ?_, ?_, by omega, by unfold capacity; omega⟩
  · rw [hrd, hs]
    unfold capacity
    rcases hcase with ⟨rfl, hh, _⟩ | ⟨rfl, h1, h2, _, _⟩
    · simp only [Bool.true_eq_false, false_iff, Res.ok.injEq, not_and]
      intro hno
      rcases hh with hh | hh
      · rw [(C47_spec_last N _ k k v).2.2, hno] at hh; simp at hh
      · omega
    · simp only [Res.ok.injEq, true_iff]
      exact ⟨lookup_none h1, h2⟩
  · rcases hcase with ⟨rfl, _, _⟩ | ⟨rfl, h1, h2, h3, _⟩
    · simp
    · intro _; exact h3

example : ∃ m' rs, run 2 2 m0 [.insert 4 40, .insert 6 60] = .ok (m', rs) ∧ size m' = 2 ∧
    (insert 2 2 m' 8 80).map (·.2) = .ok false ∧ (insert 2 2 m' 6 61).map (·.2) = .ok true := ⟨_, _, rfl, by decide, by decide, by decide⟩

/-! ## C49: iteration -/

/-- **C49.** After any history, the loop from `begin()` to `end()` ends after at most `capacity()` steps and yields a permutation of the
bindings: every stored key exactly once, with its current value. -/
theorem C49_iteration (hN : N < 2 ^ 31) (hH : 0 < H) (m : Map V) (hm : Init H m) (ops : List (Op V)) (m' : Map V) (rs : List (Ret V))
    (hr : run N H m ops = .ok (m', rs)) :
    ∃ l, iterate N H m' (capacity N) (begin_ H m') = .ok l ∧ (l.map (·.1)).Nodup ∧ l.Perm (Spec.run N [] ops).1 ∧
      ∀ k v, (k, v) ∈ l ↔ unprotected_read N H m' k = .ok (some v) := by
  have hN' : N < NONE := by unfold NONE; omega
  obtain ⟨m1, f, fr, e, h⟩ := run_rep hN' hH ops (rep_init (N := N) (H := H) m hm.1 hm.2.1 hm.2.2)
  rw [hr] at e
  simp only [Res.ok.injEq, Prod.mk.injEq] at e
  obtain ⟨rfl, rfl⟩ := e
  refine ⟨_, begin_spec hN' h, ?_, h.abs.symm, ?_⟩
  · rw [List.map_map]; exact h.keys
  · intro k v
    rw [read_spec hN' hH h k, ← h.abs.mem_iff, Res.ok.injEq]
    constructor
    · exact lookup_mem h.keysL
    · intro hl
      unfold Spec.lookup at hl
      rw [Option.map_eq_some_iff] at hl
      obtain ⟨p, hp, rfl⟩ := hl
      have h1 := List.mem_of_find?_eq_some hp
      have h2 := List.find?_some hp
      simp only [decide_eq_true_eq] at h2
      subst h2; exact h1

example : ∃ m' rs, run 4 3 m0 [.insert 4 40, .insert 6 60, .insert 1 10, .erase 4, .insert 7 70, .insert 6 61] = .ok (m', rs) ∧
    iterate 4 3 m' 4 (begin_ 3 m') = .ok [(6, 61), (1, 10), (7, 70)] := ⟨_, _, rfl, by decide⟩

/-! ## C50: batches -/

/-- **C50, insert.** `insert(pairs, n)` is the sequence of the single inserts, and returns true iff every one of them returned true. -/
theorem C50_insert_batch (hN : N < 2 ^ 31) (hH : 0 < H) (m : Map V) (hm : Init H m) (ops : List (Op V)) (m' : Map V) (rs : List (Ret V))
    (hr : run N H m ops = .ok (m', rs)) (ps : List (UInt64 × V)) :
    ∃ m'', ∃ bs : List Bool, run N H m' (ps.map (fun p => Op.insert p.1 p.2)) = .ok (m'', bs.map Ret.bool) ∧
      insertMany N H m' ps = .ok (m'', bs.all id) := by
  have hN' : N < NONE := by unfold NONE; omega
  obtain ⟨m1, f, fr, e, h⟩ := run_rep hN' hH ops (rep_init (N := N) (H := H) m hm.1 hm.2.1 hm.2.2)
  rw [hr] at e
  simp only [Res.ok.injEq, Prod.mk.injEq] at e
  obtain ⟨rfl, rfl⟩ := e
  have key : ∀ (ps : List (UInt64 × V)) (m : Map V) f fr l, Rep N H m f fr 0 l → ∃ m'' , ∃ bs : List Bool,
      run N H m (ps.map (fun p => Op.insert p.1 p.2)) = .ok (m'', bs.map Ret.bool) ∧
      insertLoop N H m ps = .ok (m'', bs.count true) ∧ bs.length = ps.length := by
    intro ps
    induction ps with
    | nil => intro m f fr l h; exact ⟨m, [], rfl, rfl, rfl⟩
    | cons p ps ih =>
      intro m f fr l h
      obtain ⟨k, v⟩ := p
      obtain ⟨m1, r, f1, fr1, e1, hc⟩ := insert_done hN' hH h k v
      have hrep : ∃ l1, Rep N H m1 f1 fr1 0 l1 := by
        rcases hc with ⟨_, _, h⟩ | ⟨_, _, _, _, h⟩
        · exact ⟨_, h⟩
        · exact ⟨_, h⟩
      obtain ⟨l1, h1⟩ := hrep
      obtain ⟨m2, bs, e2, e3, e4⟩ := ih m1 f1 fr1 l1 h1
      refine ⟨m2, r :: bs, ?_, ?_, by simp [e4]⟩
      · simp only [List.map_cons, run, step, e1, Res.ok_bind, e2]
      · simp only [insertLoop, e1, Res.ok_bind, e3]
        cases r <;> simp [Nat.add_comm]
  obtain ⟨m2, bs, e2, e3, e4⟩ := key ps m' f fr _ h
  refine ⟨m2, bs, e2, ?_⟩
  simp only [insertMany, e3, Res.ok_bind, ← e4]
  congr 2
  rw [Bool.eq_iff_iff, beq_iff_eq, List.count_eq_length, List.all_eq_true]
  constructor
  · intro h b hb; exact (h b hb).symm
  · intro h b hb; exact (h b hb).symm

/-- **C50, erase.** -/
theorem C50_erase_batch (hN : N < 2 ^ 31) (hH : 0 < H) (m : Map V) (hm : Init H m) (ops : List (Op V)) (m' : Map V) (rs : List (Ret V))
    (hr : run N H m ops = .ok (m', rs)) (ks : List UInt64) :
    ∃ m'', ∃ bs : List Bool, run N H m' (ks.map Op.erase) = .ok (m'', bs.map Ret.bool) ∧ eraseMany N H m' ks = .ok (m'', bs.all id) := by
  have hN' : N < NONE := by unfold NONE; omega
  obtain ⟨m1, f, fr, e, h⟩ := run_rep hN' hH ops (rep_init (N := N) (H := H) m hm.1 hm.2.1 hm.2.2)
  rw [hr] at e
  simp only [Res.ok.injEq, Prod.mk.injEq] at e
  obtain ⟨rfl, rfl⟩ := e
  have key : ∀ (ks : List UInt64) (m : Map V) f fr l, Rep N H m f fr 0 l → ∃ m'' , ∃ bs : List Bool,
      run N H m (ks.map Op.erase) = .ok (m'', bs.map Ret.bool) ∧ eraseLoop N H m ks = .ok (m'', bs.count true) ∧ bs.length = ks.length := by
    intro ks
    induction ks with
    | nil => intro m f fr l h; exact ⟨m, [], rfl, rfl, rfl⟩
    | cons k ks ih =>
      intro m f fr l h
      obtain ⟨m1, f1, fr1, e1, h1⟩ := erase_done hN' hH h k
      obtain ⟨m2, bs, e2, e3, e4⟩ := ih m1 f1 fr1 _ h1
      refine ⟨m2, decide (Spec.has l k) :: bs, ?_, ?_, by simp [e4]⟩
      · simp only [List.map_cons, run, step, e1, Res.ok_bind, e2]
      · simp only [eraseLoop, e1, Res.ok_bind, e3]
        by_cases hh : Spec.has l k <;> simp [hh, Nat.add_comm]
  obtain ⟨m2, bs, e2, e3, e4⟩ := key ks m' f fr _ h
  refine ⟨m2, bs, e2, ?_⟩
  simp only [eraseMany, e3, Res.ok_bind, ← e4]
  congr 2
  rw [Bool.eq_iff_iff, beq_iff_eq, List.count_eq_length, List.all_eq_true]
  constructor
  · intro h b hb; exact (h b hb).symm
  · intro h b hb; exact (h b hb).symm

example : (insertMany 2 2 m0 [(4, 40), (6, 60), (8, 80), (4, 41)]).map (·.2) = .ok false ∧
    (insertMany 2 2 m0 [(4, 40), (6, 60), (4, 41)]).map (·.2) = .ok true ∧
    (eraseMany 2 2 m0 [4]).map (·.2) = .ok false := by decide

/-! ## C52: killed processes -/

/-- A history in which processes may be killed; results of the completed operations. -/
def runEv (N H : Nat) (m : Map V) : List (Spec.Ev V) → Res (Map V × List (Ret V))
  | [] => .ok (m, [])
  | .done op :: es => do
    let (m, r) ← step N H m op
    let (m, rs) ← runEv N H m es
    .ok (m, r :: rs)
  | .killed op n :: es => do
    let m ← kill N H m op n
    runEv N H m es

/-- The kill points at which the map survives: any in read, insert and size; any in erase but the one between the two writes of
`nodes_pool.free`; none within clear. -/
def Survives (H : Nat) : Spec.Ev V → Prop
  | .done _ => True
  | .killed (.erase _) n => n ≠ 3
  | .killed .clear n => n = 0 ∨ H + 2 ≤ n
  | .killed _ _ => True

/-- **C52, the part that holds.** If no process is killed between the two writes of `free_nodes.push` in `erase` or inside `clear`, then
in every history with any number of killed processes all completed operations behave like a finite map in which a killed operation took
effect completely or not at all; each killed operation costs at most one entry of capacity, until the next `clear`.
Missing: the kill point between `++current` and `data[current] = x` of the stack's push, at which the statement is false
(`C52_refuted_erase`), and kills inside `clear` (`C52_refuted_clear`). -/
theorem C52_killed_partial (hN : N < 2 ^ 31) (hH : 0 < H) (m : Map V) (hm : Init H m) (es : List (Spec.Ev V))
    (hs : ∀ e ∈ es, Survives H e) :
    ∃ m' rs, runEv N H m es = .ok (m', rs) ∧ Spec.Sees N 0 [] es rs := by
  have hN' : N < NONE := by unfold NONE; omega
  have key : ∀ (es : List (Spec.Ev V)), (∀ e ∈ es, Survives H e) → ∀ (m : Map V) f fr lk l, Rep N H m f fr lk l →
      ∃ m' rs, runEv N H m es = .ok (m', rs) ∧ Spec.Sees N lk l es rs := by
    intro es
    induction es with
    | nil => intro _ m f fr lk l h; exact ⟨m, [], rfl, .nil⟩
    | cons e es ih =>
      intro hs m f fr lk l h
      have hs' := fun e he => hs e (List.mem_cons_of_mem _ he)
      have hse := hs e (by simp)
      cases e with
      | done op =>
        obtain ⟨m1, f1, fr1, e1, h1⟩ := step_spec hN' hH h op
        obtain ⟨m2, rs, e2, h2⟩ := ih hs' m1 f1 fr1 _ _ h1
        exact ⟨m2, _, by simp only [runEv, e1, Res.ok_bind, e2], .done h2⟩
      | killed op n =>
        obtain ⟨m1, f1, fr1, lk1, l1, e1, h1, hl, hlk⟩ := kill_spec hN' hH h op n
          (by intro k hk; subst hk; exact hse) (by intro hk; subst hk; exact hse)
        obtain ⟨m2, rs, e2, h2⟩ := ih hs' m1 f1 fr1 _ _ h1
        exact ⟨m2, rs, by simp only [runEv, e1, Res.ok_bind, e2], .killed hl hlk h2⟩
  exact key es hs m _ _ 0 [] (rep_init m hm.1 hm.2.1 hm.2.2)

/-- An insert killed before it links its node and an erase killed before it frees its node: two entries lost, the map intact. -/
example : (runEv 4 2 m0 [.done (.insert 4 40), .done (.insert 6 60), .killed (.insert 8 80) 4, .killed (.erase 4) 2, .done (.read 4),
    .done (.read 6), .done (.read 8), .done .size, .done (.insert 8 81), .done (.read 8), .done (.insert 9 1)]).map (·.2) =
    .ok [.bool true, .bool true, .val none, .val (some 60), .val none, .num 3, .bool true, .val (some 81), .bool false] := by decide

/-- **C52 is false at one kill point.** Bindings 4→40 and 6→60 are stored.  A process is killed inside `erase(6)` after three writes, between
`++current` and `data[current] = x` of `free_nodes.push`; the slot still holds node 0, left by an earlier erase.  The next `insert(9)`
is given node 0, which belongs to key 4: the binding of key 4, which nobody touched, is gone. -/
theorem C52_refuted_erase :
    (runEv 2 2 m0 [.done (.insert 5 50), .done (.erase 5), .done (.insert 4 40), .done (.insert 6 60), .done (.read 4),
      .killed (.erase 6) 3, .done (.insert 9 90), .done (.read 4)]).map (·.2) =
    .ok [.bool true, .bool true, .bool true, .bool true, .val (some 40), .bool true, .val none] := by decide

/-- With one bucket the same kill point makes the chain cyclic: the `read` after the `insert` never ends (the model gives up after more
nodes than there are). -/
theorem C52_refuted_erase_loop :
    (runEv 2 1 m0 [.done (.insert 5 50), .done (.erase 5), .done (.insert 4 40), .done (.insert 6 60),
      .killed (.erase 6) 3, .done (.insert 9 90)]).map (·.2) = .ok [.bool true, .bool true, .bool true, .bool true, .bool true] ∧
    runEv 2 1 m0 [.done (.insert 5 50), .done (.erase 5), .done (.insert 4 40), .done (.insert 6 60),
      .killed (.erase 6) 3, .done (.insert 9 90), .done (.read 4)] = .ub := ⟨by decide, rfl⟩

/-- **A kill inside `clear` corrupts the map**: after `nodes_pool.clear()` and before the buckets are reset the old entries are still
found, but their nodes are handed out again: `insert(8)` overwrites the entry of key 4, and 4 is gone although 6 is still there. -/
theorem C52_refuted_clear :
    (runEv 2 1 m0 [.done (.insert 4 40), .done (.insert 6 60), .killed .clear 2, .done (.read 4), .done (.read 6), .done .size,
      .done (.insert 8 80), .done (.read 4)]).map (·.2) =
    .ok [.bool true, .bool true, .val (some 40), .val (some 60), .num 0, .bool true, .val none] := by decide

/-! ## C53: attach -/

/-- A segment initialised by `attach` with parameters `N' H' tsz' nsz'`. -/
def Initialised (N' H' tsz' nsz' : Nat) (s : Seg V) : Prop :=
  s.objects_num = N' ∧ s.item_size = tsz' ∧ s.hash_size = H' ∧ s.pool.reserved = N' ∧ s.pool.item_size = nsz' ∧
  s.pool.free.reserved = N' ∧ s.pool.free.item_size = 4

/-- A segment whose headers are zero. -/
def Zeroed (s : Seg V) : Prop :=
  s.objects_num = 0 ∧ s.item_size = 0 ∧ s.hash_size = 0 ∧ s.pool.reserved = 0 ∧ s.pool.item_size = 0 ∧
  s.pool.free.reserved = 0 ∧ s.pool.free.item_size = 0

/-- **C53, map.** Attaching to a zeroed segment yields the fresh, empty map and an initialised segment; attaching to an initialised segment
never changes it and throws iff the parameters differ. -/
theorem C53_map_attach (N H tsz nsz : Nat) (s : Seg V) :
    (Zeroed s → (attach N H tsz nsz s).2 = false ∧ Init H (attach N H tsz nsz s).1.map ∧
      Initialised N H tsz nsz (attach N H tsz nsz s).1) ∧
    (∀ N' H' tsz' nsz', 0 < tsz' → 0 < nsz' → Initialised N' H' tsz' nsz' s →
      attach N H tsz nsz s = (s, !(decide (N = N' ∧ H = H' ∧ tsz = tsz' ∧ nsz = nsz')))) := by
  refine ⟨?_, ?_⟩
  · rintro ⟨h1, h2, h3, h4, h5, h6, h7⟩
    unfold attach pattach sattach Init Initialised Seg.map PoolSeg.pool
    simp only [h1, h2, h3, h4, h5, h6, h7, and_self, if_true]
    refine ⟨rfl, ⟨rfl, rfl, fun b hb => ?_⟩, by simp⟩
    exact if_pos hb
  · rintro N' H' tsz' nsz' ht hn ⟨h1, h2, h3, h4, h5, h6, h7⟩
    unfold attach
    rw [if_neg (by omega)]
    by_cases hd : N ≠ s.objects_num ∨ tsz ≠ s.item_size ∨ H ≠ s.hash_size
    · rw [if_pos hd]
      have : ¬ (N = N' ∧ H = H' ∧ tsz = tsz' ∧ nsz = nsz') := by omega
      simp [this]
    · rw [if_neg hd]
      unfold pattach sattach
      rw [if_neg (by omega), if_neg (by omega)]
      simp only [Bool.false_eq_true, if_false]
      rw [if_neg (by omega)]
      by_cases h8 : N ≠ s.pool.reserved ∨ nsz ≠ s.pool.item_size
      · rw [if_pos h8]
        have : ¬ (N = N' ∧ H = H' ∧ tsz = tsz' ∧ nsz = nsz') := by omega
        simp [this]
      · rw [if_neg h8]
        have : N = N' ∧ H = H' ∧ tsz = tsz' ∧ nsz = nsz' := by omega
        rw [decide_eq_true this]; rfl

/-- a zeroed segment -/
def seg0 : Seg Nat :=
  { objects_num := 0, item_size := 0, hash_size := 0, pool := ⟨0, 0, 0, ⟨0, 0, 0, fun _ => 0⟩⟩, key := fun _ => 0, val := fun _ => 0,
    next := fun _ => 0, hash := fun _ => 0 }

example : Zeroed seg0 ∧ (attach 4 3 8 24 (attach 4 3 8 24 seg0).1).2 = false ∧ (attach 4 5 8 24 (attach 4 3 8 24 seg0).1).2 = true :=
  ⟨⟨rfl, rfl, rfl, rfl, rfl, rfl, rfl⟩, by decide, by decide⟩

end Verif.ShmMap
