import Verif.MapThrow.Spec
import Verif.ShmMap.Lemmas

namespace Verif.MapThrow
open Verif.ShmPool Verif.ShmMap Verif.RwLock

variable {V : Type} {N H : Nat}

/-- Nobody holds the lock. -/
def Free (s : State V) : Prop := s.sem = ⟨0, 0⟩ ∧ ∀ i, s.adj i = ⟨0, 0⟩

theorem lock_read_free : semop ⟨0, 0⟩ ⟨0, 0⟩ lock_read_rw = some (⟨1, 0⟩, ⟨-1, 0⟩) := by decide +kernel
theorem unlock_read_free : semop ⟨1, 0⟩ ⟨-1, 0⟩ unlock_read_rw = some (⟨0, 0⟩, ⟨0, 0⟩) := by decide +kernel
theorem lock_write_free : semop ⟨0, 0⟩ ⟨0, 0⟩ lock_write_rw = some (⟨0, 1⟩, ⟨0, -1⟩) := by decide +kernel
theorem unlock_write_free : semop ⟨0, 1⟩ ⟨0, -1⟩ unlock_write_rw = some (⟨0, 0⟩, ⟨0, 0⟩) := by decide +kernel

theorem lock_free (op : Op V) : ∃ sem a, semop ⟨0, 0⟩ ⟨0, 0⟩ (lockOf op) = some (sem, a) ∧ semop sem a (unlockOf op) = some (⟨0, 0⟩, ⟨0, 0⟩) := by
  cases op with
  | read k => exact ⟨_, _, lock_read_free, unlock_read_free⟩
  | size => exact ⟨_, _, lock_read_free, unlock_read_free⟩
  | insert k v => exact ⟨_, _, lock_write_free, unlock_write_free⟩
  | erase k => exact ⟨_, _, lock_write_free, unlock_write_free⟩
  | clear => exact ⟨_, _, lock_write_free, unlock_write_free⟩

theorem put_self {α : Type} (f : Nat → α) (i : Nat) (x : α) (h : f i = x) : put f i x = f := by
  funext j
  unfold put
  split
  · subst j; exact h.symm
  · rfl

theorem put_put {α : Type} (f : Nat → α) (i : Nat) (x y : α) : put (put f i x) i y = put f i y := by
  funext j
  unfold put
  split <;> rfl

theorem call_free (hN : N < NONE) (hH : 0 < H) {s : State V} (hf : Free s) {f : Nat → List Nat} {fr : List Nat} {lk : Nat} {l : ShmMap.Spec.Bindings V}
    (h : Rep N H s.map f fr lk l) (i : Nat) (op : Op V) :
    ∃ s' f' fr', call N H s i op = .ok (s', .ret (ShmMap.Spec.stepL N lk l op).2.2) ∧ Free s' ∧
      Rep N H s'.map f' fr' (ShmMap.Spec.stepL N lk l op).2.1 (ShmMap.Spec.stepL N lk l op).1 := by
  obtain ⟨sem, a, h1, h2⟩ := lock_free op
  obtain ⟨m', f', fr', e, h'⟩ := step_spec hN hH h op
  refine ⟨⟨⟨0, 0⟩, put s.adj i ⟨0, 0⟩, m'⟩, f', fr', ?_, ⟨rfl, ?_⟩, h'⟩
  · unfold call
    rw [hf.1, hf.2 i, h1]
    simp only [e, Res.ok_bind, h2]
  · rw [put_self _ _ _ (hf.2 i)]; exact hf.2

/-- The writes of an insert whose assignment throws. -/
theorem throw_spec (hN : N < NONE) (hH : 0 < H) {m : Map V} {f : Nat → List Nat} {fr : List Nat} {lk : Nat} {l : ShmMap.Spec.Bindings V}
    (h : Rep N H m f fr lk l) (k : UInt64) (part : V) :
    ∃ r ws, unprotected_insert N H m k part = .ok (r, ws) ∧
      ((ShmMap.Spec.has l k ∧ copies ws = true ∧ ∃ m', applyM N H m (upto ws) = .ok m' ∧ Rep N H m' f fr lk (ShmMap.Spec.bind l k part)) ∨
       (¬ ShmMap.Spec.has l k ∧ l.length + lk < N ∧ copies ws = true ∧ ∃ m' fr', applyM N H m (upto ws) = .ok m' ∧ Rep N H m' f fr' (lk + 1) l) ∨
       (¬ ShmMap.Spec.has l k ∧ ¬ l.length + lk < N ∧ copies ws = false)) := by
  have hb := Nat.mod_lt k.toNat hH
  have hm : ∀ i ∈ f (k.toNat % H), i ∈ nodes H f := fun i hi => mem_nodes.mpr ⟨_, hb, hi⟩
  have hch := h.chain _ hb
  have hcnt := h.pool.count
  rw [List.length_append, h.length] at hcnt
  have hcl := count_le h.pool
  rw [h.length] at hcl
  have new : ∀ (hk : ¬ ShmMap.Spec.has l k) (last : Nat → Wr V), ∃ r ws,
      (do let (new_node, ws) ← allocate N m.pool
          if new_node = NONE then .ok (false, ws.map .pool)
          else .ok (true, ws.map .pool ++ [.key new_node k, .val new_node part, .next new_node NONE, last new_node]) : Res (Bool × List (Wr V))) = .ok (r, ws) ∧
      ((ShmMap.Spec.has l k ∧ copies ws = true ∧ ∃ m', applyM N H m (upto ws) = .ok m' ∧ Rep N H m' f fr lk (ShmMap.Spec.bind l k part)) ∨
       (¬ ShmMap.Spec.has l k ∧ l.length + lk < N ∧ copies ws = true ∧ ∃ m' fr', applyM N H m (upto ws) = .ok m' ∧ Rep N H m' f fr' (lk + 1) l) ∨
       (¬ ShmMap.Spec.has l k ∧ ¬ l.length + lk < N ∧ copies ws = false)) := by
    intro hk last
    rcases allocate_spec hN h.pool with ⟨rfl, hcur, e⟩ | ⟨nn, w, p', e, e', hnn, hnew, hp⟩
    · refine ⟨false, [], ?_, Or.inr (Or.inr ⟨hk, ?_, rfl⟩)⟩
      · rw [e, Res.ok_bind]
        dsimp only
        rw [if_pos rfl]; rfl
      · simp only [List.length_nil] at hcnt; omega
    · have hp' : ∃ fr', PRep N p' (nn :: nodes H f) fr' lk := by
        rcases hp with ⟨_, _, hp⟩ | ⟨fr', _, _, hp⟩
        · exact ⟨_, hp⟩
        · exact ⟨_, hp⟩
      obtain ⟨fr', hp'⟩ := hp'
      have hroom : l.length + lk < N := by
        have := count_le hp'
        rw [List.length_cons, h.length] at this; omega
      have ew := applyM_pool (H := H) m w p' e'
      let m1 : Map V := { m with pool := p' }
      let m2 : Map V := { m1 with key := put m1.key nn k }
      let m3 : Map V := { m2 with val := put m2.val nn part }
      have w1 : (Wr.pool w : Wr V).apply N H m = .ok m1 := ew
      have w2 : (Wr.key nn k : Wr V).apply N H m1 = .ok m2 := by simp [Wr.apply, hnn, m2]
      have w3 : (Wr.val nn part : Wr V).apply N H m2 = .ok m3 := by simp [Wr.apply, hnn, m3]
      have hleak := PRep_leak hp'
      have hne : ∀ i ∈ nodes H f, i ≠ nn := fun i hi hh => hnew (hh ▸ hi)
      have r1 : Rep N H m1 f fr' (lk + 1) l := rep_same h hleak (fun _ _ => rfl) (fun _ _ => rfl) (fun _ _ => rfl) rfl
      have r2 : Rep N H m2 f fr' (lk + 1) l := rep_same r1 hleak (fun i hi => put_ne _ _ (hne i hi)) (fun _ _ => rfl) (fun _ _ => rfl) rfl
      have r3 : Rep N H m3 f fr' (lk + 1) l := rep_same r2 hleak (fun _ _ => rfl) (fun i hi => put_ne _ _ (hne i hi)) (fun _ _ => rfl) rfl
      refine ⟨true, [.pool w, .key nn k, .val nn part, .next nn NONE, last nn], ?_, Or.inr (Or.inl ⟨hk, hroom, rfl, m3, fr', ?_, r3⟩)⟩
      · rw [e, Res.ok_bind]
        dsimp only
        rw [if_neg (by omega)]; rfl
      · simp [upto, applyM, w1, w2, w3]
  unfold unprotected_insert
  rw [if_neg (by omega)]
  dsimp only
  by_cases hne : f (k.toNat % H) = []
  · have he : m.hash (k.toNat % H) = NONE := by rw [hne] at hch; exact hch
    have hk : ¬ ShmMap.Spec.has l k := by rw [h.has_iff hH, hne]; simp
    rw [if_neg (by rw [he]; simp)]
    exact new hk (fun nn => .hash (k.toNat % H) nn)
  · have he : m.hash (k.toNat % H) ≠ NONE := by
      cases hf : f (k.toNat % H) with
      | nil => exact absurd hf hne
      | cons x xs =>
        rw [hf] at hch
        rw [hch.1]
        have := h.lt (hm x (by rw [hf]; simp)); omega
    rw [if_pos he]
    rcases findLast_spec (k := k) hN hch (fun i hi => h.lt (hm i hi)) (by have := h.len_le hb; omega : _ ≤ N + 1) hne
      with ⟨i, hi, hki, e⟩ | ⟨hno, xs, lst, hl, e⟩
    · rw [e, Res.ok_bind]
      dsimp only
      rw [if_pos rfl]
      have hhas : ShmMap.Spec.has l k := (h.has_iff hH k).mpr ⟨i, hi, hki⟩
      exact ⟨true, _, rfl, Or.inl ⟨hhas, rfl, { m with val := put m.val i part }, by simp [upto, applyM, Wr.apply, h.lt (hm i hi)], rep_val h (hm i hi) hki⟩⟩
    · rw [e, Res.ok_bind]
      dsimp only
      rw [if_neg (by simp)]
      have hk : ¬ ShmMap.Spec.has l k := by
        rw [h.has_iff hH]
        rintro ⟨i, hi, hki⟩
        exact hno i hi hki
      exact new hk (fun nn => .next lst nn)

theorem lookup_isSome {l : ShmMap.Spec.Bindings V} {k : UInt64} : (ShmMap.Spec.lookup l k).isSome = true ↔ ShmMap.Spec.has l k := by
  unfold ShmMap.Spec.lookup ShmMap.Spec.has
  rw [Option.isSome_map, List.find?_isSome, List.mem_map]
  simp

/-- The lock is held for writing by process `i`. -/
def Writing (i : Nat) (s : State V) : Prop := s.sem = ⟨0, 1⟩ ∧ s.adj i = ⟨0, -1⟩ ∧ ∀ j, j ≠ i → s.adj j = ⟨0, 0⟩

/-- The lock is held for reading by process `i`, and by nobody else. -/
def Reading (i : Nat) (s : State V) : Prop := s.sem = ⟨1, 0⟩ ∧ s.adj i = ⟨-1, 0⟩ ∧ ∀ j, j ≠ i → s.adj j = ⟨0, 0⟩

/-- A call in which the assignment throws: what follows. -/
theorem throws_free (hN : N < NONE) (hH : 0 < H) {s : State V} (hf : Free s) {f : Nat → List Nat} {fr : List Nat} {lk : Nat} {l : ShmMap.Spec.Bindings V}
    (h : Rep N H s.map f fr lk l) (i : Nat) (op : Op V) (part : V) :
    ∃ s' f' fr', throws N H s i op part = .ok (s', (Spec.step N lk l (.thrown i op part)).2.2) ∧
      Rep N H s'.map f' fr' (Spec.step N lk l (.thrown i op part)).2.1 (Spec.step N lk l (.thrown i op part)).1 ∧
      (((Spec.step N lk l (.thrown i op part)).2.2 ≠ .exc ∧ Free s') ∨
       ((Spec.step N lk l (.thrown i op part)).2.2 = .exc ∧ ((∃ k v, op = .insert k v ∧ Writing i s') ∨ (∃ k, op = .read k ∧ Reading i s')))) := by
  have other : ∀ op' : Op V, ∃ s' f' fr', call N H s i op' = .ok (s', .ret (ShmMap.Spec.stepL N lk l op').2.2) ∧
      Rep N H s'.map f' fr' (ShmMap.Spec.stepL N lk l op').2.1 (ShmMap.Spec.stepL N lk l op').1 ∧ Free s' := by
    intro op'
    obtain ⟨s', f', fr', a1, a2, a3⟩ := call_free hN hH hf h i op'
    exact ⟨s', f', fr', a1, a3, a2⟩
  have hother : ∀ j, j ≠ i → ∀ x, put s.adj i x j = ⟨0, 0⟩ := fun j hj x => by rw [put_ne _ _ hj]; exact hf.2 j
  cases op with
  | insert k v =>
    obtain ⟨r, ws, e, hc⟩ := throw_spec hN hH h k part
    unfold throws
    simp only [hf.1, hf.2 i, lock_write_free, e, Res.ok_bind]
    rcases hc with ⟨h1, h2, m', e1, r1⟩ | ⟨h1, h2, h3, m', fr', e1, r1⟩ | ⟨h1, h2, h3⟩
    · rw [h2, if_pos rfl, e1, Res.ok_bind]
      unfold Spec.step
      simp only [if_pos h1]
      exact ⟨_, f, fr, rfl, r1, Or.inr ⟨trivial, Or.inl ⟨k, v, rfl, rfl, put_eq _ _ _, fun j hj => hother j hj _⟩⟩⟩
    · rw [h3, if_pos rfl, e1, Res.ok_bind]
      unfold Spec.step
      simp only [if_neg h1, if_pos h2]
      exact ⟨_, f, fr', rfl, r1, Or.inr ⟨trivial, Or.inl ⟨k, v, rfl, rfl, put_eq _ _ _, fun j hj => hother j hj _⟩⟩⟩
    · rw [h3, if_neg (by decide)]
      obtain ⟨s', f', fr', a1, a2, a3⟩ := other (.insert k v)
      have hl : ¬ (ShmMap.Spec.has l k ∨ l.length < N - lk) := by
        rintro (h | h)
        · exact h1 h
        · omega
      have hs : ShmMap.Spec.stepL N lk l (.insert k v) = (l, lk, .bool false) := by
        simp [ShmMap.Spec.stepL, ShmMap.Spec.step, hl]
      rw [hs] at a1 a2
      unfold Spec.step
      simp only [if_neg h1, if_neg h2]
      exact ⟨s', f', fr', a1, a2, Or.inl ⟨by simp, a3⟩⟩
  | read k =>
    unfold throws
    simp only [hf.1, hf.2 i, lock_read_free, read_spec hN hH h, Res.ok_bind]
    by_cases hk : ShmMap.Spec.has l k
    · rw [if_pos (lookup_isSome.mpr hk)]
      unfold Spec.step
      simp only [if_pos hk]
      exact ⟨_, f, fr, rfl, h, Or.inr ⟨trivial, Or.inr ⟨k, rfl, rfl, put_eq _ _ _, fun j hj => hother j hj _⟩⟩⟩
    · rw [if_neg (by rw [lookup_isSome]; exact hk)]
      obtain ⟨s', f', fr', a1, a2, a3⟩ := other (.read k)
      have hs : ShmMap.Spec.stepL N lk l (.read k) = (l, lk, .val none) := by
        simp [ShmMap.Spec.stepL, ShmMap.Spec.step, lookup_none hk]
      rw [hs] at a1 a2
      unfold Spec.step
      simp only [if_neg hk]
      exact ⟨s', f', fr', a1, a2, Or.inl ⟨by simp, a3⟩⟩
  | erase k =>
    obtain ⟨s', f', fr', a1, a2, a3⟩ := other (.erase k)
    exact ⟨s', f', fr', a1, a2, Or.inl ⟨by simp [Spec.step], a3⟩⟩
  | clear =>
    obtain ⟨s', f', fr', a1, a2, a3⟩ := other .clear
    exact ⟨s', f', fr', a1, a2, Or.inl ⟨by simp [Spec.step], a3⟩⟩
  | size =>
    obtain ⟨s', f', fr', a1, a2, a3⟩ := other .size
    exact ⟨s', f', fr', a1, a2, Or.inl ⟨by simp [Spec.step], a3⟩⟩

theorem undo_zero : undo ⟨0, 0⟩ ⟨0, 0⟩ = ⟨0, 0⟩ ∧ undo ⟨0, 1⟩ ⟨0, -1⟩ = ⟨0, 0⟩ ∧ undo ⟨1, 0⟩ ⟨-1, 0⟩ = ⟨0, 0⟩ ∧ undo ⟨0, 1⟩ ⟨0, 0⟩ = ⟨0, 1⟩ ∧
    undo ⟨1, 0⟩ ⟨0, 0⟩ = ⟨1, 0⟩ := by decide +kernel

/-- After the end of the process nobody holds the lock. -/
theorem ends_free {s : State V} {i : Nat} (h : Free s ∨ Writing i s ∨ Reading i s) : Free (ends s i) := by
  have hput : ∀ j, (∀ j, j ≠ i → s.adj j = ⟨0, 0⟩) → put s.adj i ⟨0, 0⟩ j = (⟨0, 0⟩ : Vals) := by
    intro j h
    by_cases hj : j = i
    · subst hj; exact put_eq _ _ _
    · rw [put_ne _ _ hj]; exact h j hj
  rcases h with ⟨h1, h2⟩ | ⟨h1, h2, h3⟩ | ⟨h1, h2, h3⟩
  · refine ⟨?_, fun j => hput j (fun j _ => h2 j)⟩
    unfold ends; simp only [h1, h2 i]; exact undo_zero.1
  · refine ⟨?_, fun j => hput j h3⟩
    unfold ends; simp only [h1, h2]; exact undo_zero.2.1
  · refine ⟨?_, fun j => hput j h3⟩
    unfold ends; simp only [h1, h2]; exact undo_zero.2.2.1

theorem run_append (s : State V) (as bs : List (Ev V)) :
    run N H s (as ++ bs) = (run N H s as >>= fun (s, rs) => run N H s bs >>= fun (s, rs') => .ok (s, rs ++ rs')) := by
  induction as generalizing s with
  | nil =>
    simp only [List.nil_append, run, Res.ok_bind]
    cases run N H s bs with
    | ub => rfl
    | ok p => rfl
  | cons a as ih =>
    cases a with
    | call i op =>
      simp only [List.cons_append, run]
      cases call N H s i op with
      | ub => rfl
      | ok p =>
        simp only [Res.ok_bind, ih]
        cases run N H p.1 as with
        | ub => rfl
        | ok q =>
          simp only [Res.ok_bind]
          cases run N H q.1 bs with
          | ub => rfl
          | ok r => rfl
    | throws i op part =>
      simp only [List.cons_append, run]
      cases throws N H s i op part with
      | ub => rfl
      | ok p =>
        simp only [Res.ok_bind, ih]
        cases run N H p.1 as with
        | ub => rfl
        | ok q =>
          simp only [Res.ok_bind]
          cases run N H q.1 bs with
          | ub => rfl
          | ok r => rfl
    | ends i =>
      simp only [List.cons_append, run, ih]

/-- Histories of blocks. -/
theorem run_blocks (hN : N < NONE) (hH : 0 < H) : ∀ (bs : List (Spec.Block V)) {s : State V} {f : Nat → List Nat} {fr : List Nat} {lk : Nat} {l : ShmMap.Spec.Bindings V},
    Free s → Rep N H s.map f fr lk l →
    ∃ s' f' fr', run N H s (bs.flatMap Spec.evs) = .ok (s', (Spec.run N lk l bs).2.2) ∧ Free s' ∧
      Rep N H s'.map f' fr' (Spec.run N lk l bs).2.1 (Spec.run N lk l bs).1
  | [], s, f, fr, lk, l, hf, h => ⟨s, f, fr, rfl, hf, h⟩
  | .call i op :: bs, s, f, fr, lk, l, hf, h => by
    obtain ⟨s1, f1, fr1, a1, a2, a3⟩ := call_free hN hH hf h i op
    obtain ⟨s2, f2, fr2, b1, b2, b3⟩ := run_blocks hN hH bs a2 a3
    refine ⟨s2, f2, fr2, ?_, b2, b3⟩
    simp only [List.flatMap_cons, Spec.evs, List.cons_append, List.nil_append, run, a1, Res.ok_bind, b1]
    rfl
  | .thrown i op part :: bs, s, f, fr, lk, l, hf, h => by
    obtain ⟨s1, f1, fr1, a1, a2, a3⟩ := throws_free hN hH hf h i op part
    have hfr : Free (ends s1 i) := by
      apply ends_free
      rcases a3 with ⟨_, a⟩ | ⟨_, ⟨_, _, _, a⟩ | ⟨_, _, a⟩⟩
      · exact Or.inl a
      · exact Or.inr (Or.inl a)
      · exact Or.inr (Or.inr a)
    obtain ⟨s2, f2, fr2, b1, b2, b3⟩ := run_blocks hN hH bs hfr (show Rep N H (ends s1 i).map f1 fr1 _ _ from a2)
    refine ⟨s2, f2, fr2, ?_, b2, b3⟩
    simp only [List.flatMap_cons, Spec.evs, List.cons_append, List.nil_append, run, a1, Res.ok_bind, b1]
    rfl

/-- While the lock is held for writing, every call waits. -/
theorem writing_waits (i : Nat) : ∀ (es : List (Ev V)) {s : State V}, Writing i s → (∀ e ∈ es, ∀ j, e = .ends j → j ≠ i) →
    ∃ s', run N H s es = .ok (s', List.replicate (Spec.calls es) .waits)
  | [], s, _, _ => ⟨s, rfl⟩
  | e :: es, s, h, he => by
    have hlock : ∀ (j : Nat) (op : Op V), semop s.sem (s.adj j) (lockOf op) = none := by
      intro j op
      have : s.adj j = ⟨0, -1⟩ ∨ s.adj j = ⟨0, 0⟩ := by
        by_cases hj : j = i
        · subst hj; exact Or.inl h.2.1
        · exact Or.inr (h.2.2 j hj)
      rcases this with hz | hz <;> rw [h.1, hz] <;> cases op <;> simp [lockOf, lock_read_rw, lock_write_rw, semop, semop1, Vals.get, Vals.set]
    have hcall : ∀ (j : Nat) (op : Op V), call N H s j op = .ok (s, .waits) := by
      intro j op; unfold call; rw [hlock]
    have hes : ∀ e ∈ es, ∀ j, e = .ends j → j ≠ i := fun e h' => he e (List.mem_cons_of_mem _ h')
    cases e with
    | call j op =>
      obtain ⟨s', e'⟩ := writing_waits i es h hes
      refine ⟨s', ?_⟩
      simp only [run, hcall, Res.ok_bind, e', Spec.calls, List.countP_cons]
      simp [List.replicate_succ]
    | throws j op part =>
      obtain ⟨s', e'⟩ := writing_waits i es h hes
      have ht : throws N H s j op part = .ok (s, .waits) := by
        unfold throws
        cases op with
        | insert k v => have := hlock j (.insert k v); simp only [lockOf] at this; simp only [this]
        | read k => have := hlock j (.read k); simp only [lockOf] at this; simp only [this]
        | erase k => exact hcall _ _
        | clear => exact hcall _ _
        | size => exact hcall _ _
      refine ⟨s', ?_⟩
      simp only [run, ht, Res.ok_bind, e', Spec.calls, List.countP_cons]
      simp [List.replicate_succ]
    | ends j =>
      have hj : j ≠ i := he _ (List.mem_cons_self ..) j rfl
      have hw : Writing i (ends s j) := by
        refine ⟨?_, ?_, fun j' hj' => ?_⟩
        · unfold ends; simp only [h.1, h.2.2 j hj]; exact undo_zero.2.2.2.1
        · unfold ends; simp only; rw [put_ne _ _ (Ne.symm hj)]; exact h.2.1
        · unfold ends; simp only
          by_cases hjj : j' = j
          · subst hjj; exact put_eq _ _ _
          · rw [put_ne _ _ hjj]; exact h.2.2 j' hj'
      obtain ⟨s', e'⟩ := writing_waits i es hw hes
      refine ⟨s', ?_⟩
      simp only [run, e', Spec.calls, List.countP_cons]
      simp

/-- A call that changes the map. -/
def changes : Ev V → Bool
  | .call _ (.read _) => false
  | .call _ .size => false
  | .throws _ (.read _) _ => false
  | .throws _ .size _ => false
  | _ => true

/-- While the lock is held for reading, every call that changes the map waits. -/
theorem reading_waits (i : Nat) : ∀ (es : List (Ev V)) {s : State V}, Reading i s → (∀ e ∈ es, changes e = true) → (∀ e ∈ es, ∀ j, e = .ends j → j ≠ i) →
    ∃ s', run N H s es = .ok (s', List.replicate (Spec.calls es) .waits)
  | [], s, _, _, _ => ⟨s, rfl⟩
  | e :: es, s, h, hch, he => by
    have hlock : ∀ (j : Nat), semop s.sem (s.adj j) lock_write_rw = none := by
      intro j
      rw [h.1]
      simp [lock_write_rw, semop, semop1, Vals.get]
    have hes : ∀ e ∈ es, ∀ j, e = .ends j → j ≠ i := fun e h' => he e (List.mem_cons_of_mem _ h')
    have hes' : ∀ e ∈ es, changes e = true := fun e h' => hch e (List.mem_cons_of_mem _ h')
    have hc0 := hch e (List.mem_cons_self ..)
    cases e with
    | call j op =>
      obtain ⟨s', e'⟩ := reading_waits i es h hes' hes
      have hcall : call N H s j op = .ok (s, .waits) := by
        unfold call
        cases op with
        | read k => cases hc0
        | size => cases hc0
        | insert k v => simp only [lockOf, hlock]
        | erase k => simp only [lockOf, hlock]
        | clear => simp only [lockOf, hlock]
      refine ⟨s', ?_⟩
      simp only [run, hcall, Res.ok_bind, e', Spec.calls, List.countP_cons]
      simp [List.replicate_succ]
    | throws j op part =>
      obtain ⟨s', e'⟩ := reading_waits i es h hes' hes
      have ht : throws N H s j op part = .ok (s, .waits) := by
        unfold throws
        cases op with
        | insert k v => simp only [hlock]
        | read k => cases hc0
        | erase k => simp only [call, lockOf, hlock]
        | clear => simp only [call, lockOf, hlock]
        | size => cases hc0
      refine ⟨s', ?_⟩
      simp only [run, ht, Res.ok_bind, e', Spec.calls, List.countP_cons]
      simp [List.replicate_succ]
    | ends j =>
      have hj : j ≠ i := he _ (List.mem_cons_self ..) j rfl
      have hw : Reading i (ends s j) := by
        refine ⟨?_, ?_, fun j' hj' => ?_⟩
        · unfold ends; simp only [h.1, h.2.2 j hj]; exact undo_zero.2.2.2.2
        · unfold ends; simp only; rw [put_ne _ _ (Ne.symm hj)]; exact h.2.1
        · unfold ends; simp only
          by_cases hjj : j' = j
          · subst hjj; exact put_eq _ _ _
          · rw [put_ne _ _ hjj]; exact h.2.2 j' hj'
      obtain ⟨s', e'⟩ := reading_waits i es hw hes' hes
      refine ⟨s', ?_⟩
      simp only [run, e', Spec.calls, List.countP_cons]
      simp

end Verif.MapThrow
