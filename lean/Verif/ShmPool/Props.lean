import Verif.ShmPool.Lemmas

/-
  Properties C45 (shm::stack), C46 (shm::pool) and the stack and pool part of C53 (attach).
-/
namespace Verif.ShmPool

/-! ## C45 -/

/-- **C45.** Take a stack for `N` objects that was just attached to a zeroed header (`*current` = -1, the data block holds anything).
Every sequence of operations that never pops an empty stack stays inside the data block and returns exactly what a list bounded by `N`
returns: `push` succeeds iff fewer than `N` elements are held, `pop` returns the last pushed element, `used` is the number of elements. -/
theorem C45_bounded_lifo {T} (N : Nat) (hN : N < 2 ^ 31) (s : Stk T) (hs : s.top = NONE) (ops : List (SOp T))
    (l : List T) (rs : List (SRet T)) (h : Spec.run N [] ops = some (l, rs)) :
    ∃ s', srun N s ops = .ok (s', rs) ∧ used s' = l.length := by
  have key : ∀ (ops : List (SOp T)) (s : Stk T) (l l' : List T) (rs : List (SRet T)), SRep N s l → Spec.run N l ops = some (l', rs) →
      ∃ s', srun N s ops = .ok (s', rs) ∧ used s' = l'.length := by
    intro ops
    induction ops with
    | nil =>
      intro s l l' rs hr h
      simp only [Spec.run, Option.some.injEq, Prod.mk.injEq] at h
      obtain ⟨rfl, rfl⟩ := h
      exact ⟨s, rfl, hr.used⟩
    | cons op ops ih =>
      intro s l l' rs hr h
      simp only [Spec.run] at h
      cases h1 : Spec.step N l op with
      | none => rw [h1] at h; simp at h
      | some x =>
        obtain ⟨l1, r1⟩ := x
        rw [h1] at h
        dsimp only at h
        cases h2 : Spec.run N l1 ops with
        | none => rw [h2] at h; simp at h
        | some y =>
          obtain ⟨l2, r2⟩ := y
          rw [h2] at h
          simp only [Option.some.injEq, Prod.mk.injEq] at h
          obtain ⟨rfl, rfl⟩ := h
          obtain ⟨s1, e1, hr1⟩ := sstep_spec (by rw [NONE_eq]; omega) hr op h1
          obtain ⟨s2, e2, u2⟩ := ih s1 l1 l2 r2 hr1 h2
          exact ⟨s2, by rw [srun, e1, Res.ok_bind]; simp only [e2, Res.ok_bind], u2⟩
  exact key ops s [] l rs (srep_clear s hs) h

/-- Popping an empty stack reads outside the data block. -/
theorem C45_pop_empty_ub {T} (N : Nat) (hN : N < 2 ^ 31) (s : Stk T) (hs : used s = 0) : sstep N s .pop = .ub := by
  have : s.top = NONE := by
    unfold used at hs
    split at hs
    · assumption
    · omega
  simp only [sstep, pop, this]
  rw [if_neg (by rw [NONE_eq]; omega)]
  rfl

example : Spec.run 2 ([] : List Nat) [.push 1, .push 2, .push 3, .used, .pop, .pop, .empty, .push 4, .pop]
    = some ([], [.bool true, .bool true, .bool false, .num 2, .elem 2, .elem 1, .bool true, .bool true, .elem 4]) := by decide

/-! ## C46 -/

/-- The states a pool and its clients reach: `al` are the objects allocated and not yet freed.  Clients free only allocated objects. -/
inductive Reach (N : Nat) : Pool → List Nat → Prop
  | init (p : Pool) : p.cur = 0 → p.free.top = NONE → Reach N p []
  | alloc {p p' al i} : Reach N p al → allocateAll N p = .ok (i, p') → i ≠ NONE → Reach N p' (i :: al)
  | full {p p' al} : Reach N p al → allocateAll N p = .ok (NONE, p') → Reach N p' al
  | free {p p' al i r} : Reach N p al → i ∈ al → freeAll N p i = .ok (r, p') → Reach N p' (al.erase i)
  | clear {p p' al} : Reach N p al → applyP N p pclear = .ok p' → Reach N p' []

theorem reach_rep {N : Nat} (hN : N < 2 ^ 31) {p al} (h : Reach N p al) : ∃ fr, PRep N p al fr 0 := by
  have hN' : N < NONE := by rw [NONE_eq]; omega
  induction h with
  | init p hc ht => exact ⟨[], prep_clear p ht hc⟩
  | alloc _ h hi ih =>
    obtain ⟨fr, hr⟩ := ih
    rcases allocate_spec hN' hr with ⟨_, _, e⟩ | ⟨j, w, p'', e, e', _, _, h'⟩
    · simp only [allocateAll, e, Res.ok_bind, applyP, Res.ok.injEq, Prod.mk.injEq] at h
      exact absurd h.1.symm hi
    · simp only [allocateAll, e, Res.ok_bind, e', Res.ok.injEq, Prod.mk.injEq] at h
      obtain ⟨rfl, rfl⟩ := h
      rcases h' with ⟨_, _, h'⟩ | ⟨fr', _, _, h'⟩
      · exact ⟨_, h'⟩
      · exact ⟨_, h'⟩
  | full _ h ih =>
    obtain ⟨fr, hr⟩ := ih
    rcases allocate_spec hN' hr with ⟨rfl, _, e⟩ | ⟨j, w, p'', e, e', hj, _, h'⟩
    · simp only [allocateAll, e, Res.ok_bind, applyP, Res.ok.injEq, Prod.mk.injEq] at h
      rw [← h.2]; exact ⟨_, hr⟩
    · simp only [allocateAll, e, Res.ok_bind, e', Res.ok.injEq, Prod.mk.injEq] at h
      omega
  | @free p p' al i r _ hi h ih =>
    obtain ⟨fr, hr⟩ := ih
    obtain ⟨a1, a2, hn, rfl, he⟩ := List.exists_erase_eq hi
    obtain ⟨e, p'', e', _, h'⟩ := free_spec hN' hr
    simp only [freeAll, e, Res.ok_bind, e', Res.ok.injEq, Prod.mk.injEq] at h
    obtain ⟨rfl, rfl⟩ := h
    rw [he]
    exact ⟨_, h'⟩
  | clear _ h ih =>
    simp only [pclear, clear, List.map_cons, List.map_nil, applyP, PWr.apply, SWr.apply, Res.ok_bind, Res.ok.injEq] at h
    subst h
    exact ⟨[], prep_clear _ rfl rfl⟩

/-- **C46.** In every reachable state `allocate` succeeds without leaving the memory of the pool and returns either an object below `N` that is not
allocated, or -1, and the latter exactly if `N` objects are allocated. -/
theorem C46_allocate (N : Nat) (hN : N < 2 ^ 31) (p : Pool) (al : List Nat) (h : Reach N p al) :
    ∃ i p', allocateAll N p = .ok (i, p') ∧
      (al.length < N → i < N ∧ i ∉ al) ∧ (al.length = N → i = NONE ∧ p' = p) ∧ al.length ≤ N := by
  have hN' : N < NONE := by rw [NONE_eq]; omega
  obtain ⟨fr, hr⟩ := reach_rep hN h
  have hc := hr.count
  have hle := count_le hr
  simp only [List.length_append] at hc
  rcases allocate_spec hN' hr with ⟨rfl, hcur, e⟩ | ⟨j, w, p'', e, e', hj, hja, h'⟩
  · refine ⟨NONE, p, by simp only [allocateAll, e, Res.ok_bind, applyP], fun hl => ?_, fun _ => ⟨rfl, rfl⟩, by omega⟩
    simp only [List.length_nil] at hc; omega
  · refine ⟨j, p'', by simp only [allocateAll, e, Res.ok_bind, e'], fun _ => ⟨hj, hja⟩, fun hl => ?_, by omega⟩
    rcases h' with ⟨rfl, rfl, h'⟩ | ⟨fr', rfl, _, _⟩
    · simp only [List.length_nil] at hc; omega
    · simp only [List.length_cons] at hle; omega

/-- **C46.** The allocated objects are distinct and below `N`, `allocated_objects()` is their number, and freeing an allocated object succeeds. -/
theorem C46_allocated_distinct (N : Nat) (hN : N < 2 ^ 31) (p : Pool) (al : List Nat) (h : Reach N p al) :
    al.Nodup ∧ (∀ i ∈ al, i < N) ∧ allocated_objects p = al.length ∧
    ∀ i ∈ al, ∃ p', freeAll N p i = .ok (true, p') := by
  have hN' : N < NONE := by rw [NONE_eq]; omega
  obtain ⟨fr, hr⟩ := reach_rep hN h
  refine ⟨(List.nodup_append.mp hr.nodup).1, ?_, by rw [allocated_spec hN' hr]; rfl, ?_⟩
  · intro i hi
    have := hr.bound i (List.mem_append.mpr (Or.inl hi)); have := hr.cur; omega
  · intro i hi
    obtain ⟨a1, a2, rfl⟩ := List.append_of_mem hi
    obtain ⟨e, p'', e', _, h'⟩ := free_spec hN' hr
    exact ⟨p'', by simp only [freeAll, e, Res.ok_bind, e']⟩

/-- A zeroed pool for two objects: two allocations, a free, an allocation that reuses the freed object, and then the pool is full. -/
example : ∃ p, Reach 2 p [0, 1] := by
  let p0 : Pool := ⟨0, ⟨NONE, fun _ => 7⟩⟩
  have r0 : Reach 2 p0 [] := .init p0 rfl rfl
  have r1 := Reach.alloc r0 (i := 0) (p' := ⟨1, ⟨NONE, fun _ => 7⟩⟩) rfl (by decide)
  have r2 := Reach.alloc r1 (i := 1) (p' := ⟨2, ⟨NONE, fun _ => 7⟩⟩) rfl (by decide)
  have r3 := Reach.free r2 (i := 0) (r := true) (p' := ⟨2, ⟨0, fun j => if j = 0 then 0 else 7⟩⟩) (by decide) rfl
  have r4 := Reach.alloc r3 (i := 0) (p' := ⟨2, ⟨NONE, fun j => if j = 0 then 0 else 7⟩⟩) rfl (by decide)
  exact ⟨_, r4⟩

/-! ## C53 for stack and pool -/

/-- **C53, stack.** Attaching to a zeroed header yields an empty stack; attaching with the parameters found in the header changes
nothing; any other header makes `attach` throw and is left as it is. -/
theorem C53_stack_attach {T} (N sz : Nat) (s : StkSeg T) :
    (s.reserved = 0 ∧ s.item_size = 0 →
      (sattach N sz s).2 = false ∧ used (sattach N sz s).1.st = 0 ∧ (sattach N sz s).1.reserved = N ∧ (sattach N sz s).1.item_size = sz) ∧
    (¬(s.reserved = 0 ∧ s.item_size = 0) → s.reserved = N ∧ s.item_size = sz → sattach N sz s = (s, false)) ∧
    (¬(s.reserved = 0 ∧ s.item_size = 0) → ¬(s.reserved = N ∧ s.item_size = sz) → sattach N sz s = (s, true)) := by
  unfold sattach
  refine ⟨fun h => ?_, fun h h' => ?_, fun h h' => ?_⟩
  · rw [if_pos h]; simp [used]
  · rw [if_neg h, if_neg (by omega)]
  · rw [if_neg h, if_pos (by omega)]

/-- **C53, pool.** Attaching to zeroed headers yields a pool with nothing allocated; attaching with the parameters found in the headers
changes nothing; if both headers are initialised and one of them has other parameters `attach` throws and changes nothing. -/
theorem C53_pool_attach (N sz : Nat) (p : PoolSeg) :
    (p.reserved = 0 ∧ p.item_size = 0 ∧ p.free.reserved = 0 ∧ p.free.item_size = 0 →
      (pattach N sz p).2 = false ∧ Reach N (pattach N sz p).1.pool []) ∧
    (p.item_size ≠ 0 → p.free.item_size ≠ 0 →
      pattach N sz p = (p, !(decide (p.reserved = N ∧ p.item_size = sz ∧ p.free.reserved = N ∧ p.free.item_size = 4)))) := by
  unfold pattach sattach
  refine ⟨?_, ?_⟩
  · rintro ⟨h1, h2, h3, h4⟩
    simp only [h1, h2, h3, h4, and_self, if_true]
    exact ⟨rfl, .init _ rfl rfl⟩
  · intro h1 h2
    rw [if_neg (by omega)]
    by_cases h3 : N ≠ p.free.reserved ∨ 4 ≠ p.free.item_size
    · rw [if_pos h3]
      have : ¬ (p.reserved = N ∧ p.item_size = sz ∧ p.free.reserved = N ∧ p.free.item_size = 4) := by omega
      simp [this]
    · rw [if_neg h3]
      simp only [Bool.false_eq_true, if_false]
      rw [if_neg (by omega)]
      by_cases h4 : N ≠ p.reserved ∨ sz ≠ p.item_size
      · rw [if_pos h4]
        have : ¬ (p.reserved = N ∧ p.item_size = sz ∧ p.free.reserved = N ∧ p.free.item_size = 4) := by omega
        simp [this]
      · rw [if_neg h4]
        have : (p.reserved = N ∧ p.item_size = sz ∧ p.free.reserved = N ∧ p.free.item_size = 4) := by omega
        rw [decide_eq_true this]; rfl

end Verif.ShmPool
