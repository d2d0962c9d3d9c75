/-
  C167: a pool in shared memory that several processes use at the same time.
-/
import Verif.PoolSys.Lemmas

set_option linter.unusedSimpArgs false

namespace Verif.PoolSys

open ShmPool

/-- C167: if every process holds a mutex of the program around each call, then in every interleaving nothing is undefined, no object is in use twice, all are objects of the
pool, allocate fails only if all objects are in use, and free does not fail. -/
theorem C167_mutex_partial (N : Nat) (hN : N < 2 ^ 31) {s : Sys} (h : s.Start) (as : List Act) (r : Res Sys) (e : exec N true s as = some r) : ∃ s', r = .ok s' ∧ Good N s' := by
  obtain ⟨s', rfl, hi⟩ := inv_exec hN (inv_start h) e
  exact ⟨s', rfl, inv_good hN hi⟩

/-- A new pool. -/
def s0 : Sys := ⟨⟨0, ⟨NONE, fun _ => 0⟩⟩, fun _ => .idle, none, []⟩

/-- What is in use after a run. -/
def inUse : Option (Res Sys) → Option (List Nat)
  | some (.ok s) => some s.al
  | _ => none

/-- The hypotheses of `C167_mutex_partial`: two processes use a pool of two objects; an object is freed and used again. -/
example : s0.Start := ⟨rfl, rfl, fun _ => rfl, rfl, rfl⟩
example : inUse (exec 2 true s0 [.alloc 0, .access 0, .access 0, .access 0, .access 0, .ret 0, .alloc 1, .access 1, .access 1, .access 1, .access 1, .ret 1,
    .free 0 0, .access 0, .access 0, .access 0, .access 0, .ret 0, .alloc 1, .access 1, .access 1, .access 1, .access 1, .ret 1]) = some [0, 1] := by decide +kernel

/-- C167 fails without a mutex: from every state of a pool in which an object is free, two processes that call allocate at the same time can get the same object. -/
theorem C167_refuted (N : Nat) (hN : N < 2 ^ 31) {s : Sys} (hr : Reach N s.pool s.al) (hf : s.al.length < N) {i j : Nat} (hij : i ≠ j) (hi : s.pc i = .idle) (hj : s.pc j = .idle) :
    ∃ as s' n, exec N false s as = some (.ok s') ∧ s'.al = n :: n :: s.al := by
  obtain ⟨n, p', e, h1, -⟩ := C46_allocate N hN _ _ hr
  have hn := (h1 hf).1
  have hne : n ≠ NONE := by rw [NONE_eq]; omega
  have hji : j ≠ i := Ne.symm hij
  cases he : empty s.pool.free with
  | true =>
    have hc : ¬ s.pool.cur ≥ N := by
      intro c
      simp [allocateAll, allocate, he, c, applyP] at e
      exact hne e.1.symm
    have hc' : s.pool.cur ≠ NONE := by rw [NONE_eq]; omega
    have hc2 : ¬ N ≤ s.pool.cur := hc
    refine ⟨[.alloc i, .access i, .access i, .access i, .alloc j, .access j, .access j, .access j, .access i, .access j, .ret i, .ret j],
      { s with pool := { s.pool with cur := s.pool.cur + 1 }, pc := fun k => if k = j then .idle else if k = i then .idle else s.pc k, al := s.pool.cur :: s.pool.cur :: s.al }, s.pool.cur, ?_, rfl⟩
    simp [exec, step, Sys.may, Sys.at, Sys.take, access, Sys.after, Sys.ret, Pc.busy, hi, hj, hij, hji, he, hc2, hc']
    funext k
    by_cases k1 : k = j
    · simp [Sys.at, k1, hij, hji]
    · by_cases k2 : k = i <;> simp [Sys.at, k1, k2, hij, hji]
  | false =>
    have ht := nonempty_top hN hr he
    have hx : s.pool.free.data s.pool.free.top = n := by
      simp [allocateAll, allocate, he, pop, ht, applyP, PWr.apply, SWr.apply] at e
      exact e.1
    refine ⟨[.alloc i, .access i, .access i, .alloc j, .access j, .access j, .access i, .access j, .access i, .access j, .ret i, .ret j],
      { s with pool := { s.pool with free := { s.pool.free with top := if s.pool.free.top = 0 then NONE else s.pool.free.top - 1 } }, pc := fun k => if k = j then .idle else if k = i then .idle else s.pc k, al := n :: n :: s.al }, n, ?_, rfl⟩
    simp [exec, step, Sys.may, Sys.at, Sys.take, access, Sys.after, Sys.ret, Pc.busy, hi, hj, hij, hji, he, ht, hx, hne]
    funext k
    by_cases k1 : k = j
    · simp [Sys.at, k1, hij, hji]
    · by_cases k2 : k = i <;> simp [Sys.at, k1, k2, hij, hji]

/-- C167 fails in a worse way: if one freed object is left, two processes that call allocate at the same time can read outside of the pool's memory. -/
theorem C167_refuted_ub (N : Nat) (hN : N < 2 ^ 31) {s : Sys} (hr : Reach N s.pool s.al) (hu : used s.pool.free = 1) {i j : Nat} (hij : i ≠ j) (hi : s.pc i = .idle) (hj : s.pc j = .idle) :
    ∃ as, exec N false s as = some .ub := by
  have hji : j ≠ i := Ne.symm hij
  have he : empty s.pool.free = false := by simp [empty, hu]
  have ht := nonempty_top hN hr he
  have h0 : s.pool.free.top = 0 := by
    simp only [used] at hu
    split at hu
    · cases hu
    · omega
  have hNN : ¬ NONE < N := by rw [NONE_eq]; omega
  refine ⟨[.alloc i, .access i, .alloc j, .access j, .access i, .access i, .access i, .access j, .access j], ?_⟩
  rw [h0] at ht
  simp [exec, step, Sys.may, Sys.at, Sys.take, access, Sys.after, Pc.busy, hi, hj, hij, hji, he, ht, h0, hNN]

/-- C167: and two processes that call free at the same time can lose an object: both calls return true, but only one object can be allocated again. -/
theorem C167_refuted_lost (N : Nat) (hN : N < 2 ^ 31) {s : Sys} (hr : Reach N s.pool s.al) {e f : Nat} (he : e ∈ s.al) (hf : f ∈ s.al.erase e) {i j : Nat} (hij : i ≠ j)
    (hi : s.pc i = .idle) (hj : s.pc j = .idle) :
    ∃ as s', exec N false s as = some (.ok s') ∧ s'.al = (s.al.erase e).erase f ∧ s'.pc i = .freed e true ∧ s'.pc j = .freed f true ∧
      allocated_objects s'.pool = s'.al.length + 1 := by
  have hji : j ≠ i := Ne.symm hij
  obtain ⟨-, -, hc, hfr⟩ := C46_allocated_distinct N hN _ _ hr
  obtain ⟨p', hp⟩ := hfr e he
  have hu : used s.pool.free < N := by
    by_cases c : used s.pool.free ≥ N
    · simp [freeAll, pfree, push, c, applyP] at hp
    · omega
  have hu2 : ¬ N ≤ used s.pool.free := by omega
  have hl : s.al.length = (s.al.erase e).length + 1 := by
    rw [List.length_erase_of_mem he]
    have := List.length_pos_of_mem he
    omega
  have hl2 : (s.al.erase e).length = ((s.al.erase e).erase f).length + 1 := by
    rw [List.length_erase_of_mem hf]
    have := List.length_pos_of_mem hf
    omega
  obtain ⟨-, -, -, -, -, hle⟩ := C46_allocate N hN _ _ hr
  refine ⟨[.free i e, .access i, .access i, .free j f, .access j, .access j, .access i, .access i, .access j, .access j],
    { s with pool := { s.pool with free := ⟨used s.pool.free, fun k => if k = used s.pool.free then f else if k = used s.pool.free then e else s.pool.free.data k⟩ },
             pc := fun k => if k = j then .freed f true else if k = i then .freed e true else s.pc k, al := (s.al.erase e).erase f }, ?_, rfl, ?_, ?_, ?_⟩
  · simp [exec, step, Sys.may, Sys.at, Sys.take, access, Sys.after, Pc.busy, hi, hj, hij, hji, he, hf, hu, hu2]
    funext k
    by_cases k1 : k = j
    · simp [Sys.at, k1, hij, hji]
    · by_cases k2 : k = i <;> simp [Sys.at, k1, k2, hij, hji]
  · simp [hij]
  · simp
  · have hus : used (⟨used s.pool.free, fun k => if k = used s.pool.free then f else if k = used s.pool.free then e else s.pool.free.data k⟩ : Stk Nat) = used s.pool.free + 1 :=
      used_le rfl (by rw [NONE_eq]; omega)
    simp only [allocated_objects] at hc ⊢
    rw [hus]
    split at hc
    · rw [if_pos (by omega)]; omega
    · omega

/-- The hypotheses of the refutations: a pool of three objects with one object freed and two in use. -/
example : ∃ p, Reach 3 p [2, 0] ∧ used p.free = 1 :=
  ⟨⟨3, ⟨0, fun j => if j = 0 then 1 else 0⟩⟩,
    .free (al := [2, 1, 0]) (i := 1) (r := true) (.alloc (.alloc (.alloc (.init ⟨0, ⟨NONE, fun _ => 0⟩⟩ rfl rfl) rfl (by decide)) rfl (by decide)) rfl (by decide)) (by decide) rfl, rfl⟩

end Verif.PoolSys
