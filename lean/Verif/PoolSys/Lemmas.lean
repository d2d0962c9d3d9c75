import Verif.PoolSys.Spec

namespace Verif.PoolSys

open ShmPool

variable {N : Nat}

/-- How far a call that began in the pool `p0` has come. -/
def Mid (N : Nat) (p0 p : Pool) : Pc → Prop
  | .idle => False
  | .aTop => p = p0
  | .aCur => p = p0 ∧ empty p0.free = true
  | .aInc => p = p0 ∧ empty p0.free = true ∧ p0.cur < N
  | .aSet c => p = p0 ∧ empty p0.free = true ∧ p0.cur < N ∧ c = p0.cur
  | .pTop => p = p0 ∧ empty p0.free = false
  | .pData t => p = p0 ∧ empty p0.free = false ∧ t = p0.free.top
  | .pDec t x => p = p0 ∧ empty p0.free = false ∧ t = p0.free.top ∧ t < N ∧ x = p0.free.data t
  | .fTop _ => p = p0
  | .fInc _ => p = p0 ∧ used p0.free < N
  | .fSet _ t => p = p0 ∧ used p0.free < N ∧ t = used p0.free
  | .fData _ t => p = { p0 with free := { p0.free with top := t } } ∧ used p0.free < N ∧ t = used p0.free
  | .got n => allocateAll N p0 = .ok (n, p)
  | .freed e b => freeAll N p0 e = .ok (b, p)

/-- The object that the call frees. -/
def Pc.arg : Pc → Option Nat
  | .fTop e => some e
  | .fInc e => some e
  | .fSet e _ => some e
  | .fData e _ => some e
  | .freed e _ => some e
  | _ => none

/-- What allocate does in a pool: not undefined. -/
theorem nonempty_top {al : List Nat} {p : Pool} (hN : N < 2 ^ 31) (h : Reach N p al) (he : empty p.free = false) : p.free.top < N := by
  obtain ⟨i, p', e, -⟩ := C46_allocate N hN p al h
  simp only [allocateAll, allocate, he] at e
  by_cases ht : p.free.top < N
  · exact ht
  · simp only [pop] at e
    rw [if_neg ht] at e
    cases e

theorem mid_access {al : List Nat} {p0 p : Pool} {x : Pc} (hN : N < 2 ^ 31) (h : Reach N p0 al) (hm : Mid N p0 p x) (hb : x.busy = true) :
    ∃ p' x', access N p x = .ok (p', x') ∧ Mid N p0 p' x' ∧ x'.arg = x.arg := by
  cases x with
  | idle => simp [Pc.busy] at hb
  | got n => simp [Pc.busy] at hb
  | freed e b => simp [Pc.busy] at hb
  | aTop =>
    simp only [Mid] at hm
    subst hm
    refine ⟨_, _, rfl, ?_⟩
    cases he : empty p.free with
    | true => simp [Mid, he, Pc.arg]
    | false => simp [Mid, he, Pc.arg]
  | aCur =>
    obtain ⟨rfl, he⟩ := hm
    refine ⟨_, _, rfl, ?_⟩
    by_cases hc : p.cur ≥ N
    · rw [if_pos hc]
      refine ⟨?_, rfl⟩
      simp [Mid, allocateAll, allocate, he, hc, applyP]
    · rw [if_neg hc]
      exact ⟨⟨rfl, he, by omega⟩, rfl⟩
  | aInc =>
    obtain ⟨rfl, he, hc⟩ := hm
    exact ⟨_, _, rfl, ⟨rfl, he, hc, rfl⟩, rfl⟩
  | aSet c =>
    obtain ⟨rfl, he, hc, rfl⟩ := hm
    refine ⟨_, _, rfl, ?_, rfl⟩
    have : ¬ p.cur ≥ N := by omega
    simp [Mid, allocateAll, allocate, he, this, applyP, PWr.apply]
  | pTop =>
    obtain ⟨rfl, he⟩ := hm
    exact ⟨_, _, rfl, ⟨rfl, he, rfl⟩, rfl⟩
  | pData t =>
    obtain ⟨rfl, he, rfl⟩ := hm
    have ht := nonempty_top hN h he
    refine ⟨p, .pDec p.free.top (p.free.data p.free.top), ?_, ⟨rfl, he, rfl, ht, rfl⟩, rfl⟩
    simp only [access]
    rw [if_pos ht]
  | pDec t x =>
    obtain ⟨rfl, he, rfl, ht, rfl⟩ := hm
    refine ⟨_, _, rfl, ?_, rfl⟩
    simp [Mid, allocateAll, allocate, he, pop, ht, applyP, PWr.apply, SWr.apply]
  | fTop e =>
    simp only [Mid] at hm
    subst hm
    refine ⟨_, _, rfl, ?_⟩
    by_cases hu : used p.free ≥ N
    · rw [if_pos hu]
      refine ⟨?_, rfl⟩
      simp [Mid, freeAll, pfree, push, hu, applyP]
    · rw [if_neg hu]
      exact ⟨⟨rfl, by omega⟩, rfl⟩
  | fInc e =>
    obtain ⟨rfl, hu⟩ := hm
    exact ⟨_, _, rfl, ⟨rfl, hu, rfl⟩, rfl⟩
  | fSet e t =>
    obtain ⟨rfl, hu, rfl⟩ := hm
    exact ⟨_, _, rfl, ⟨rfl, hu, rfl⟩, rfl⟩
  | fData e t =>
    obtain ⟨rfl, hu, rfl⟩ := hm
    have hu' : ¬ used p0.free ≥ N := by omega
    refine ⟨{ p0 with free := ⟨used p0.free, fun j => if j = used p0.free then e else p0.free.data j⟩ }, .freed e true, by simp only [access]; rw [if_pos hu], ?_, rfl⟩
    simp [Mid, freeAll, pfree, push, hu', applyP, PWr.apply, SWr.apply, hu]

/-- Holds in every state that processes with a mutex reach. -/
def Inv (N : Nat) (s : Sys) : Prop :=
  match s.lock with
  | none => (∀ i, s.pc i = .idle) ∧ Reach N s.pool s.al
  | some i => (∀ j, j ≠ i → s.pc j = .idle) ∧ ∃ p0 al0, Reach N p0 al0 ∧ Mid N p0 s.pool (s.pc i) ∧
      match (s.pc i).arg with
      | none => s.al = al0
      | some e => e ∈ al0 ∧ s.al = al0.erase e

theorem inv_none {s : Sys} (h : s.lock = none) : Inv N s ↔ (∀ i, s.pc i = .idle) ∧ Reach N s.pool s.al := by
  unfold Inv
  split
  · rfl
  · next i e => rw [h] at e; cases e

theorem inv_some {s : Sys} {i : Nat} (h : s.lock = some i) : Inv N s ↔ (∀ j, j ≠ i → s.pc j = .idle) ∧ ∃ p0 al0, Reach N p0 al0 ∧ Mid N p0 s.pool (s.pc i) ∧
      match (s.pc i).arg with
      | none => s.al = al0
      | some e => e ∈ al0 ∧ s.al = al0.erase e := by
  unfold Inv
  split
  · next e => rw [h] at e; cases e
  · next k e => rw [h] at e; cases e; rfl

/-- The call of the holder of the mutex. -/
theorem inv_busy {s : Sys} {i : Nat} (h : Inv N s) (hi : s.pc i ≠ .idle) : s.lock = some i := by
  cases hl : s.lock with
  | none => exact absurd ((inv_none hl).1 h |>.1 i) hi
  | some k =>
    by_cases e : i = k
    · rw [e]
    · exact absurd ((inv_some hl).1 h |>.1 i e) hi

theorem inv_step {s : Sys} {a : Act} {r : Res Sys} (hN : N < 2 ^ 31) (h : Inv N s) (e : step N true s a = some r) : ∃ s', r = .ok s' ∧ Inv N s' := by
  cases a with
  | alloc i =>
    simp only [step] at e
    by_cases hm : s.may true i = true
    · rw [if_pos hm] at e
      simp only [Option.some.injEq] at e
      subst e
      simp only [Sys.may, Bool.not_true, Bool.false_or, Bool.and_eq_true, decide_eq_true_eq, Option.isNone_iff_eq_none] at hm
      obtain ⟨hi, hr⟩ := (inv_none hm.2).1 h
      refine ⟨_, rfl, (inv_some (i := i) (by simp [Sys.take])).2 ⟨?_, s.pool, s.al, hr, ?_⟩⟩
      · intro j hj; simp [Sys.at, hj, hi j]
      · simp [Sys.at, Mid, Pc.arg]
    · rw [if_neg hm] at e; simp at e
  | free i x =>
    simp only [step] at e
    by_cases hm : (s.may true i && decide (x ∈ s.al)) = true
    · rw [if_pos hm] at e
      simp only [Option.some.injEq] at e
      subst e
      simp only [Sys.may, Bool.not_true, Bool.false_or, Bool.and_eq_true, decide_eq_true_eq, Option.isNone_iff_eq_none] at hm
      obtain ⟨hi, hr⟩ := (inv_none hm.1.2).1 h
      refine ⟨_, rfl, (inv_some (i := i) (by simp [Sys.take])).2 ⟨?_, s.pool, s.al, hr, ?_⟩⟩
      · intro j hj; simp [Sys.at, hj, hi j]
      · simp [Sys.at, Mid, Pc.arg, hm.2]
    · rw [if_neg hm] at e; simp at e
  | access i =>
    simp only [step] at e
    by_cases hb : (s.pc i).busy = true
    · rw [if_pos hb] at e
      simp only [Option.some.injEq] at e
      have hl := inv_busy h (i := i) (by intro c; rw [c] at hb; simp [Pc.busy] at hb)
      obtain ⟨ho, p0, al0, hr, hm, ha⟩ := (inv_some hl).1 h
      obtain ⟨p', x', e1, e2, e3⟩ := mid_access hN hr hm hb
      rw [e1] at e
      simp only [Sys.after] at e
      subst e
      refine ⟨_, rfl, (inv_some (s := { s with pool := p', pc := s.at i x' }) (i := i) hl).2 ⟨?_, p0, al0, hr, ?_⟩⟩
      · intro j hj; simp [Sys.at, hj, ho j hj]
      · simp only [Sys.at, if_true]
        rw [e3]
        exact ⟨e2, ha⟩
    · rw [if_neg hb] at e; simp at e
  | ret i =>
    simp only [step] at e
    cases hx : s.pc i with
    | got n =>
      rw [hx] at e
      simp only [Sys.ret, Option.map_some, Option.some.injEq, if_true] at e
      subst e
      have hl := inv_busy h (i := i) (by rw [hx]; simp)
      obtain ⟨ho, p0, al0, hr, hm, ha⟩ := (inv_some hl).1 h
      rw [hx] at hm ha
      simp only [Mid, Pc.arg] at hm ha
      refine ⟨_, rfl, (inv_none rfl).2 ⟨?_, ?_⟩⟩
      · intro j
        simp only [Sys.at]
        by_cases hj : j = i
        · rw [if_pos hj]
        · rw [if_neg hj]; exact ho j hj
      · simp only
        by_cases hn : n = NONE
        · subst hn
          rw [if_pos rfl, ha]
          exact .full hr hm
        · rw [if_neg hn, ha]
          exact .alloc hr hm hn
    | freed x b =>
      rw [hx] at e
      simp only [Sys.ret, Option.map_some, Option.some.injEq, if_true] at e
      subst e
      have hl := inv_busy h (i := i) (by rw [hx]; simp)
      obtain ⟨ho, p0, al0, hr, hm, ha⟩ := (inv_some hl).1 h
      rw [hx] at hm ha
      simp only [Mid, Pc.arg] at hm ha
      refine ⟨_, rfl, (inv_none rfl).2 ⟨?_, ?_⟩⟩
      · intro j
        simp only [Sys.at]
        by_cases hj : j = i
        · rw [if_pos hj]
        · rw [if_neg hj]; exact ho j hj
      · simp only
        rw [ha.2]
        exact .free hr ha.1 hm
    | _ => rw [hx] at e; simp [Sys.ret] at e

theorem inv_exec (hN : N < 2 ^ 31) : ∀ {as : List Act} {s : Sys} {r : Res Sys}, Inv N s → exec N true s as = some r → ∃ s', r = .ok s' ∧ Inv N s'
  | [], s, r, h, e => by
    simp only [exec, Option.some.injEq] at e
    exact ⟨s, e.symm, h⟩
  | a :: as, s, r, h, e => by
    simp only [exec] at e
    cases e1 : step N true s a with
    | none => rw [e1] at e; simp at e
    | some x =>
      obtain ⟨s', rfl, hi⟩ := inv_step hN h e1
      rw [e1] at e
      exact inv_exec hN hi e

theorem inv_good {s : Sys} (hN : N < 2 ^ 31) (h : Inv N s) : Good N s := by
  cases hl : s.lock with
  | none =>
    obtain ⟨hi, hr⟩ := (inv_none hl).1 h
    have hd := C46_allocated_distinct N hN _ _ hr
    refine ⟨hd.1, hd.2.1, ?_, ?_, ?_⟩
    · intro i c; rw [hi i] at c; cases c
    · intro i n c; rw [hi i] at c; cases c
    · intro i e b c; rw [hi i] at c; cases c
  | some k =>
    obtain ⟨ho, p0, al0, hr, hm, ha⟩ := (inv_some hl).1 h
    have hd := C46_allocated_distinct N hN _ _ hr
    have hk : ∀ i, s.pc i ≠ .idle → i = k := by
      intro i hi
      have := inv_busy h hi
      rw [hl] at this
      exact (Option.some.inj this).symm
    have hsub : s.al.Nodup ∧ ∀ x ∈ s.al, x < N := by
      cases hx : (s.pc k).arg with
      | none => rw [hx] at ha; simp only at ha; rw [ha]; exact ⟨hd.1, hd.2.1⟩
      | some e =>
        rw [hx] at ha
        simp only at ha
        rw [ha.2]
        exact ⟨hd.1.erase e, fun x hx => hd.2.1 x (List.mem_of_mem_erase hx)⟩
    refine ⟨hsub.1, hsub.2, ?_, ?_, ?_⟩
    · intro i c
      have : i = k := hk i (by rw [c]; simp)
      subst this
      rw [c] at hm ha
      simp only [Mid, Pc.arg] at hm ha
      obtain ⟨j, p', e, h1, -, h3⟩ := C46_allocate N hN _ _ hr
      rw [hm] at e
      cases e
      rw [ha]
      by_cases hlt : al0.length < N
      · have := (h1 hlt).1
        rw [NONE_eq] at this
        omega
      · omega
    · intro i n c hn
      have : i = k := hk i (by rw [c]; simp)
      subst this
      rw [c] at hm ha
      simp only [Mid, Pc.arg] at hm ha
      obtain ⟨j, p', e, h1, h2, h3⟩ := C46_allocate N hN _ _ hr
      rw [hm] at e
      cases e
      rw [ha]
      by_cases hlt : al0.length < N
      · exact h1 hlt
      · exact absurd (h2 (by omega)).1 hn
    · intro i e b c
      have : i = k := hk i (by rw [c]; simp)
      subst this
      rw [c] at hm ha
      simp only [Mid, Pc.arg] at hm ha
      obtain ⟨p', hp⟩ := hd.2.2.2 e ha.1
      rw [hm] at hp
      cases hp
      rfl

theorem inv_start {s : Sys} (h : s.Start) : Inv N s := by
  obtain ⟨h1, h2, h3, h4, h5⟩ := h
  refine (inv_none h4).2 ⟨h3, ?_⟩
  rw [h5]
  exact .init _ h1 h2

end Verif.PoolSys
