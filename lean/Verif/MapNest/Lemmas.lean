/-
  The invariant of the lock: both semaphores count what is held.
-/
import Verif.MapNest.Spec
import Mathlib.Tactic.Common

namespace Verif.MapNest
open Verif.RwLock Verif.MapNest.Spec

variable {d : Nat}

def cnt (k : Kind) (p : Proc) : Nat := p.held.count k

def total (k : Kind) (ps : List Proc) : Nat := (ps.map (cnt k)).sum

theorem total_set (k : Kind) : ∀ (ps : List Proc) (i : Nat) (p q : Proc), ps[i]? = some p →
    total k (ps.set i q) + cnt k p = total k ps + cnt k q
  | [], i, p, q, h => by simp at h
  | x :: xs, 0, p, q, h => by
    simp at h; subst h
    simp only [total, List.set_cons_zero, List.map_cons, List.sum_cons]; omega
  | x :: xs, i + 1, p, q, h => by
    have := total_set k xs i p q (by simpa using h)
    simp only [total, List.set_cons_succ, List.map_cons, List.sum_cons] at this ⊢
    omega

theorem total_append (k : Kind) (ps : List Proc) (q : Proc) : total k (ps ++ [q]) = total k ps + cnt k q := by
  simp [total]

theorem cnt_le (k : Kind) : ∀ (ps : List Proc) (i : Nat) (p : Proc), ps[i]? = some p → cnt k p ≤ total k ps
  | [], i, p, h => by simp at h
  | x :: xs, 0, p, h => by
    simp at h; subst h
    simp only [total, List.map_cons, List.sum_cons]; omega
  | x :: xs, i + 1, p, h => by
    have := cnt_le k xs i p (by simpa using h)
    simp only [total, List.map_cons, List.sum_cons] at this ⊢
    omega

theorem cnt2_le (k : Kind) : ∀ (ps : List Proc) (i j : Nat) (p q : Proc), i ≠ j → ps[i]? = some p → ps[j]? = some q →
    cnt k p + cnt k q ≤ total k ps
  | [], i, j, p, q, _, h, _ => by simp at h
  | x :: xs, 0, 0, p, q, n, _, _ => absurd rfl n
  | x :: xs, 0, j + 1, p, q, _, h, h' => by
    have := cnt_le k xs j q (by simpa using h')
    simp at h; subst h
    simp only [total, List.map_cons, List.sum_cons] at this ⊢; omega
  | x :: xs, i + 1, 0, p, q, _, h, h' => by
    have := cnt_le k xs i p (by simpa using h)
    simp at h'; subst h'
    simp only [total, List.map_cons, List.sum_cons] at this ⊢; omega
  | x :: xs, i + 1, j + 1, p, q, n, h, h' => by
    have := cnt2_le k xs i j p q (by omega) (by simpa using h) (by simpa using h')
    simp only [total, List.map_cons, List.sum_cons] at this ⊢; omega

/-- What holds of every process: the adjustments undo what it holds; it releases only what it holds. -/
def PInv (p : Proc) : Prop :=
  p.adj = ⟨-(cnt .read p : Int), -(cnt .write p : Int)⟩ ∧ (∀ k, p.wait = some (.unlock k) → k ∈ p.held) ∧
    (p.alive = false → p.held = [] ∧ p.wait = none)

/-- `d`: reads that nobody holds any more (0 as long as every fork is sound). -/
structure Inv (d : Nat) (s : State) : Prop where
  r : s.sem.r = total .read s.procs + d
  bound : s.sem.r ≤ SEMVMX
  w : s.sem.w = total .write s.procs
  one : total .write s.procs ≤ 1
  excl : total .write s.procs = 1 → total .read s.procs + d = 0
  procs : ∀ (i : Nat) (p : Proc), s.procs[i]? = some p → PInv p

theorem total_replicate (k : Kind) (n : Nat) : total k (List.replicate n ⟨true, [], none, ⟨0, 0⟩⟩) = 0 := by
  simp [total, cnt]

theorem inv_start (n : Nat) : Inv 0 (start n) where
  r := by simp [start, total_replicate]
  bound := by simp [start, SEMVMX]
  w := by simp [start, total_replicate]
  one := by simp [start, total_replicate]
  excl := by simp [start, total_replicate]
  procs := by
    intro i p h
    simp only [start, List.getElem?_replicate] at h
    split at h
    · cases h; exact ⟨by simp [cnt], by simp, by simp⟩
    · cases h

theorem procs_set {ps : List Proc} {i : Nat} {q : Proc} (hq : PInv q) (h : ∀ (i : Nat) (p : Proc), ps[i]? = some p → PInv p) :
    ∀ (j : Nat) (p : Proc), (ps.set i q)[j]? = some p → PInv p := by
  intro j p e
  rw [List.getElem?_set] at e
  split at e
  · split at e
    · cases e; exact hq
    · cases e
  · exact h j p e

/-- The effect of each call. -/
theorem semop_lr (v adj : Vals) : semop v adj (Call.lock .read).ops =
    if v.w = 0 ∧ 0 ≤ v.r + 1 ∧ v.r + 1 ≤ SEMVMX then some (⟨v.r + 1, v.w⟩, ⟨adj.r - 1, adj.w⟩) else none := by
  by_cases h : v.w = 0
  · by_cases h2 : 0 ≤ v.r + 1 ∧ v.r + 1 ≤ SEMVMX
    · simp [Call.ops, lock_read_rw, semop, semop1, Vals.get, Vals.set, h, h2]
    · simp [Call.ops, lock_read_rw, semop, semop1, Vals.get, Vals.set, h, h2]
  · simp [Call.ops, lock_read_rw, semop, semop1, Vals.get, h]

theorem semop_lw (v adj : Vals) : semop v adj (Call.lock .write).ops =
    if v.r = 0 ∧ v.w = 0 then some (⟨v.r, v.w + 1⟩, ⟨adj.r, adj.w - 1⟩) else none := by
  by_cases h : v.r = 0
  · by_cases h2 : v.w = 0
    · simp [Call.ops, lock_write_rw, semop, semop1, Vals.get, Vals.set, h, h2, SEMVMX]
    · simp [Call.ops, lock_write_rw, semop, semop1, Vals.get, Vals.set, h, h2]
  · simp [Call.ops, lock_write_rw, semop, semop1, Vals.get, h]

theorem semop_ur (v adj : Vals) : semop v adj (Call.unlock .read).ops =
    if 0 ≤ v.r + -1 ∧ v.r + -1 ≤ SEMVMX then some (⟨v.r + -1, v.w⟩, ⟨adj.r + 1, adj.w⟩) else none := by
  by_cases h2 : 0 ≤ v.r + -1 ∧ v.r + -1 ≤ SEMVMX
  · simp [Call.ops, unlock_read_rw, semop, semop1, Vals.get, Vals.set, h2]
  · simp [Call.ops, unlock_read_rw, semop, semop1, Vals.get, h2]

theorem semop_uw (v adj : Vals) : semop v adj (Call.unlock .write).ops =
    if 0 ≤ v.w + -1 ∧ v.w + -1 ≤ SEMVMX then some (⟨v.r, v.w + -1⟩, ⟨adj.r, adj.w + 1⟩) else none := by
  by_cases h2 : 0 ≤ v.w + -1 ∧ v.w + -1 ≤ SEMVMX
  · simp [Call.ops, unlock_write_rw, semop, semop1, Vals.get, Vals.set, h2]
  · simp [Call.ops, unlock_write_rw, semop, semop1, Vals.get, h2]

theorem step_call {s s' : State} {i : Nat} {c : Call} (e : step s (.call i c) = some s') :
    ∃ p, s.procs[i]? = some p ∧ p.alive = true ∧ p.wait = none ∧ c.legal p.held = true ∧
      s' = { s with procs := s.procs.set i { p with wait := some c } } := by
  simp only [step] at e
  split at e
  · cases e
  · rename_i p hp
    split at e
    · rename_i hc
      simp at hc
      cases e
      exact ⟨p, hp, hc.1.1, hc.1.2, hc.2, rfl⟩
    · cases e

theorem step_ret {s s' : State} {i : Nat} (e : step s (.ret i) = some s') :
    ∃ p c v adj, s.procs[i]? = some p ∧ p.wait = some c ∧ semop s.sem p.adj c.ops = some (v, adj) ∧
      s' = ⟨v, s.procs.set i { p with wait := none, held := c.after p.held, adj := adj }⟩ := by
  simp only [step] at e
  split at e
  · cases e
  · rename_i p hp
    split at e
    · cases e
    · rename_i c hc
      split at e
      · cases e
      · rename_i v adj hv
        cases e
        exact ⟨p, c, v, adj, hp, hc, hv, rfl⟩

theorem step_kill {s s' : State} {i : Nat} (e : step s (.kill i) = some s') :
    ∃ p, s.procs[i]? = some p ∧ p.alive = true ∧ s' = ⟨undo s.sem p.adj, s.procs.set i ⟨false, [], none, ⟨0, 0⟩⟩⟩ := by
  simp only [step] at e
  split at e
  · cases e
  · rename_i p hp
    split at e
    · rename_i hc
      cases e
      exact ⟨p, hp, hc, rfl⟩
    · cases e

theorem step_fork {s s' : State} {i : Nat} {b : Bool} (e : step s (.fork i b) = some s') :
    ∃ p, s.procs[i]? = some p ∧ p.alive = true ∧ p.wait = none ∧
      s' = { s with procs := s.procs ++ [⟨true, if b then p.held else [], none, ⟨0, 0⟩⟩] } := by
  simp only [step] at e
  split at e
  · cases e
  · rename_i p hp
    split at e
    · rename_i hc
      simp at hc
      cases e
      exact ⟨p, hp, hc.1, hc.2, rfl⟩
    · cases e

theorem cnt_cons_self (k : Kind) (p : Proc) (c w a) : cnt k { p with wait := w, held := k :: p.held, adj := a, alive := c } = cnt k p + 1 := by
  simp [cnt]

theorem inv_ret {s s' : State} {i : Nat} (I : Inv d s) (e : step s (.ret i) = some s') : Inv d s' := by
  obtain ⟨p, c, v, adj, hp, hc, hv, rfl⟩ := step_ret e
  obtain ⟨ha, hu, hd⟩ := I.procs i p hp
  have hal : p.alive = true := by
    cases h : p.alive with
    | true => rfl
    | false => rw [(hd h).2] at hc; cases hc
  set q : Proc := { p with wait := none, held := c.after p.held, adj := adj } with hqd
  have tr := total_set .read s.procs i p q hp
  have tw := total_set .write s.procs i p q hp
  have lr := cnt_le .read s.procs i p hp
  have lw := cnt_le .write s.procs i p hp
  have Ir := I.r; have Ib := I.bound; have Iw := I.w; have I1 := I.one; have Ie := I.excl
  cases c with
  | lock k =>
    cases k with
    | read =>
      rw [semop_lr] at hv
      split at hv
      · rename_i hh
        injection hv with hv; injection hv with h1 h2
        have cr : cnt .read q = cnt .read p + 1 := by simp [hqd, cnt, Call.after]
        have cw : cnt .write q = cnt .write p := by simp [hqd, cnt, Call.after]
        refine ⟨?_, ?_, ?_, ?_, ?_, procs_set ⟨?_, by simp [hqd], by simp [hqd, hal]⟩ I.procs⟩
        · rw [← h1]; simp only; omega
        · rw [← h1]; simp only; omega
        · rw [← h1]; simp only; omega
        · simp only; omega
        · simp only; omega
        · show adj = _; rw [← h2, ha]; simp only [Vals.mk.injEq]; omega
      · cases hv
    | write =>
      rw [semop_lw] at hv
      split at hv
      · rename_i hh
        injection hv with hv; injection hv with h1 h2
        have cr : cnt .read q = cnt .read p := by simp [hqd, cnt, Call.after]
        have cw : cnt .write q = cnt .write p + 1 := by simp [hqd, cnt, Call.after]
        refine ⟨?_, ?_, ?_, ?_, ?_, procs_set ⟨?_, by simp [hqd], by simp [hqd, hal]⟩ I.procs⟩
        · rw [← h1]; simp only; omega
        · rw [← h1]; simp only; omega
        · rw [← h1]; simp only; omega
        · simp only; omega
        · simp only; omega
        · show adj = _; rw [← h2, ha]; simp only [Vals.mk.injEq]; omega
      · cases hv
  | unlock k =>
    have hm := hu k hc
    have hpos := List.count_pos_iff.2 hm
    cases k with
    | read =>
      rw [semop_ur] at hv
      split at hv
      · rename_i hh
        injection hv with hv; injection hv with h1 h2
        have cr : cnt .read q + 1 = cnt .read p := by
          simp only [hqd, cnt, Call.after, List.count_erase_self]; omega
        have cw : cnt .write q = cnt .write p := by
          simp only [hqd, cnt, Call.after]; exact List.count_erase_of_ne (by decide)
        refine ⟨?_, ?_, ?_, ?_, ?_, procs_set ⟨?_, by simp [hqd], by simp [hqd, hal]⟩ I.procs⟩
        · rw [← h1]; simp only; omega
        · rw [← h1]; simp only; omega
        · rw [← h1]; simp only; omega
        · simp only; omega
        · simp only; omega
        · show adj = _; rw [← h2, ha]; simp only [Vals.mk.injEq]; omega
      · cases hv
    | write =>
      rw [semop_uw] at hv
      split at hv
      · rename_i hh
        injection hv with hv; injection hv with h1 h2
        have cw : cnt .write q + 1 = cnt .write p := by
          simp only [hqd, cnt, Call.after, List.count_erase_self]; omega
        have cr : cnt .read q = cnt .read p := by
          simp only [hqd, cnt, Call.after]; exact List.count_erase_of_ne (by decide)
        refine ⟨?_, ?_, ?_, ?_, ?_, procs_set ⟨?_, by simp [hqd], by simp [hqd, hal]⟩ I.procs⟩
        · rw [← h1]; simp only; omega
        · rw [← h1]; simp only; omega
        · rw [← h1]; simp only; omega
        · simp only; omega
        · simp only; omega
        · show adj = _; rw [← h2, ha]; simp only [Vals.mk.injEq]; omega
      · cases hv

theorem inv_step {s s' : State} {a : Label} (I : Inv d s) (hs : soundStep s a) (e : step s a = some s') : Inv d s' := by
  cases a with
  | call i c =>
    obtain ⟨p, hp, ha, hw, hl, rfl⟩ := step_call e
    set q : Proc := { p with wait := some c } with hqd
    have tr := total_set .read s.procs i p q hp
    have tw := total_set .write s.procs i p q hp
    have cr : cnt .read q = cnt .read p := rfl
    have cw : cnt .write q = cnt .write p := rfl
    have Ir := I.r; have Ib := I.bound; have Iw := I.w; have I1 := I.one; have Ie := I.excl
    obtain ⟨h1, h2, h3⟩ := I.procs i p hp
    refine ⟨?_, ?_, ?_, ?_, ?_, procs_set ⟨?_, ?_, ?_⟩ I.procs⟩
    · simp only; omega
    · simp only; omega
    · simp only; omega
    · simp only; omega
    · simp only; omega
    · rw [cr, cw]; exact h1
    · intro k hk
      simp only [hqd, Option.some.injEq] at hk
      subst hk
      simpa [Call.legal] using hl
    · intro h; simp only [hqd] at h; rw [ha] at h; cases h
  | ret i => exact inv_ret I e
  | kill i =>
    obtain ⟨p, hp, ha, rfl⟩ := step_kill e
    set q : Proc := ⟨false, [], none, ⟨0, 0⟩⟩ with hqd
    have tr := total_set .read s.procs i p q hp
    have tw := total_set .write s.procs i p q hp
    have lr := cnt_le .read s.procs i p hp
    have lw := cnt_le .write s.procs i p hp
    have cr : cnt .read q = 0 := rfl
    have cw : cnt .write q = 0 := rfl
    have Ir := I.r; have Ib := I.bound; have Iw := I.w; have I1 := I.one; have Ie := I.excl
    obtain ⟨h1, h2, h3⟩ := I.procs i p hp
    refine ⟨?_, ?_, ?_, ?_, ?_, procs_set ⟨?_, ?_, ?_⟩ I.procs⟩
    · simp only [undo, undo1, h1]; split <;> omega
    · simp only [undo, undo1, h1, SEMVMX] at Ib ⊢; split <;> omega
    · simp only [undo, undo1, h1]; split <;> omega
    · simp only; omega
    · simp only; omega
    · rw [cr, cw]; simp [hqd]
    · simp [hqd]
    · simp [hqd]
  | fork i b =>
    obtain ⟨p, hp, ha, hw, rfl⟩ := step_fork e
    have hh : (if b then p.held else []) = [] := by
      cases b with
      | false => rfl
      | true => exact hs p hp
    rw [hh]
    have Ir := I.r; have Ib := I.bound; have Iw := I.w; have I1 := I.one; have Ie := I.excl
    refine ⟨?_, ?_, ?_, ?_, ?_, ?_⟩
    · simp only [total_append]; simpa [cnt] using Ir
    · exact Ib
    · simp only [total_append]; simpa [cnt] using Iw
    · simp only [total_append]; simpa [cnt] using I1
    · simp only [total_append]; simpa [cnt] using Ie
    · intro j q hq
      rw [List.getElem?_append] at hq
      split at hq
      · exact I.procs j q hq
      · rw [List.getElem?_singleton] at hq
        split at hq
        · cases hq; exact ⟨by simp [cnt], by simp, by simp⟩
        · cases hq

theorem inv_sound {s s' : State} {as : List Label} (I : Inv d s) (h : Sound s as s') : Inv d s' := by
  induction h with
  | nil => exact I
  | cons hs e _ ih => exact ih (inv_step I hs e)

theorem sound_of_run : ∀ (as : List Label) (s s' : State), (∀ i, Label.fork i true ∉ as) → run s as = some s' → Sound s as s'
  | [], s, s', _, e => by cases e; exact .nil s
  | a :: as, s, s', h, e => by
    simp only [run] at e
    cases h1 : step s a with
    | none => rw [h1] at e; cases e
    | some s1 =>
      rw [h1] at e
      refine .cons ?_ h1 (sound_of_run as s1 s' (fun i hi => h i (List.mem_cons_of_mem _ hi)) e)
      cases a with
      | fork i b =>
        cases b with
        | false => trivial
        | true => exact absurd List.mem_cons_self (h i)
      | _ => trivial

theorem inv_run {n : Nat} {as : List Label} {s : State} (h : ∀ i, Label.fork i true ∉ as) (e : run (start n) as = some s) : Inv 0 s :=
  inv_sound (inv_start n) (sound_of_run as _ _ h e)

theorem mem_write {s : State} (I : Inv d s) {i : Nat} {p : Proc} (hp : s.procs[i]? = some p) (hw : Kind.write ∈ p.held) :
    total .write s.procs = 1 ∧ total .read s.procs = 0 ∧ d = 0 := by
  have h1 := cnt_le .write s.procs i p hp
  have h2 : 0 < cnt .write p := List.count_pos_iff.2 hw
  have h3 := I.one
  have h4 := I.excl (by omega)
  omega

theorem held_nil {p : Proc} (hr : cnt .read p = 0) (hw : cnt .write p = 0) : p.held = [] := by
  cases h : p.held with
  | nil => rfl
  | cons k ks =>
    cases k with
    | read => simp [cnt, h] at hr
    | write => simp [cnt, h] at hw

theorem held_one {p : Proc} (hr : cnt .read p = 0) (hw : cnt .write p = 1) : p.held = [.write] := by
  cases h : p.held with
  | nil => simp [cnt, h] at hw
  | cons k ks =>
    cases k with
    | read => simp [cnt, h] at hr
    | write =>
      simp only [cnt, h, List.count_cons_self] at hw
      have hr' : List.count Kind.read ks = 0 := by simpa [cnt, h] using hr
      cases ks with
      | nil => rfl
      | cons k' ks' =>
        cases k' with
        | read => simp at hr'
        | write => simp at hw

theorem exclusive_of_inv {s : State} (I : Inv d s) : Exclusive s := by
  intro i p hp hw
  obtain ⟨h1, h2, _⟩ := mem_write I hp hw
  have l1 := cnt_le .write s.procs i p hp
  have l2 := cnt_le .read s.procs i p hp
  have l3 : 0 < cnt .write p := List.count_pos_iff.2 hw
  refine ⟨held_one (by omega) (by omega), fun j q hj hq => ?_⟩
  have m1 := cnt2_le .write s.procs j i q p hj hq hp
  have m2 := cnt_le .read s.procs j q hq
  exact held_nil (by omega) (by omega)

theorem total_zero {k : Kind} {ps : List Proc} (h : ∀ p ∈ ps, k ∉ p.held) : total k ps = 0 := by
  induction ps with
  | nil => rfl
  | cons x xs ih =>
    have h1 : cnt k x = 0 := List.count_eq_zero.2 (h x List.mem_cons_self)
    have h2 := ih (fun p hp => h p (List.mem_cons_of_mem _ hp))
    simp only [total, List.map_cons, List.sum_cons] at h2 ⊢
    omega

theorem not_mem_of_total {k : Kind} {ps : List Proc} (h : total k ps = 0) : ∀ p ∈ ps, k ∉ p.held := by
  intro p hp hm
  obtain ⟨i, hi⟩ := List.mem_iff_getElem?.1 hp
  have := cnt_le k ps i p hi
  have h2 : 0 < cnt k p := List.count_pos_iff.2 hm
  omega

theorem readers_eq (s : State) : readers s = total .read s.procs := rfl

theorem ret_isSome {s : State} {i : Nat} {p : Proc} {c : Call} (hp : s.procs[i]? = some p) (hc : p.wait = some c) :
    (step s (.ret i)).isSome = (semop s.sem p.adj c.ops).isSome := by
  simp only [step, hp, hc]
  split
  · rename_i h; rw [h]; rfl
  · rename_i h; rw [h]; rfl

/-- The read lock is granted unless somebody writes. -/
theorem grant_read {s : State} (I : Inv d s) {i : Nat} {p : Proc} (hp : s.procs[i]? = some p) (hc : p.wait = some (.lock .read)) :
    (step s (.ret i)).isSome = true ↔ (∀ q ∈ s.procs, Kind.write ∉ q.held) ∧ (readers s + d : Int) < 32767 := by
  rw [ret_isSome hp hc, semop_lr, readers_eq]
  have Ir := I.r; have Iw := I.w
  constructor
  · intro h
    split at h
    · rename_i hh
      obtain ⟨h1, h2, h3⟩ := hh
      simp only [SEMVMX] at h3
      exact ⟨not_mem_of_total (by omega), by omega⟩
    · cases h
  · rintro ⟨h1, h2⟩
    have h3 := total_zero h1
    rw [if_pos (by simp only [SEMVMX]; omega)]; rfl

theorem grant_write {s : State} (I : Inv d s) {i : Nat} {p : Proc} (hp : s.procs[i]? = some p) (hc : p.wait = some (.lock .write)) :
    (step s (.ret i)).isSome = true ↔ (∀ q ∈ s.procs, q.held = []) ∧ d = 0 := by
  rw [ret_isSome hp hc, semop_lw]
  have Ir := I.r; have Iw := I.w
  constructor
  · intro h
    split at h
    · rename_i hh
      refine ⟨fun q hq => ?_, by omega⟩
      have n1 := not_mem_of_total (k := .read) (ps := s.procs) (by omega) q hq
      have n2 := not_mem_of_total (k := .write) (ps := s.procs) (by omega) q hq
      exact held_nil (List.count_eq_zero.2 n1) (List.count_eq_zero.2 n2)
    · cases h
  · rintro ⟨h1, h2⟩
    have h3 := total_zero (k := .read) (ps := s.procs) (fun q hq => by rw [h1 q hq]; simp)
    have h4 := total_zero (k := .write) (ps := s.procs) (fun q hq => by rw [h1 q hq]; simp)
    rw [if_pos (by omega)]; rfl

theorem grant_unlock {s : State} (I : Inv d s) {i : Nat} {p : Proc} {k : Kind} (hp : s.procs[i]? = some p)
    (hc : p.wait = some (.unlock k)) : (step s (.ret i)).isSome = true := by
  rw [ret_isSome hp hc]
  have Ir := I.r; have Iw := I.w; have Ib := I.bound; have I1 := I.one
  have hm := (I.procs i p hp).2.1 k hc
  have hl := cnt_le k s.procs i p hp
  have h2 : 0 < cnt k p := List.count_pos_iff.2 hm
  simp only [SEMVMX] at Ib
  cases k with
  | read => rw [semop_ur, if_pos (by simp only [SEMVMX]; omega)]; rfl
  | write => rw [semop_uw, if_pos (by simp only [SEMVMX]; omega)]; rfl

/-- The steps that do not return from the call of process `i` and do not kill it leave it alone. -/
theorem step_frame {s s' : State} {i : Nat} {p : Proc} {c : Call} {a : Label} (hp : s.procs[i]? = some p) (hc : p.wait = some c)
    (hr : step s (.ret i) = none) (ha : a ≠ .kill i) (e : step s a = some s') : s'.procs[i]? = some p := by
  have setne : ∀ (j : Nat) (q : Proc), j ≠ i → (s.procs.set j q)[i]? = some p := fun j q h => by
    rw [List.getElem?_set_ne h]; exact hp
  cases a with
  | call j c' =>
    obtain ⟨q, hq, _, hw, _, rfl⟩ := step_call e
    refine setne j _ (fun h => ?_)
    subst h
    rw [hp] at hq; cases hq; rw [hc] at hw; cases hw
  | ret j =>
    by_cases h : j = i
    · subst h; rw [hr] at e; cases e
    · obtain ⟨q, c', v, adj, _, _, _, rfl⟩ := step_ret e
      exact setne j _ h
  | kill j =>
    by_cases h : j = i
    · subst h; exact absurd rfl ha
    · obtain ⟨q, _, _, rfl⟩ := step_kill e
      exact setne j _ h
  | fork j b =>
    obtain ⟨q, _, _, _, rfl⟩ := step_fork e
    obtain ⟨h, _⟩ := List.getElem?_eq_some_iff.1 hp
    rw [List.getElem?_append_left h]; exact hp

/-- A process that asks for a lock that its own locks exclude. -/
def Own (p : Proc) : Prop := ∃ k, p.wait = some (.lock k) ∧ ((k = .write ∧ p.held ≠ []) ∨ Kind.write ∈ p.held)

theorem own_none {s : State} (I : Inv d s) {i : Nat} {p : Proc} (hp : s.procs[i]? = some p) (ho : Own p) : step s (.ret i) = none := by
  obtain ⟨k, hk, ho⟩ := ho
  have hm : p ∈ s.procs := List.mem_iff_getElem?.2 ⟨i, hp⟩
  rw [← Option.not_isSome_iff_eq_none]
  intro h
  cases k with
  | read =>
    have h1 := ((grant_read I hp hk).1 h).1 p hm
    rcases ho with ⟨ho, _⟩ | ho
    · cases ho
    · exact h1 ho
  | write =>
    have h1 := ((grant_write I hp hk).1 h).1 p hm
    rcases ho with ⟨_, ho⟩ | ho
    · exact ho h1
    · rw [h1] at ho; cases ho

theorem own_run {i : Nat} {p : Proc} (ho : Own p) : ∀ (as : List Label) (s s' : State), Inv d s → s.procs[i]? = some p →
    Sound s as s' → Label.kill i ∉ as → Inv d s' ∧ s'.procs[i]? = some p := by
  intro as s s' I hp h
  induction h with
  | nil => intro _; exact ⟨I, hp⟩
  | cons hs e _ ih =>
    intro hk
    obtain ⟨k, hw, _⟩ := id ho
    refine ih (inv_step I hs e) (step_frame hp hw (own_none I hp ho) (fun h => hk (h ▸ List.mem_cons_self)) e)
      (fun h => hk (List.mem_cons_of_mem _ h))

theorem run_append : ∀ (as bs : List Label) (s : State), run s (as ++ bs) = (run s as).bind (run · bs)
  | [], bs, s => rfl
  | a :: as, bs, s => by
    simp only [List.cons_append, run]
    cases step s a with
    | none => rfl
    | some s1 => exact run_append as bs s1

end Verif.MapNest
