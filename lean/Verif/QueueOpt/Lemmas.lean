/-
  The calls with flags and times keep to the specification.
-/
import Verif.QueueApi.Lemmas
import Verif.QueueOpt.Spec

namespace Verif.QueueOpt
open Verif.QueueApi Verif.QueueApi.Spec

theorem tdiv_tmod (u : Int) : u.tdiv 1000000 * 1000000 + u.tmod 1000000 = u := by
  have := Int.tdiv_mul_add_tmod u 1000000
  omega

theorem toTs_ns (u : Int) : (toTs u).ns = u * 1000 := by
  have := tdiv_tmod u
  simp only [toTs, Timespec.ns]
  omega

theorem toTs_valid (u : Int) : (toTs u).valid = true ↔ 0 ≤ u := by
  have h := tdiv_tmod u
  unfold Timespec.valid
  rw [decide_eq_true_iff]
  simp only [toTs]
  constructor
  · rintro ⟨a, b, -⟩
    omega
  · intro hu
    have h1 : 0 ≤ u.tmod 1000000 := Int.tmod_nonneg _ hu
    have h2 : u.tmod 1000000 < 1000000 := Int.tmod_lt_of_pos u (by decide)
    have h3 : 0 ≤ u.tdiv 1000000 := Int.tdiv_nonneg hu (by decide)
    omega

structure XRel (x : XWorld) (s : State) : Prop where
  rel : Rel x.w s
  adj : ∀ h k, x.adj h k = 0

theorem init_xrel : XRel XWorld.init State.init := ⟨init_rel, fun _ _ => rfl⟩

theorem quick_some {s s' : State} {op : Op} {as : List Answer} (h : Spec.quick s op = some (s', as)) : ∃ r, QueueApi.Spec.step s op = some (s', r) ∧ as = [⟨r, 0⟩] := by
  unfold Spec.quick at h
  cases e : QueueApi.Spec.step s op with
  | none => rw [e] at h; cases h
  | some p =>
    rw [e] at h
    obtain ⟨s1, r⟩ := p
    simp only [Option.some.injEq, Prod.mk.injEq] at h
    obtain ⟨rfl, rfl⟩ := h
    exact ⟨r, rfl, rfl⟩

theorem call_sim {x : XWorld} {s s' : State} {op : Op} {as : List Answer} (R : XRel x s) (h : Spec.quick s op = some (s', as)) : ∃ x', one (call x op) = .ok (x', as) ∧ XRel x' s' := by
  obtain ⟨r, h1, rfl⟩ := quick_some h
  obtain ⟨w', h2, h3⟩ := step_sim R.rel op h1
  exact ⟨{ x with w := w' }, by simp only [call, h2, Res.ok_bind, one], h3, R.adj⟩

theorem flushBy_sim {x : XWorld} {s : State} (R : XRel x s) (g : Nat) : ∃ x', flushBy x g = .ok (x', ⟨.unit, 0⟩) ∧ XRel x' (QueueApi.Spec.flush s g) := by
  obtain ⟨w', h1, h2⟩ := flush_sim R.rel g
  exact ⟨{ x with w := w' }, by simp only [flushBy, QueueApi.flush, h1, Res.ok_bind], h2, R.adj⟩

theorem record_noundo (x : XWorld) (h : Nat) (f : Flags) (hf : f.undo = false) : record x h f = x := by
  unfold record
  cases (x.w.hs h).sem <;> simp [hf]

theorem take_sim {x : XWorld} {s s' : State} {r : Reply} (R : XRel x s) (h : Nat) (f : Flags) (hf : f.undo = false) (hs : QueueApi.Spec.step s (.unflush h) = some (s', r)) :
    ∃ x', take x h f = .ok (x', r) ∧ XRel x' s' := by
  obtain ⟨w', h2, h3⟩ := step_sim R.rel (.unflush h) hs
  have h2' : QueueApi.unflush x.w h = .ok (w', r) := h2
  exact ⟨{ x with w := w' }, by simp only [take, h2', Res.ok_bind, record_noundo x h f hf], h3, R.adj⟩

/-- What unflush finds. -/
inductive Finds (x : XWorld) (s : State) (h : Nat) : Prop where
  | alone (h1 : (x.w.hs h).boxes = false) (h2 : Spec.boxes s h = none) (h3 : QueueApi.Spec.step s (.unflush h) = some (s, .bool false))
  | empty (h1 : (x.w.hs h).boxes = true) (h2 : Spec.boxes s h = some []) (h3 : QueueApi.Spec.step s (.unflush h) = some (s, .bool false)) (h4 : boxCount x.w (x.w.hs h) = some 0)
  | box (b : List UInt8) (rest : List (List UInt8)) (h1 : (x.w.hs h).boxes = true) (h2 : Spec.boxes s h = some (b :: rest)) (s' : State)
      (h3 : QueueApi.Spec.step s (.unflush h) = some (s', .bool true)) (h4 : boxCount x.w (x.w.hs h) = some (rest.length + 1))

theorem finds {x : XWorld} {s : State} (R : Rel x.w s) (h : Nat) : Finds x s h := by
  cases hk : (s.us h).key with
  | none =>
    refine .alone ?_ ?_ ?_
    · rw [(R.h h).boxes, hk]; rfl
    · simp [Spec.boxes, hk]
    · simp [QueueApi.Spec.step, hk]
  | some k =>
    obtain ⟨seg, q, e1, e2, e3, S, hl, i1, i2, i3⟩ := R.conn hk
    cases hi : q.items with
    | nil => exact .empty i2 (by simp [Spec.boxes, hk, e3, hi]) (by simp [QueueApi.Spec.step, hk, e3, hi]) (by simp [boxCount, i3, e2, hi])
    | cons b rest => exact .box b rest i2 (by simp [Spec.boxes, hk, e3, hi]) _ (by simp only [QueueApi.Spec.step, hk, e3, hi]; rfl) (by simp [boxCount, i3, e2, hi])

theorem unflush_sim {x : XWorld} {s s' : State} {as : List Answer} (R : XRel x s) (h : Nat) (f : Flags) (usec : Int) (hf : f.undo = false) (hu : 0 ≤ usec)
    (hs : Spec.unflush s h f.nowait usec = some (s', as)) : ∃ x' a, unflush x h f usec = .ok (x', a) ∧ as = [a] ∧ XRel x' s' := by
  have hv := (toTs_valid usec).2 hu
  rcases finds R.rel h with ⟨h1, h2, h3⟩ | ⟨h1, h2, h3, h4⟩ | ⟨b, rest, h1, h2, s1, h3, h4⟩
  · simp only [Spec.unflush, Spec.starved, h2, Bool.false_and, Spec.quick, h3] at hs
    cases hs
    exact ⟨x, _, by simp [unflush, h1], rfl, R⟩
  · cases hn : f.nowait
    · simp [Spec.unflush, Spec.starved, h2, hn] at hs
      obtain ⟨rfl, rfl⟩ := hs
      exact ⟨x, ⟨.bool false, usec * 1000⟩, by simp [unflush, h1, semtimedop, hv, h4, hn, toTs_ns], rfl, R⟩
    · simp only [Spec.unflush, Spec.starved, h2, hn, Bool.not_true, Bool.and_false, Spec.quick, h3] at hs
      cases hs
      exact ⟨x, _, by simp [unflush, h1, semtimedop, hv, h4, hn], rfl, R⟩
  · simp only [Spec.unflush, Spec.starved, h2, Bool.false_and, Spec.quick, h3] at hs
    cases hs
    obtain ⟨x', t1, t2⟩ := take_sim R h f hf h3
    exact ⟨x', _, by simp [unflush, h1, semtimedop, hv, h4, t1], rfl, t2⟩

theorem both_some {a : Option (State × List Answer)} {g : State → Option (State × List Answer)} {s' : State} {as : List Answer} (h : Spec.both a g = some (s', as)) :
    ∃ s1 x y, a = some (s1, x) ∧ g s1 = some (s', y) ∧ as = x ++ y := by
  unfold Spec.both at h
  cases ha : a with
  | none => rw [ha] at h; cases h
  | some p =>
    rw [ha] at h
    obtain ⟨s1, x⟩ := p
    simp only at h
    cases hb : g s1 with
    | none => rw [hb] at h; cases h
    | some p =>
      rw [hb] at h
      obtain ⟨s2, y⟩ := p
      simp only [Option.some.injEq, Prod.mk.injEq] at h
      obtain ⟨rfl, rfl⟩ := h
      exact ⟨s1, x, y, rfl, hb, rfl⟩

theorem oneByOne_sim {x : XWorld} {s s' : State} {as : List Answer} (R : XRel x s) (h : Nat) (f : Flags) (usec : Int) (g : Nat) (hf : f.undo = false) (hu : 0 ≤ usec)
    (hs : Spec.both (Spec.unflush s h f.nowait usec) (fun s => Spec.quick s (.flush g)) = some (s', as)) : ∃ x', oneByOne x h f usec g = .ok (x', as) ∧ XRel x' s' := by
  obtain ⟨s1, a, b, h1, h2, rfl⟩ := both_some hs
  obtain ⟨x1, a1, t1, rfl, R1⟩ := unflush_sim R h f usec hf hu h1
  obtain ⟨x2, t2, R2⟩ := flushBy_sim R1 g
  simp only [Spec.quick, QueueApi.Spec.step, Option.some.injEq, Prod.mk.injEq] at h2
  obtain ⟨rfl, rfl⟩ := h2
  exact ⟨x2, by simp only [oneByOne, t1, Res.ok_bind, t2]; rfl, R2⟩

theorem flush_us (s : State) (g h : Nat) (hg : h ≠ g) : (QueueApi.Spec.flush s g).us h = s.us h := by
  simp only [QueueApi.Spec.flush]
  cases hk : (s.us g).key with
  | none => simp [QueueApi.set, hg]
  | some k => cases hq : s.qs k <;> simp [QueueApi.set, hg, hq]

theorem undo_nothing {x : XWorld} {s : State} (R : XRel x s) (h : Nat) : XRel (undo x h) s := by
  refine ⟨⟨fun k => ?_, R.rel.h⟩, fun i k => ?_⟩
  · have Q := R.rel.q k
    simp only [undo, R.adj]
    cases h1 : x.w.segs k <;> cases h2 : x.w.sems k <;> cases h3 : s.qs k <;> rw [h1, h2, h3] at Q <;> try exact Q.elim
    · exact Q
    · rename_i seg sem q
      obtain ⟨Q1, rfl⟩ := Q
      refine ⟨Q1, ?_⟩
      have hm := Q1.room
      have := ((fit_iff _ _).1 Q1.fit).2.1
      simp only [Nat.add_zero, SEMVMX, Sem.mk.injEq, true_and]
      omega
  · simp only [undo, R.adj]
    split <;> rfl

theorem xstep_sim {x : XWorld} {s s' : State} {as : List Answer} (R : XRel x s) (op : XOp) (hs : Spec.step s op = some (s', as)) : ∃ x', xstep x op = .ok (x', as) ∧ XRel x' s' := by
  cases op with
  | call op => exact call_sim R hs
  | unflush h f usec =>
    simp only [Spec.step] at hs
    split at hs
    · cases hs
    · rename_i hc
      obtain ⟨x', a, t, rfl, R'⟩ := unflush_sim R h f usec (by simpa using fun e => hc (.inl e)) (by omega) hs
      exact ⟨x', by simp only [xstep, t, one, Res.ok_bind], R'⟩
  | exit h =>
    obtain ⟨x', t, R'⟩ := call_sim (op := .disconnect h) R hs
    simp only [call, QueueApi.step] at t
    simp only [xstep, exit]
    cases hd : QueueApi.disconnect x.w h with
    | ub => rw [hd] at t; simp only [Res.ub_bind, one] at t; cases t
    | ok p =>
      rw [hd] at t
      simp only [Res.ok_bind, one, Res.ok.injEq, Prod.mk.injEq] at t
      obtain ⟨rfl, rfl⟩ := t
      exact ⟨undo { x with w := p.1 } h, rfl, undo_nothing R' h⟩
  | race h f usec t g =>
    simp only [Spec.step] at hs
    split at hs
    · cases hs
    · rename_i hc
      have hf : f.undo = false := by simpa using fun e => hc (.inl e)
      have hu : 0 ≤ usec := by omega
      have hv := (toTs_valid usec).2 hu
      simp only [xstep, race]
      rcases finds R.rel h with ⟨h1, h2, h3⟩ | ⟨h1, h2, h3, h4⟩ | ⟨b, rest, h1, h2, s1, h3, h4⟩
      · simp only [Spec.starved, h2, Bool.false_and, Bool.false_eq_true, if_false] at hs
        rw [h1]
        exact oneByOne_sim R h f usec g hf hu hs
      · cases hn : f.nowait
        · by_cases ht : (t : Int) < usec * 1000
          · simp only [Spec.starved, h2, hn, Bool.not_false, Bool.and_true, ht, decide_true, if_true] at hs
            obtain ⟨x1, t1, R1⟩ := flushBy_sim R g
            simp only [h1, if_true, semtimedop, hv, h4, hn, Bool.false_eq_true, if_false, toTs_ns, ht, meanwhile, t1, Res.ok_bind]
            rcases finds R1.rel h with ⟨k1, k2, k3⟩ | ⟨k1, k2, k3, k4⟩ | ⟨b, rest, k1, k2, s2, k3, k4⟩
            · rw [k3] at hs
              cases hs
              exfalso
              have hk : (s.us h).key = none := by
                have e1 := (R1.rel.h h).boxes
                rw [k1] at e1
                have e2 : ((QueueApi.Spec.flush s g).us h).key = (s.us h).key := by
                  rw [flush_us s g h (fun e => hc (.inr (.inr e)))]
                rw [e2] at e1
                cases hh : (s.us h).key with
                | none => rfl
                | some k => rw [hh] at e1; cases e1
              have e1 := (R.rel.h h).boxes
              rw [h1, hk] at e1
              cases e1
            · rw [k3] at hs
              cases hs
              simp only [k4]
              exact ⟨x1, rfl, R1⟩
            · rw [k3] at hs
              cases hs
              obtain ⟨x2, t2, R2⟩ := take_sim R1 h f hf k3
              simp only [k4, t2, Res.ok_bind]
              exact ⟨x2, rfl, R2⟩
          · simp only [Spec.starved, h2, hn, Bool.not_false, Bool.and_true, ht, decide_false, Bool.and_false, Bool.false_eq_true, if_false] at hs
            simp only [h1, if_true, semtimedop, hv, h4, hn, Bool.false_eq_true, if_false, toTs_ns, ht]
            exact oneByOne_sim R h f usec g hf hu (by rw [hn]; exact hs)
        · simp only [hn, Bool.not_true, Bool.and_false, Bool.false_and, Bool.false_eq_true, if_false] at hs
          simp only [h1, if_true, semtimedop, hv, h4, hn]
          exact oneByOne_sim R h f usec g hf hu (by rw [hn]; exact hs)
      · simp only [Spec.starved, h2, Bool.false_and, Bool.false_eq_true, if_false] at hs
        simp only [h1, if_true, semtimedop, hv, h4]
        exact oneByOne_sim R h f usec g hf hu hs

theorem xrun_sim (ops : List XOp) : ∀ {x : XWorld} {s s' : State} {as : List Answer}, XRel x s → Spec.run s ops = some (s', as) → ∃ x', xrun x ops = .ok (x', as) ∧ XRel x' s' := by
  induction ops with
  | nil =>
    intro x s s' as R h
    cases h
    exact ⟨x, rfl, R⟩
  | cons op ops ih =>
    intro x s s' as R h
    obtain ⟨s1, a, b, h1, h2, rfl⟩ := both_some h
    obtain ⟨x1, t1, R1⟩ := xstep_sim R op h1
    obtain ⟨x2, t2, R2⟩ := ih R1 h2
    exact ⟨x2, by simp only [xrun, t1, Res.ok_bind, t2], R2⟩

theorem xrun_append (a b : List XOp) : ∀ {x x1 : XWorld} {as : List Answer}, xrun x a = .ok (x1, as) → ∀ {x2 : XWorld} {bs : List Answer}, xrun x1 b = .ok (x2, bs) →
    xrun x (a ++ b) = .ok (x2, as ++ bs) := by
  induction a with
  | nil =>
    intro x x1 as h x2 bs h2
    simp only [xrun, Res.ok.injEq, Prod.mk.injEq] at h
    obtain ⟨rfl, rfl⟩ := h
    exact h2
  | cons op a ih =>
    intro x x1 as h x2 bs h2
    simp only [xrun, List.cons_append] at h ⊢
    cases hs : xstep x op with
    | ub => rw [hs] at h; simp only [Res.ub_bind] at h; cases h
    | ok p =>
      rw [hs] at h
      simp only [Res.ok_bind] at h ⊢
      cases hr : xrun p.1 a with
      | ub => rw [hr] at h; simp only [Res.ub_bind] at h; cases h
      | ok p2 =>
        rw [hr] at h
        simp only [Res.ok_bind, Res.ok.injEq, Prod.mk.injEq] at h
        obtain ⟨rfl, rfl⟩ := h
        rw [ih hr h2]
        simp only [Res.ok_bind, List.append_assoc]

end Verif.QueueOpt
