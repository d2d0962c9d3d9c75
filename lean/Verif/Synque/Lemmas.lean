import Verif.Synque.Spec

set_option linter.unusedSimpArgs false
set_option linter.unusedVariables false

namespace Verif.Synque

variable {T : Type}

/-- What the owner of the mutex has taken and not yet returned. -/
def Mode.out : Mode T → List T
  | .g3 _ _ _ out _ | .g3w _ _ _ out _ _ | .g4 _ _ out _ => out
  | _ => []

def Data (s : State T) (m : Mode T) : Prop :=
  s.acc.map Prod.snd = got s ++ m.out ++ s.d.reverse ∧
  match m with
  | .a1w _ copy => copy = s.d
  | .z2 n => n = s.d.length
  | .g3 rq _ k out d0 => d0 ≠ [] ∧ out ++ s.d.reverse = d0.reverse ∧ k + out.length = quantity rq d0.length
  | .g3w rq _ k out d0 copy => d0 ≠ [] ∧ out ++ s.d.reverse = d0.reverse ∧ k + out.length = quantity rq d0.length ∧ 1 ≤ k ∧ copy = s.d
  | .g4 rq ret out d0 => (ret = 0 ∧ d0 ≠ [] ∧ out.length = quantity rq d0.length ∧ out ++ s.d.reverse = d0.reverse) ∨
      (ret = -1 ∧ out = [] ∧ d0 = [])
  | _ => True

theorem Data.congr {s s' : State T} {m : Mode T} (h : Data s m) (h1 : s'.acc = s.acc) (h2 : s'.rets = s.rets) (h3 : s'.d = s.d) : Data s' m := by
  unfold Data got at h ⊢
  rw [h1, h2, h3]
  exact h

structure Inv (s : State T) : Prop where
  ub : s.ub = false
  lock : (s.mtx = none ∧ (∀ m ∈ s.thr, m.locked = false) ∧ Data s .idle) ∨
    (∃ (i : Nat) (m : Mode T), s.mtx = some i ∧ s.thr[i]? = some m ∧ m.locked = true ∧
      (∀ (j : Nat) (q : Mode T), j ≠ i → s.thr[j]? = some q → q.locked = false) ∧ Data s m)
  rets : ∀ r ∈ s.rets, RetOk r
  sizes : ∀ z ∈ s.sizes, z.1 + z.2.2 = z.2.1

theorem mem_set {α} {ps : List α} {i : Nat} {q x : α} (h : x ∈ ps.set i q) : x ∈ ps ∨ x = q := List.mem_or_eq_of_mem_set h

theorem get_set {ps : List (Mode T)} {i : Nat} {p q : Mode T} (hp : ps[i]? = some p) : (ps.set i q)[i]? = some q := by
  have hlt : i < ps.length := (List.getElem?_eq_some_iff.mp hp).1
  simp [hlt]

theorem held {s : State T} (h : Inv s) {i : Nat} {m : Mode T} (hp : s.thr[i]? = some m) (hl : m.locked = true) :
    s.mtx = some i ∧ (∀ (j : Nat) (q : Mode T), j ≠ i → s.thr[j]? = some q → q.locked = false) ∧ Data s m := by
  rcases h.lock with ⟨_, h2, _⟩ | ⟨j, q, hm, hq, hql, ho, hd⟩
  · rw [h2 m (List.mem_of_getElem? hp)] at hl; simp at hl
  · by_cases hij : i = j
    · subst hij
      rw [hp] at hq
      simp only [Option.some.injEq] at hq
      subst hq
      exact ⟨hm, ho, hd⟩
    · rw [ho i m hij hp] at hl; simp at hl

/-- a thread without the mutex stays without it -/
theorem inv_local {s : State T} (h : Inv s) {i : Nat} {m q : Mode T} (hp : s.thr[i]? = some m) (hm : m.locked = false) (hq : q.locked = false) :
    Inv (s.upd i q) := by
  refine ⟨h.ub, ?_, h.rets, h.sizes⟩
  rcases h.lock with ⟨h1, h2, h3⟩ | ⟨j, x, hj, hx, hxl, ho, hd⟩
  · left
    refine ⟨h1, ?_, h3.congr rfl rfl rfl⟩
    intro y hy
    rcases mem_set hy with hy | rfl
    · exact h2 y hy
    · exact hq
  · right
    refine ⟨j, x, hj, ?_, hxl, ?_, hd.congr rfl rfl rfl⟩
    · show (s.thr.set i q)[j]? = some x
      rw [List.getElem?_set, if_neg]
      · exact hx
      · rintro rfl
        rw [hp] at hx
        simp only [Option.some.injEq] at hx
        subst hx
        rw [hm] at hxl; simp at hxl
    · intro k z hk hz
      have hz' : (s.thr.set i q)[k]? = some z := hz
      rw [List.getElem?_set] at hz'
      split at hz'
      · split at hz'
        · simp only [Option.some.injEq] at hz'; subst hz'; exact hq
        · simp at hz'
      · exact ho k z hk hz'

theorem inv_inside {s s' : State T} {i : Nat} {m q : Mode T} (hp : s.thr[i]? = some m)
    (ho : ∀ (j : Nat) (r : Mode T), j ≠ i → s.thr[j]? = some r → r.locked = false) (ht : s'.thr = s.thr) (hm : s'.mtx = some i)
    (hu : s'.ub = false) (hr : ∀ r ∈ s'.rets, RetOk r) (hsz : ∀ z ∈ s'.sizes, z.1 + z.2.2 = z.2.1) (hq : q.locked = true) (hd : Data s' q) : Inv (s'.upd i q) := by
  refine ⟨hu, Or.inr ⟨i, q, hm, ?_, hq, ?_, hd.congr rfl rfl rfl⟩, hr, hsz⟩
  · show (s'.thr.set i q)[i]? = some q
    rw [ht]; exact get_set hp
  · intro k z hk hz
    have hz' : (s'.thr.set i q)[k]? = some z := hz
    rw [ht, List.getElem?_set, if_neg (fun hh => hk hh.symm)] at hz'
    exact ho k z hk hz'

theorem inv_leave {s s' : State T} {i : Nat} {m q : Mode T} (hp : s.thr[i]? = some m)
    (ho : ∀ (j : Nat) (r : Mode T), j ≠ i → s.thr[j]? = some r → r.locked = false) (ht : s'.thr = s.thr) (hm : s'.mtx = none)
    (hu : s'.ub = false) (hr : ∀ r ∈ s'.rets, RetOk r) (hsz : ∀ z ∈ s'.sizes, z.1 + z.2.2 = z.2.1) (hq : q.locked = false) (hd : Data s' .idle) : Inv (s'.upd i q) := by
  refine ⟨hu, Or.inl ⟨hm, ?_, hd.congr rfl rfl rfl⟩, hr, hsz⟩
  intro x hx
  obtain ⟨k, hk⟩ := List.getElem?_of_mem hx
  have hk' : (s'.thr.set i q)[k]? = some x := hk
  rw [ht, List.getElem?_set] at hk'
  split at hk'
  · split at hk'
    · simp only [Option.some.injEq] at hk'; subst hk'; exact hq
    · simp at hk'
  · rename_i hik
    exact ho k x (fun hh => hik hh.symm) hk'

theorem lock_some {s s' : State T} {i : Nat} {m : Mode T} (h : s.lock i m = some s') : s.mtx = none ∧ s' = { s with mtx := some i }.upd i m := by
  unfold State.lock at h
  split at h
  · rename_i hm
    simp only [Option.some.injEq] at h
    exact ⟨hm, h.symm⟩
  · simp at h

theorem inv_lock {s s' : State T} (h : Inv s) {i : Nat} {m q : Mode T} (hp : s.thr[i]? = some m) (he : s.lock i q = some s')
    (hq : q.locked = true) (hd : Data s .idle → Data s q) : Inv s' := by
  obtain ⟨hm, rfl⟩ := lock_some he
  rcases h.lock with ⟨_, h2, h3⟩ | ⟨j, x, hj, _⟩
  · exact inv_inside (s' := { s with mtx := some i }) hp (fun j r _ hr => h2 r (List.mem_of_getElem? hr)) rfl rfl h.ub h.rets h.sizes hq
      ((hd h3).congr rfl rfl rfl)
  · rw [hm] at hj; simp at hj

theorem unlock_eq {s : State T} {i : Nat} {m : Mode T} (h : s.mtx = some i) : s.unlock i m = { s with mtx := none }.upd i m := by
  unfold State.unlock; rw [if_pos h]

theorem quantity_pos {rq : Req} {n : Nat} (h : 1 ≤ n) : 1 ≤ quantity rq n ∧ quantity rq n ≤ n := by
  unfold quantity
  split
  · exact ⟨Nat.le_refl _, h⟩
  · split
    · omega
    · omega

theorem quantity_spec {rq : Req} {n : Nat} (h : 1 ≤ n) : quantity rq n =
    (match rq.max with
      | none => 1
      | some m => if m ≤ 0 then n else min m.toNat n) := by
  unfold quantity
  cases rq.max with
  | none => rfl
  | some m =>
    dsimp only
    split <;> split <;> omega

theorem take_len {out a b : List T} {k : Nat} (h : out ++ a = b) (hl : out.length = k) : out = b.take k := by
  rw [← h, ← hl, List.take_left']
  rfl

theorem inv_adv {s s' : State T} (h : Inv s) {i : Nat} {m : Mode T} (hp : s.thr[i]? = some m) (he : adv s i m = some s') : Inv s' := by
  cases m with
  | idle => simp [adv] at he
  | gw rq => simp [adv] at he
  | a0 e => exact inv_lock h hp he rfl (fun hd => ⟨hd.1, trivial⟩)
  | s0 => exact inv_lock h hp he rfl (fun hd => ⟨hd.1, trivial⟩)
  | g0 rq => exact inv_lock h hp he rfl (fun hd => ⟨hd.1, trivial⟩)
  | gr rq => exact inv_lock h hp he rfl (fun hd => ⟨hd.1, trivial⟩)
  | a1 e =>
    obtain ⟨hm, ho, hd⟩ := held h hp rfl
    simp only [adv, Option.some.injEq] at he
    rw [← he]
    exact inv_inside hp ho rfl hm h.ub h.rets h.sizes rfl ⟨hd.1, rfl⟩
  | a1w e copy =>
    obtain ⟨hm, ho, hd1, hd2⟩ := held h hp rfl
    simp only [adv, Option.some.injEq] at he
    rw [← he]
    refine inv_inside (s' := { s with d := e :: copy, acc := s.acc ++ [(i, e)] }) hp ho rfl hm h.ub h.rets h.sizes rfl ⟨?_, trivial⟩
    have hd2' : copy = s.d := hd2
    simp only [Mode.out, List.append_nil] at hd1
    show (s.acc ++ [(i, e)]).map Prod.snd = s.rets.flatMap (·.out) ++ [] ++ (e :: copy).reverse
    rw [List.map_append, hd1, hd2']
    simp [got]
  | a2 =>
    obtain ⟨hm, ho, hd⟩ := held h hp rfl
    simp only [adv] at he
    split at he
    · simp at he
    · simp only [Option.some.injEq] at he
      rw [← he]
      exact inv_inside hp ho rfl hm h.ub h.rets h.sizes rfl ⟨hd.1, trivial⟩
  | s1 =>
    obtain ⟨hm, ho, hd⟩ := held h hp rfl
    simp only [adv] at he
    split at he
    · simp at he
    · simp only [Option.some.injEq] at he
      rw [← he]
      exact inv_inside hp ho rfl hm h.ub h.rets h.sizes rfl ⟨hd.1, trivial⟩
  | a3 =>
    obtain ⟨hm, ho, hd⟩ := held h hp rfl
    simp only [adv, Option.some.injEq, unlock_eq hm] at he
    rw [← he]
    exact inv_leave (s' := { s with mtx := none }) hp ho rfl rfl h.ub h.rets h.sizes rfl ⟨hd.1, trivial⟩
  | s2 =>
    obtain ⟨hm, ho, hd⟩ := held h hp rfl
    simp only [adv, Option.some.injEq, unlock_eq hm] at he
    rw [← he]
    exact inv_leave (s' := { s with mtx := none }) hp ho rfl rfl h.ub h.rets h.sizes rfl ⟨hd.1, trivial⟩
  | z0 => exact inv_lock h hp he rfl (fun hd => ⟨hd.1, trivial⟩)
  | z1 =>
    obtain ⟨hm, ho, hd⟩ := held h hp rfl
    simp only [adv, Option.some.injEq] at he
    rw [← he]
    exact inv_inside hp ho rfl hm h.ub h.rets h.sizes rfl ⟨hd.1, rfl⟩
  | z2 n =>
    obtain ⟨hm, ho, hd1, hd2⟩ := held h hp rfl
    have hd2' : n = s.d.length := hd2
    simp only [Mode.out, List.append_nil] at hd1
    simp only [adv, Option.some.injEq] at he
    rw [unlock_eq (s := { s with sizes := s.sizes ++ [(n, s.acc.length, (s.rets.flatMap Ret.out).length)] }) hm] at he
    rw [← he]
    refine inv_leave (s' := { s with sizes := s.sizes ++ [(n, s.acc.length, (s.rets.flatMap Ret.out).length)], mtx := none }) hp ho rfl rfl
      h.ub h.rets ?_ rfl ⟨?_, trivial⟩
    rotate_left
    · show s.acc.map Prod.snd = got s ++ [] ++ s.d.reverse
      rw [List.append_nil]; exact hd1
    intro z hz
    rcases List.mem_append.mp hz with hz | hz
    · exact h.sizes z hz
    · rw [List.mem_singleton] at hz
      rw [hz]
      have := congrArg List.length hd1
      rw [List.length_map, List.length_append, List.length_reverse] at this
      show n + (got s).length = s.acc.length
      omega
  | g1 rq =>
    obtain ⟨hm, ho, hd⟩ := held h hp rfl
    simp only [adv] at he
    split at he
    · rename_i hemp
      split at he
      · simp only [Option.some.injEq, unlock_eq hm] at he
        rw [← he]
        exact inv_leave (s' := { s with mtx := none }) hp ho rfl rfl h.ub h.rets h.sizes rfl ⟨hd.1, trivial⟩
      · simp only [Option.some.injEq] at he
        rw [← he]
        refine inv_inside hp ho rfl hm h.ub h.rets h.sizes rfl ⟨hd.1, Or.inr ⟨rfl, rfl, List.isEmpty_iff.mp hemp⟩⟩
    · rename_i hemp
      simp only [Option.some.injEq] at he
      rw [← he]
      refine inv_inside hp ho rfl hm h.ub h.rets h.sizes rfl ⟨hd.1, fun hh => hemp (List.isEmpty_iff.mpr hh), rfl, rfl⟩
  | g2 rq =>
    obtain ⟨hm, ho, hd⟩ := held h hp rfl
    simp only [adv] at he
    split at he
    · rename_i hemp
      simp only [Option.some.injEq] at he
      rw [← he]
      refine inv_inside hp ho rfl hm h.ub h.rets h.sizes rfl ⟨hd.1, Or.inr ⟨rfl, rfl, List.isEmpty_iff.mp hemp⟩⟩
    · rename_i hemp
      simp only [Option.some.injEq] at he
      rw [← he]
      refine inv_inside hp ho rfl hm h.ub h.rets h.sizes rfl ⟨hd.1, fun hh => hemp (List.isEmpty_iff.mpr hh), rfl, rfl⟩
  | g3 rq w k out d0 =>
    obtain ⟨hm, ho, hd1, hd2, hd3, hd4⟩ := held h hp rfl
    cases k with
    | zero =>
      simp only [adv, Option.some.injEq] at he
      rw [← he]
      refine inv_inside hp ho rfl hm h.ub h.rets h.sizes rfl ⟨hd1, Or.inl ⟨rfl, hd2, by omega, hd3⟩⟩
    | succ k =>
      simp only [adv, Option.some.injEq] at he
      rw [← he]
      refine inv_inside hp ho rfl hm h.ub h.rets h.sizes rfl ⟨hd1, hd2, hd3, hd4, by omega, rfl⟩
  | g3w rq w k out d0 copy =>
    obtain ⟨hm, ho, hd1, hd2, hd3, hd4, hd5, hd6⟩ := held h hp rfl
    have hd6' : copy = s.d := hd6
    subst hd6'
    simp only [Mode.out] at hd1
    have hne : s.d ≠ [] := by
      intro hh
      rw [hh] at hd3
      have hl := congrArg List.length hd3
      simp at hl
      have := (quantity_pos (rq := rq) (List.length_pos_iff.mpr hd2)).2
      omega
    have hsplit := List.dropLast_concat_getLast hne
    have hrev : s.d.reverse = s.d.getLast hne :: s.d.dropLast.reverse := by
      conv => lhs; rw [← hsplit]
      simp
    simp only [adv, List.getLast?_eq_some_getLast hne, Option.some.injEq] at he
    rw [← he]
    refine inv_inside (s' := { s with d := s.d.dropLast }) hp ho rfl hm h.ub h.rets h.sizes rfl ⟨?_, hd2, ?_, ?_⟩
    · show s.acc.map Prod.snd = got s ++ (out ++ [s.d.getLast hne]) ++ s.d.dropLast.reverse
      rw [hd1, hrev]; simp
    · show out ++ [s.d.getLast hne] ++ s.d.dropLast.reverse = d0.reverse
      rw [← hd3, hrev]; simp
    · show k - 1 + (out ++ [s.d.getLast hne]).length = quantity rq d0.length
      rw [List.length_append, List.length_singleton]; omega
  | g4 rq ret out d0 =>
    obtain ⟨hm, ho, hd1, hd2⟩ := held h hp rfl
    simp only [Mode.out] at hd1
    simp only [adv, Option.some.injEq] at he
    rw [unlock_eq (s := { s with rets := s.rets ++ [⟨i, rq, ret, out, d0⟩] }) hm] at he
    rw [← he]
    refine inv_leave (s' := { s with rets := s.rets ++ [⟨i, rq, ret, out, d0⟩], mtx := none }) hp ho rfl rfl h.ub ?_ h.sizes rfl ⟨?_, trivial⟩
    · intro r hr
      rcases List.mem_append.mp hr with hr | hr
      · exact h.rets r hr
      · rw [List.mem_singleton] at hr
        rw [hr]
        rcases hd2 with ⟨e1, e2, e3, e4⟩ | ⟨e1, e2, e3⟩
        · left
          refine ⟨e1, e2, ?_⟩
          rw [quantity_spec (List.length_pos_iff.mpr e2)] at e3
          exact take_len e4 e3
        · right
          exact ⟨e1, e3, e2⟩
    · show s.acc.map Prod.snd = (s.rets ++ [Ret.mk i rq ret out d0]).flatMap Ret.out ++ [] ++ s.d.reverse
      rw [hd1]; simp [got]

theorem inv_step {s s' : State T} {l : Label T} (h : Inv s) (hl : l.calm = true) (he : step s l = some s') : Inv s' := by
  cases l with
  | add i e =>
    simp only [step] at he
    split at he
    · rename_i hp
      simp only [Option.some.injEq] at he
      rw [← he]; exact inv_local h hp rfl rfl
    · simp at he
  | signal i =>
    simp only [step] at he
    split at he
    · rename_i hp
      simp only [Option.some.injEq] at he
      rw [← he]; exact inv_local h hp rfl rfl
    · simp at he
  | get i rq =>
    simp only [step] at he
    split at he
    · rename_i hp
      simp only [Option.some.injEq] at he
      rw [← he]; exact inv_local h hp rfl rfl
    · simp at he
  | size i =>
    simp only [step] at he
    split at he
    · rename_i hp
      simp only [Option.some.injEq] at he
      rw [← he]; exact inv_local h hp rfl rfl
    · simp at he
  | adv i =>
    simp only [step] at he
    split at he
    · rename_i m hp
      exact inv_adv h hp he
    · simp at he
  | sig i j =>
    simp only [step] at he
    split at he
    · rename_i rq hi hj
      simp only [Option.some.injEq] at he
      rw [← he]
      have h2 := inv_local (q := .gr rq) h hj rfl rfl
      have hij : i ≠ j := by rintro rfl; rw [hi] at hj; simp at hj
      have hi2 : (s.upd j (.gr rq)).thr[i]? = some .a2 := by
        show (s.thr.set j (.gr rq))[i]? = _
        rw [List.getElem?_set, if_neg (fun hh => hij hh.symm)]; exact hi
      obtain ⟨hm, ho, hd⟩ := held h2 hi2 rfl
      exact inv_inside hi2 ho rfl hm h2.ub h2.rets h2.sizes rfl ⟨hd.1, trivial⟩
    · rename_i rq hi hj
      simp only [Option.some.injEq] at he
      rw [← he]
      have h2 := inv_local (q := .gr rq) h hj rfl rfl
      have hij : i ≠ j := by rintro rfl; rw [hi] at hj; simp at hj
      have hi2 : (s.upd j (.gr rq)).thr[i]? = some .s1 := by
        show (s.thr.set j (.gr rq))[i]? = _
        rw [List.getElem?_set, if_neg (fun hh => hij hh.symm)]; exact hi
      obtain ⟨hm, ho, hd⟩ := held h2 hi2 rfl
      exact inv_inside hi2 ho rfl hm h2.ub h2.rets h2.sizes rfl ⟨hd.1, trivial⟩
    · simp at he
  | spur j =>
    simp only [step] at he
    split at he
    · rename_i rq hp
      simp only [Option.some.injEq] at he
      rw [← he]; exact inv_local h hp rfl rfl
    · simp at he
  | throw i => simp [Label.calm] at hl

theorem inv_init (n : Nat) : Inv (init T n) := by
  refine ⟨rfl, Or.inl ⟨rfl, ?_, ⟨rfl, trivial⟩⟩, ?_, ?_⟩
  · intro m hm; rw [(List.mem_replicate.mp hm).2]; rfl
  · intro r hr; simp [init] at hr
  · intro r hr; simp [init] at hr

theorem inv_exec : ∀ (ls : List (Label T)) (s s' : State T), Inv s → (∀ l ∈ ls, l.calm = true) → exec s ls = some s' → Inv s'
  | [], s, s', h, _, he => by
    simp only [exec, Option.some.injEq] at he
    rw [← he]; exact h
  | a :: as, s, s', h, hc, he => by
    simp only [exec] at he
    split at he
    · rename_i t hst
      exact inv_exec as t s' (inv_step h (hc a List.mem_cons_self) hst) (fun l hl => hc l (List.mem_cons_of_mem _ hl)) he
    · simp at he

end Verif.Synque
