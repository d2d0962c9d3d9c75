import Verif.Synque.Wake

set_option linter.unusedSimpArgs false
set_option linter.unusedVariables false

namespace Verif.Synque

variable {T : Type}

/-! ### a woken thread that finds an element returns it -/

theorem exec_append : ∀ (l1 l2 : List (Label T)) (s s' : State T), exec s l1 = some s' → exec s (l1 ++ l2) = exec s' l2
  | [], l2, s, s', h => by simp only [exec, Option.some.injEq] at h; rw [h]; rfl
  | a :: l1, l2, s, s', h => by
    simp only [exec, List.cons_append] at h ⊢
    split at h
    · rename_i t ht
      exact exec_append l1 l2 t s' h
    · simp at h

theorem g3_finishes : ∀ (k : Nat) (s : State T) (j : Nat) (rq : Req) (w : Bool) (out d0 : List T), Inv s →
    s.thr[j]? = some (.g3 rq w k out d0) →
    ∃ (ls : List (Label T)) (s' : State T) (out' : List T), (∀ l ∈ ls, l = .adv j) ∧ exec s ls = some s' ∧
      s'.rets = s.rets ++ [⟨j, rq, 0, out', d0⟩] ∧ s'.mtx = none ∧ s'.thr[j]? = some .idle
  | 0, s, j, rq, w, out, d0, h, hp => by
    obtain ⟨hm, ho, hd⟩ := held h hp rfl
    have hg : (s.upd j (.g4 rq 0 out d0)).thr[j]? = some (.g4 rq 0 out d0) := get_set hp
    refine ⟨[.adv j, .adv j],
      ({ s with rets := s.rets ++ [⟨j, rq, 0, out, d0⟩], mtx := none, thr := (s.thr.set j (.g4 rq 0 out d0)).set j .idle } : State T),
      out, by simp, ?_, rfl, rfl, get_set hg⟩
    simp only [exec, step, hp, adv, hg]
    rw [unlock_eq (s := { (s.upd j (.g4 rq 0 out d0)) with rets := (s.upd j (.g4 rq 0 out d0)).rets ++ [⟨j, rq, 0, out, d0⟩] }) hm]
    rfl
  | k + 1, s, j, rq, w, out, d0, h, hp => by
    obtain ⟨hm, ho, hd1, hd2, hd3, hd4⟩ := held h hp rfl
    have hne : s.d ≠ [] := by
      intro hh
      rw [hh] at hd3
      have hl := congrArg List.length hd3
      simp at hl
      have := (quantity_pos (rq := rq) (List.length_pos_iff.mpr hd2)).2
      omega
    have s1 : step s (.adv j) = some (s.upd j (.g3w rq w (k + 1) out d0 s.d)) := by simp only [step, hp, adv]
    have i1 := inv_step h (l := .adv j) rfl s1
    have hg : (s.upd j (.g3w rq w (k + 1) out d0 s.d)).thr[j]? = some (.g3w rq w (k + 1) out d0 s.d) := get_set hp
    have s2 : step (s.upd j (.g3w rq w (k + 1) out d0 s.d)) (.adv j) =
        some ({ (s.upd j (.g3w rq w (k + 1) out d0 s.d)) with d := s.d.dropLast }.upd j (.g3 rq w k (out ++ [s.d.getLast hne]) d0)) := by
      simp only [step, hg, adv, List.getLast?_eq_some_getLast hne]
      rfl
    have i2 := inv_step i1 (l := .adv j) rfl s2
    have hg2 : ({ (s.upd j (.g3w rq w (k + 1) out d0 s.d)) with d := s.d.dropLast }.upd j (.g3 rq w k (out ++ [s.d.getLast hne]) d0)).thr[j]? =
        some (.g3 rq w k (out ++ [s.d.getLast hne]) d0) := get_set hg
    obtain ⟨ls, s', out', q1, q2, q3, q4, q5⟩ := g3_finishes k _ j rq w _ d0 i2 hg2
    refine ⟨.adv j :: .adv j :: ls, s', out', ?_, ?_, q3, q4, q5⟩
    · intro l hl
      rcases List.mem_cons.mp hl with rfl | hl
      · rfl
      · rcases List.mem_cons.mp hl with rfl | hl
        · rfl
        · exact q1 l hl
    · simp only [exec, s1, s2]
      exact q2

theorem woken_takes {s : State T} (h : Inv s) {j : Nat} {rq : Req} (hp : s.thr[j]? = some (.gr rq)) (hm : s.mtx = none) (hne : s.d ≠ []) :
    ∃ (ls : List (Label T)) (s' : State T) (out : List T), (∀ l ∈ ls, l = .adv j) ∧ exec s ls = some s' ∧
      s'.rets = s.rets ++ [⟨j, rq, 0, out, s.d⟩] ∧ s'.mtx = none ∧ s'.thr[j]? = some .idle := by
  have s1 : step s (.adv j) = some ({ s with mtx := some j }.upd j (.g2 rq)) := by simp only [step, hp, adv, State.lock, hm]
  have i1 := inv_step h (l := .adv j) rfl s1
  have hg : ({ s with mtx := some j }.upd j (.g2 rq)).thr[j]? = some (.g2 rq) := get_set hp
  have hemp : ({ s with mtx := some j }.upd j (.g2 rq)).d.isEmpty = false := by
    show s.d.isEmpty = false
    cases hd : s.d with
    | nil => exact absurd hd hne
    | cons a as => rfl
  have s2 : step ({ s with mtx := some j }.upd j (.g2 rq)) (.adv j) =
      some (({ s with mtx := some j }.upd j (.g2 rq)).upd j (.g3 rq true (quantity rq s.d.length) [] s.d)) := by
    simp only [step, hg, adv]
    rw [hemp]; rfl
  have i2 := inv_step i1 (l := .adv j) rfl s2
  have hg2 : (({ s with mtx := some j }.upd j (.g2 rq)).upd j (.g3 rq true (quantity rq s.d.length) [] s.d)).thr[j]? =
      some (.g3 rq true (quantity rq s.d.length) [] s.d) := get_set hg
  obtain ⟨ls, s', out, q1, q2, q3, q4, q5⟩ := g3_finishes _ _ j rq true [] s.d i2 hg2
  refine ⟨.adv j :: .adv j :: ls, s', out, ?_, ?_, q3, q4, q5⟩
  · intro l hl
    rcases List.mem_cons.mp hl with rfl | hl
    · rfl
    · rcases List.mem_cons.mp hl with rfl | hl
      · rfl
      · exact q1 l hl
  · simp only [exec, s1, s2]
    exact q2

/-! ### facts that depend only on the mode of one thread -/

/-- A property of modes that holds of all threads. -/
def All (P : Mode T → Prop) (s : State T) : Prop := ∀ m ∈ s.thr, P m

theorem all_set {P : Mode T → Prop} {l : List (Mode T)} (h : ∀ m ∈ l, P m) {q : Mode T} (hq : P q) {i : Nat} : ∀ m ∈ l.set i q, P m := by
  intro m hm
  rcases mem_set hm with hm | rfl
  · exact h m hm
  · exact hq

/-- The request of a waiting thread allows waiting. -/
def WaitOk : Mode T → Prop
  | .gw rq | .gr rq | .g2 rq => rq.canwait = true
  | _ => True

theorem unlock_all {P : Mode T → Prop} {s : State T} {i : Nat} {m : Mode T} (h : ∀ x ∈ s.thr, P x) (hm : P m) :
    ∀ x ∈ (s.unlock i m).thr, P x := by
  unfold State.unlock
  split
  · exact all_set h hm
  · exact h

theorem lock_all {P : Mode T → Prop} {s s' : State T} {i : Nat} {m : Mode T} (h : ∀ x ∈ s.thr, P x) (hm : P m) (he : s.lock i m = some s') :
    ∀ x ∈ s'.thr, P x := by
  obtain ⟨_, rfl⟩ := lock_some he
  exact all_set h hm

theorem waitOk_step {s s' : State T} {l : Label T} (h : All WaitOk s) (he : step s l = some s') : All WaitOk s' := by
  cases l with
  | add i e =>
    simp only [step] at he
    split at he
    · simp only [Option.some.injEq] at he; subst he; exact all_set h (by exact trivial)
    · simp at he
  | signal i =>
    simp only [step] at he
    split at he
    · simp only [Option.some.injEq] at he; subst he; exact all_set h (by exact trivial)
    · simp at he
  | get i rq =>
    simp only [step] at he
    split at he
    · simp only [Option.some.injEq] at he; subst he; exact all_set h (by exact trivial)
    · simp at he
  | size i =>
    simp only [step] at he
    split at he
    · simp only [Option.some.injEq] at he; subst he; exact all_set h (by exact trivial)
    · simp at he
  | sig i j =>
    simp only [step] at he
    split at he
    · rename_i rq hi hj
      simp only [Option.some.injEq] at he; subst he
      exact all_set (all_set h (q := .gr rq) (h (.gw rq) (List.mem_of_getElem? hj))) (by exact trivial)
    · rename_i rq hi hj
      simp only [Option.some.injEq] at he; subst he
      exact all_set (all_set h (q := .gr rq) (h (.gw rq) (List.mem_of_getElem? hj))) (by exact trivial)
    · simp at he
  | spur j =>
    simp only [step] at he
    split at he
    · rename_i rq hj
      simp only [Option.some.injEq] at he; subst he
      exact all_set h (q := .gr rq) (h (.gw rq) (List.mem_of_getElem? hj))
    · simp at he
  | throw i =>
    simp only [step] at he
    split at he
    · simp only [Option.some.injEq] at he; subst he; exact all_set h (by exact trivial)
    · simp only [Option.some.injEq] at he; subst he; exact all_set h (by exact trivial)
    · simp at he
  | adv i =>
    simp only [step] at he
    split at he
    · rename_i m hp
      have hm := h _ (List.mem_of_getElem? hp)
      cases m with
      | idle => simp [adv] at he
      | gw rq => simp [adv] at he
      | a0 e => exact lock_all h (m := .a1 e) trivial he
      | s0 => exact lock_all h (m := .s1) trivial he
      | z0 => exact lock_all h (m := .z1) trivial he
      | g0 rq => exact lock_all h (m := .g1 rq) trivial he
      | gr rq => exact lock_all h (m := .g2 rq) hm he
      | a1 e => simp only [adv, Option.some.injEq] at he; subst he; exact all_set h (by exact trivial)
      | a1w e c => simp only [adv, Option.some.injEq] at he; subst he; exact all_set h (by exact trivial)
      | a3 => simp only [adv, Option.some.injEq] at he; subst he; exact unlock_all h (by exact trivial)
      | s2 => simp only [adv, Option.some.injEq] at he; subst he; exact unlock_all h (by exact trivial)
      | z1 => simp only [adv, Option.some.injEq] at he; subst he; exact all_set h (by exact trivial)
      | z2 n =>
        simp only [adv, Option.some.injEq] at he; subst he
        exact unlock_all (s := { s with sizes := s.sizes ++ [(n, s.acc.length, (s.rets.flatMap Ret.out).length)] }) h trivial
      | g4 rq ret out d0 =>
        simp only [adv, Option.some.injEq] at he; subst he
        exact unlock_all (s := { s with rets := s.rets ++ [⟨i, rq, ret, out, d0⟩] }) h trivial
      | a2 =>
        simp only [adv] at he
        split at he
        · simp at he
        · simp only [Option.some.injEq] at he; subst he; exact all_set h (by exact trivial)
      | s1 =>
        simp only [adv] at he
        split at he
        · simp at he
        · simp only [Option.some.injEq] at he; subst he; exact all_set h (by exact trivial)
      | g1 rq =>
        simp only [adv] at he
        split at he
        · split at he
          · rename_i hc
            simp only [Option.some.injEq] at he; subst he
            exact unlock_all h hc
          · simp only [Option.some.injEq] at he; subst he; exact all_set h (by exact trivial)
        · simp only [Option.some.injEq] at he; subst he; exact all_set h (by exact trivial)
      | g2 rq =>
        simp only [adv] at he
        split at he
        · simp only [Option.some.injEq] at he; subst he; exact all_set h (by exact trivial)
        · simp only [Option.some.injEq] at he; subst he; exact all_set h (by exact trivial)
      | g3 rq w k out d0 =>
        cases k with
        | zero => simp only [adv, Option.some.injEq] at he; subst he; exact all_set h (by exact trivial)
        | succ k => simp only [adv, Option.some.injEq] at he; subst he; exact all_set h (by exact trivial)
      | g3w rq w k out d0 c =>
        simp only [adv] at he
        split at he
        · simp only [Option.some.injEq] at he; subst he; exact all_set h (by exact trivial)
        · simp only [Option.some.injEq] at he; subst he; exact h
    · simp at he

theorem waitOk_exec : ∀ (ls : List (Label T)) (s s' : State T), All WaitOk s → exec s ls = some s' → All WaitOk s'
  | [], s, s', h, he => by
    simp only [exec, Option.some.injEq] at he
    rw [← he]; exact h
  | a :: as, s, s', h, he => by
    simp only [exec] at he
    split at he
    · rename_i t hst
      exact waitOk_exec as t s' (waitOk_step h hst) he
    · simp at he

/-! ### after an exception the mutex stays locked -/

/-- The mutex is owned by a thread, and no thread is inside a critical section. -/
def Stuck (s : State T) (i : Nat) : Prop := s.mtx = some i ∧ ∀ m ∈ s.thr, m.locked = false

theorem stuck_step {s s' : State T} {l : Label T} {i : Nat} (h : Stuck s i) (he : step s l = some s') :
    Stuck s' i ∧ s'.acc = s.acc ∧ s'.rets = s.rets ∧ s'.sizes = s.sizes ∧ s'.d = s.d := by
  obtain ⟨hm, ha⟩ := h
  have lk : ∀ {t : State T} {j : Nat} {m : Mode T}, s.lock j m = some t → False := by
    intro t j m hh
    obtain ⟨h1, _⟩ := lock_some hh
    rw [hm] at h1; simp at h1
  cases l with
  | add j e =>
    simp only [step] at he
    split at he
    · simp only [Option.some.injEq] at he; subst he; exact ⟨⟨hm, all_set ha (by rfl)⟩, rfl, rfl, rfl, rfl⟩
    · simp at he
  | signal j =>
    simp only [step] at he
    split at he
    · simp only [Option.some.injEq] at he; subst he; exact ⟨⟨hm, all_set ha (by rfl)⟩, rfl, rfl, rfl, rfl⟩
    · simp at he
  | get j rq =>
    simp only [step] at he
    split at he
    · simp only [Option.some.injEq] at he; subst he; exact ⟨⟨hm, all_set ha (by rfl)⟩, rfl, rfl, rfl, rfl⟩
    · simp at he
  | size j =>
    simp only [step] at he
    split at he
    · simp only [Option.some.injEq] at he; subst he; exact ⟨⟨hm, all_set ha (by rfl)⟩, rfl, rfl, rfl, rfl⟩
    · simp at he
  | spur j =>
    simp only [step] at he
    split at he
    · simp only [Option.some.injEq] at he; subst he; exact ⟨⟨hm, all_set ha (by rfl)⟩, rfl, rfl, rfl, rfl⟩
    · simp at he
  | sig j k =>
    simp only [step] at he
    split at he
    · rename_i rq hj hk
      have := ha _ (List.mem_of_getElem? hj)
      simp [Mode.locked] at this
    · rename_i rq hj hk
      have := ha _ (List.mem_of_getElem? hj)
      simp [Mode.locked] at this
    · simp at he
  | throw j =>
    simp only [step] at he
    split at he
    · rename_i hj
      have := ha _ (List.mem_of_getElem? hj)
      simp [Mode.locked] at this
    · rename_i hj
      have := ha _ (List.mem_of_getElem? hj)
      simp [Mode.locked] at this
    · simp at he
  | adv j =>
    simp only [step] at he
    split at he
    · rename_i m hp
      have hl := ha _ (List.mem_of_getElem? hp)
      cases m <;> simp [Mode.locked] at hl
      · simp [adv] at he
      · exact absurd he (fun hh => lk hh)
      · exact absurd he (fun hh => lk hh)
      · exact absurd he (fun hh => lk hh)
      · exact absurd he (fun hh => lk hh)
      · simp [adv] at he
      · exact absurd he (fun hh => lk hh)
    · simp at he

theorem stuck_exec : ∀ (ls : List (Label T)) (s s' : State T) (i : Nat), Stuck s i → exec s ls = some s' →
    Stuck s' i ∧ s'.acc = s.acc ∧ s'.rets = s.rets ∧ s'.sizes = s.sizes ∧ s'.d = s.d
  | [], s, s', i, h, he => by
    simp only [exec, Option.some.injEq] at he
    rw [← he]; exact ⟨h, rfl, rfl, rfl, rfl⟩
  | a :: as, s, s', i, h, he => by
    simp only [exec] at he
    split at he
    · rename_i t hst
      obtain ⟨h1, h2, h3, h4, h5⟩ := stuck_step h hst
      obtain ⟨k1, k2, k3, k4, k5⟩ := stuck_exec as t s' i h1 he
      exact ⟨k1, k2.trans h2, k3.trans h3, k4.trans h4, k5.trans h5⟩
    · simp at he

/-! ### one consumer -/

/-- Modes of threads other than the only consumer, when nobody calls signal(). -/
def Mode.producer : Mode T → Bool
  | .idle | .a0 _ | .a1 _ | .a1w _ _ | .a2 | .a3 | .z0 | .z1 | .z2 _ => true
  | _ => false

structure One (s : State T) (c : Nat) : Prop where
  others : ∀ (j : Nat) (m : Mode T), j ≠ c → s.thr[j]? = some m → m.producer = true
  nosig : ∀ (m : Mode T), m ∈ s.thr → m ≠ .s0 ∧ m ≠ .s1 ∧ m ≠ .s2
  sig : ∀ (m : Mode T), m ∈ s.thr → m = .a2 → s.d ≠ []
  woken : ∀ (m : Mode T), m ∈ s.thr → (∃ rq, m = .gr rq ∨ m = .g2 rq) → s.d ≠ []
  g4 : ∀ (m : Mode T), m ∈ s.thr → ∀ rq ret out d0, m = .g4 rq ret out d0 → rq.canwait = true → ret = 0
  rets : ∀ r ∈ s.rets, r.rq.canwait = true → r.ret = 0

theorem one_upd {s s' : State T} {c i : Nat} {m q : Mode T} (h : One s c) (hp : s.thr[i]? = some m) (ht : s'.thr = s.thr.set i q)
    (hr : ∀ r ∈ s'.rets, r.rq.canwait = true → r.ret = 0) (hd : s.d ≠ [] → s'.d ≠ [])
    (h1 : i ≠ c → q.producer = true) (h2 : q ≠ .s0 ∧ q ≠ .s1 ∧ q ≠ .s2) (h3 : q = .a2 → s'.d ≠ [])
    (h4 : (∃ rq, q = .gr rq ∨ q = .g2 rq) → s'.d ≠ [])
    (h5 : ∀ rq ret out d0, q = .g4 rq ret out d0 → rq.canwait = true → ret = 0) : One s' c := by
  have mem : ∀ {x}, x ∈ s'.thr → x ∈ s.thr ∨ x = q := by intro x hx; rw [ht] at hx; exact mem_set hx
  refine ⟨?_, ?_, ?_, ?_, ?_, hr⟩
  · intro j x hj hx
    rw [ht, List.getElem?_set] at hx
    split at hx
    · rename_i hij
      split at hx
      · simp only [Option.some.injEq] at hx
        subst hx
        subst hij
        exact h1 hj
      · simp at hx
    · exact h.others j x hj hx
  · intro x hx
    rcases mem hx with hx | rfl
    · exact h.nosig x hx
    · exact h2
  · intro x hx hxe
    rcases mem hx with hx | rfl
    · exact hd (h.sig x hx hxe)
    · exact h3 hxe
  · intro x hx hxe
    rcases mem hx with hx | rfl
    · exact hd (h.woken x hx hxe)
    · exact h4 hxe
  · intro x hx
    rcases mem hx with hx | rfl
    · exact h.g4 x hx
    · exact h5

/-- all side conditions of `one_upd` for a mode that is plain -/
theorem one_plain {s s' : State T} {c i : Nat} {m q : Mode T} (h : One s c) (hp : s.thr[i]? = some m) (ht : s'.thr = s.thr.set i q)
    (hr : s'.rets = s.rets) (hd : s.d ≠ [] → s'.d ≠ []) (h1 : m.producer = true → q.producer = true)
    (h2 : ∀ rq, q ≠ .s0 ∧ q ≠ .s1 ∧ q ≠ .s2 ∧ q ≠ .a2 ∧ q ≠ .gr rq ∧ q ≠ .g2 rq ∧ ∀ ret out d0, q ≠ .g4 rq ret out d0) : One s' c := by
  refine one_upd h hp ht (by rw [hr]; exact h.rets) hd (fun hi => h1 (h.others i m hi hp)) ⟨(h2 ⟨none, true⟩).1, (h2 ⟨none, true⟩).2.1, (h2 ⟨none, true⟩).2.2.1⟩
    (fun hh => absurd hh (h2 ⟨none, true⟩).2.2.2.1) ?_ ?_
  · rintro ⟨rq, hh | hh⟩
    · exact absurd hh (h2 rq).2.2.2.2.1
    · exact absurd hh (h2 rq).2.2.2.2.2.1
  · intro rq ret out d0 hh
    exact absurd hh ((h2 rq).2.2.2.2.2.2 ret out d0)

theorem isE {l : List T} (h : l.isEmpty = true) : l = [] := List.isEmpty_iff.mp h

theorem one_adv {s s' : State T} {c i : Nat} {m : Mode T} (hI : Inv s) (h : One s c) (hp : s.thr[i]? = some m) (he : adv s i m = some s') :
    One s' c := by
  cases m with
  | idle => simp [adv] at he
  | gw rq => simp [adv] at he
  | s0 => exact absurd rfl (h.nosig _ (List.mem_of_getElem? hp)).1
  | s1 => exact absurd rfl (h.nosig _ (List.mem_of_getElem? hp)).2.1
  | s2 => exact absurd rfl (h.nosig _ (List.mem_of_getElem? hp)).2.2
  | a0 e => obtain ⟨_, rfl⟩ := lock_some he; exact one_plain (q := .a1 e) h hp rfl rfl id (fun _ => rfl) (by simp)
  | z0 => obtain ⟨_, rfl⟩ := lock_some he; exact one_plain (q := .z1) h hp rfl rfl id (fun _ => rfl) (by simp)
  | g0 rq => obtain ⟨_, rfl⟩ := lock_some he; exact one_plain (q := .g1 rq) h hp rfl rfl id (fun hh => by simp [Mode.producer] at hh) (by simp)
  | gr rq =>
    obtain ⟨_, rfl⟩ := lock_some he
    have hc : i = c := by
      by_cases hic : i = c
      · exact hic
      · have := h.others i _ hic hp; simp [Mode.producer] at this
    exact one_upd (q := .g2 rq) h hp rfl h.rets id (fun hh => absurd hc hh) (by simp) (by simp)
      (fun _ => h.woken _ (List.mem_of_getElem? hp) ⟨rq, Or.inl rfl⟩) (by simp)
  | a1 e => simp only [adv, Option.some.injEq] at he; subst he; exact one_plain (q := .a1w e s.d) h hp rfl rfl id (fun _ => rfl) (by simp)
  | z1 => simp only [adv, Option.some.injEq] at he; subst he; exact one_plain (q := .z2 s.d.length) h hp rfl rfl id (fun _ => rfl) (by simp)
  | a1w e copy =>
    simp only [adv, Option.some.injEq] at he; subst he
    exact one_upd (q := .a2) h hp rfl h.rets (fun _ => by simp [State.upd]) (fun _ => rfl) (by simp) (fun _ => by simp [State.upd]) (by simp) (by simp)
  | a2 =>
    simp only [adv] at he
    split at he
    · simp at he
    · simp only [Option.some.injEq] at he; subst he; exact one_plain (q := .a3) h hp rfl rfl id (fun _ => rfl) (by simp)
  | a3 =>
    obtain ⟨hm, _, _⟩ := held hI hp rfl
    simp only [adv, Option.some.injEq, unlock_eq hm] at he; subst he
    exact one_plain (q := .idle) h hp rfl rfl id (fun _ => rfl) (by simp)
  | z2 n =>
    obtain ⟨hm, _, _⟩ := held hI hp rfl
    simp only [adv, Option.some.injEq] at he
    rw [unlock_eq (s := { s with sizes := s.sizes ++ [(n, s.acc.length, (s.rets.flatMap Ret.out).length)] }) hm] at he
    subst he
    exact one_plain (q := .idle) h hp rfl rfl id (fun _ => rfl) (by simp)
  | g1 rq =>
    obtain ⟨hm, _, _⟩ := held hI hp rfl
    simp only [adv] at he
    split at he
    · split at he
      · simp only [Option.some.injEq, unlock_eq hm] at he; subst he
        exact one_plain (q := .gw rq) h hp rfl rfl id (fun hh => by simp [Mode.producer] at hh) (by simp)
      · rename_i hcw
        simp only [Option.some.injEq] at he; subst he
        have hc : i = c := by
          by_cases hic : i = c
          · exact hic
          · have := h.others i _ hic hp; simp [Mode.producer] at this
        refine one_upd (q := .g4 rq (-1) [] s.d) h hp rfl h.rets id (fun hh => absurd hc hh) (by simp) (by simp) (by simp) ?_
        intro rq' ret out d0 hh hcw'
        simp only [Mode.g4.injEq] at hh
        rw [← hh.1] at hcw'
        exact absurd hcw' hcw
    · simp only [Option.some.injEq] at he; subst he
      exact one_plain (q := .g3 rq false (quantity rq s.d.length) [] s.d) h hp rfl rfl id (fun hh => by simp [Mode.producer] at hh) (by simp)
  | g2 rq =>
    have hne := h.woken _ (List.mem_of_getElem? hp) ⟨rq, Or.inr rfl⟩
    simp only [adv] at he
    split at he
    · rename_i hemp
      exact absurd (isE hemp) hne
    · simp only [Option.some.injEq] at he; subst he
      exact one_plain (q := .g3 rq true (quantity rq s.d.length) [] s.d) h hp rfl rfl id (fun hh => by simp [Mode.producer] at hh) (by simp)
  | g3 rq w k out d0 =>
    have hc : i = c := by
      by_cases hic : i = c
      · exact hic
      · have := h.others i _ hic hp; simp [Mode.producer] at this
    cases k with
    | zero =>
      simp only [adv, Option.some.injEq] at he; subst he
      refine one_upd (q := .g4 rq 0 out d0) h hp rfl h.rets id (fun hh => absurd hc hh) (by simp) (by simp) (by simp) ?_
      intro rq' ret out' d0' hh _
      simp only [Mode.g4.injEq] at hh
      exact hh.2.1.symm
    | succ k =>
      simp only [adv, Option.some.injEq] at he; subst he
      exact one_plain (q := .g3w rq w (k + 1) out d0 s.d) h hp rfl rfl id (fun hh => by simp [Mode.producer] at hh) (by simp)
  | g3w rq w k out d0 copy =>
    obtain ⟨hm, ho, hdd⟩ := held hI hp rfl
    have hc : i = c := by
      by_cases hic : i = c
      · exact hic
      · have := h.others i _ hic hp; simp [Mode.producer] at this
    subst hc
    have hI' := inv_adv hI hp he
    simp only [adv] at he
    split at he
    · rename_i x hx
      simp only [Option.some.injEq] at he; subst he
      have mem : ∀ {y : Mode T}, y ∈ s.thr.set i (.g3 rq w (k - 1) (out ++ [x]) d0) →
          y = .g3 rq w (k - 1) (out ++ [x]) d0 ∨ (y.producer = true ∧ y.locked = false ∧ y ∈ s.thr) := by
        intro y hy
        obtain ⟨j, hj⟩ := List.getElem?_of_mem hy
        rw [List.getElem?_set] at hj
        split at hj
        · split at hj
          · simp only [Option.some.injEq] at hj; exact Or.inl hj.symm
          · simp at hj
        · rename_i hij
          exact Or.inr ⟨h.others j y (fun hh => hij hh.symm) hj, ho j y (fun hh => hij hh.symm) hj, List.mem_of_getElem? hj⟩
      refine ⟨?_, ?_, ?_, ?_, ?_, h.rets⟩
      · intro j y hj hy
        have hy' : (s.thr.set i (.g3 rq w (k - 1) (out ++ [x]) d0))[j]? = some y := hy
        rw [List.getElem?_set, if_neg (fun hh => hj hh.symm)] at hy'
        exact h.others j y hj hy'
      · intro y hy
        rcases mem hy with rfl | ⟨_, _, hy⟩
        · simp
        · exact h.nosig y hy
      · rintro y hy rfl
        rcases mem hy with hh | ⟨_, hh, _⟩
        · simp at hh
        · simp [Mode.locked] at hh
      · rintro y hy ⟨rq', hh | hh⟩
        · subst hh
          rcases mem hy with hh | ⟨hh, _, _⟩
          · simp at hh
          · simp [Mode.producer] at hh
        · subst hh
          rcases mem hy with hh | ⟨hh, _, _⟩
          · simp at hh
          · simp [Mode.producer] at hh
      · rintro y hy rq' ret out' d0' rfl
        rcases mem hy with hh | ⟨hh, _, _⟩
        · simp at hh
        · simp [Mode.producer] at hh
    · simp only [Option.some.injEq] at he; subst he
      have := hI'.ub
      simp at this
  | g4 rq ret out d0 =>
    obtain ⟨hm, _, _⟩ := held hI hp rfl
    simp only [adv, Option.some.injEq] at he
    rw [unlock_eq (s := { s with rets := s.rets ++ [⟨i, rq, ret, out, d0⟩] }) hm] at he
    subst he
    refine one_upd (q := .idle) h hp rfl ?_ id (fun _ => rfl) (by simp) (by simp) (by simp) (by simp)
    intro r hr
    rcases List.mem_append.mp hr with hr | hr
    · exact h.rets r hr
    · rw [List.mem_singleton] at hr
      rw [hr]
      exact h.g4 _ (List.mem_of_getElem? hp) rq ret out d0 rfl

theorem one_step {s s' : State T} {c : Nat} {l : Label T} (hI : Inv s) (h : One s c) (hl : l.oneConsumer c = true) (he : step s l = some s') :
    One s' c := by
  cases l with
  | add i e =>
    simp only [step] at he
    split at he
    · rename_i hp
      simp only [Option.some.injEq] at he; subst he; exact one_plain (q := .a0 e) h hp rfl rfl id (fun _ => rfl) (by simp)
    · simp at he
  | size i =>
    simp only [step] at he
    split at he
    · rename_i hp
      simp only [Option.some.injEq] at he; subst he; exact one_plain (q := .z0) h hp rfl rfl id (fun _ => rfl) (by simp)
    · simp at he
  | get i rq =>
    simp only [step] at he
    split at he
    · rename_i hp
      simp only [Option.some.injEq] at he; subst he
      have hc : i = c := by simpa [Label.oneConsumer] using hl
      exact one_upd (q := .g0 rq) h hp rfl h.rets id (fun hh => absurd hc hh) (by simp) (by simp) (by simp) (by simp)
    · simp at he
  | adv i =>
    simp only [step] at he
    split at he
    · rename_i m hp
      exact one_adv hI h hp he
    · simp at he
  | sig i j =>
    simp only [step] at he
    split at he
    · rename_i rq hi hj
      simp only [Option.some.injEq] at he; subst he
      have hne := h.sig _ (List.mem_of_getElem? hi) rfl
      have hc : j = c := by
        by_cases hic : j = c
        · exact hic
        · have := h.others j _ hic hj; simp [Mode.producer] at this
      have hij : i ≠ j := by rintro rfl; rw [hi] at hj; simp at hj
      have hi2 : (s.upd j (.gr rq)).thr[i]? = some .a2 := by
        show (s.thr.set j (.gr rq))[i]? = _
        rw [List.getElem?_set, if_neg (fun hh => hij hh.symm)]; exact hi
      have h2 : One (s.upd j (.gr rq)) c :=
        one_upd (q := .gr rq) h hj rfl h.rets id (fun hh => absurd hc hh) (by simp) (by simp) (fun _ => hne) (by simp)
      exact one_plain (q := .a3) h2 hi2 rfl rfl id (fun _ => rfl) (by simp)
    · rename_i rq hi hj
      exact absurd rfl (h.nosig _ (List.mem_of_getElem? hi)).2.1
    · simp at he
  | signal i => simp [Label.oneConsumer] at hl
  | spur i => simp [Label.oneConsumer] at hl
  | throw i => simp [Label.oneConsumer] at hl

theorem one_calm {c : Nat} {l : Label T} (h : l.oneConsumer c = true) : l.calm = true := by
  cases l <;> simp [Label.oneConsumer, Label.calm] at h ⊢

theorem one_exec : ∀ (ls : List (Label T)) (s s' : State T) (c : Nat), Inv s → One s c → (∀ l ∈ ls, l.oneConsumer c = true) →
    exec s ls = some s' → One s' c
  | [], s, s', c, _, h, _, he => by
    simp only [exec, Option.some.injEq] at he
    rw [← he]; exact h
  | a :: as, s, s', c, hI, h, hc, he => by
    simp only [exec] at he
    split at he
    · rename_i t hst
      have hca := hc a List.mem_cons_self
      exact one_exec as t s' c (inv_step hI (one_calm hca) hst) (one_step hI h hca hst) (fun l hl => hc l (List.mem_cons_of_mem _ hl)) he
    · simp at he

theorem one_init (n c : Nat) : One (init T n) c := by
  refine ⟨?_, ?_, ?_, ?_, ?_, ?_⟩
  · intro j m _ hm
    have := (List.mem_replicate.mp (List.mem_of_getElem? hm)).2
    subst this; rfl
  · intro m hm; rw [(List.mem_replicate.mp hm).2]; simp
  · intro m hm; rw [(List.mem_replicate.mp hm).2]; simp
  · intro m hm; rw [(List.mem_replicate.mp hm).2]; simp
  · intro m hm; rw [(List.mem_replicate.mp hm).2]; simp
  · intro r hr; simp [init] at hr

/-! ### each thread's additions -/

/-- The element of an `add` whose insertion has not happened yet. -/
def Mode.pend : Mode T → List T
  | .a0 e | .a1 e | .a1w e _ => [e]
  | _ => []

def pendOf (s : State T) (i : Nat) : List T :=
  match s.thr[i]? with
  | some m => m.pend
  | none => []

/-- Thread `i`'s insertions so far and the one it is about to make. -/
def hist (s : State T) (i : Nat) : List T := ((s.acc.filter (fun a => a.1 == i)).map Prod.snd) ++ pendOf s i

theorem hist_upd {s s' : State T} {i j : Nat} {m q : Mode T} (hp : s.thr[i]? = some m) (ht : s'.thr = s.thr.set i q) (ha : s'.acc = s.acc)
    (hq : q.pend = m.pend) : hist s' j = hist s j := by
  unfold hist pendOf
  rw [ha, ht, List.getElem?_set]
  by_cases hij : i = j
  · subst hij
    have hlt : i < s.thr.length := (List.getElem?_eq_some_iff.mp hp).1
    rw [if_pos rfl, if_pos hlt, hp]
    simp only [hq]
  · rw [if_neg hij]

theorem hist_upd' {s : State T} {i j : Nat} {m q : Mode T} (hp : s.thr[i]? = some m) (hq : q.pend = m.pend) : hist (s.upd i q) j = hist s j :=
  hist_upd hp rfl rfl hq

theorem hist_lock {s s' : State T} {i j : Nat} {m q : Mode T} (hp : s.thr[i]? = some m) (he : s.lock i q = some s') (hq : q.pend = m.pend) :
    hist s' j = hist s j := by
  obtain ⟨_, rfl⟩ := lock_some he
  exact hist_upd hp rfl rfl hq

theorem hist_unlock {s : State T} {i j : Nat} {m q : Mode T} (hp : s.thr[i]? = some m) (hq : q.pend = m.pend) :
    hist (s.unlock i q) j = hist s j := by
  unfold State.unlock
  split
  · exact hist_upd hp rfl rfl hq
  · rfl

theorem hist_adv {s s' : State T} {i j : Nat} {m : Mode T} (hp : s.thr[i]? = some m) (he : adv s i m = some s') : hist s' j = hist s j := by
  cases m with
  | idle => simp [adv] at he
  | gw rq => simp [adv] at he
  | a0 e => exact hist_lock hp (q := .a1 e) he rfl
  | s0 => exact hist_lock hp (q := .s1) he rfl
  | z0 => exact hist_lock hp (q := .z1) he rfl
  | g0 rq => exact hist_lock hp (q := .g1 rq) he rfl
  | gr rq => exact hist_lock hp (q := .g2 rq) he rfl
  | a1 e => simp only [adv, Option.some.injEq] at he; subst he; exact hist_upd hp rfl rfl rfl
  | a1w e c =>
    simp only [adv, Option.some.injEq] at he; subst he
    have hlt : i < s.thr.length := (List.getElem?_eq_some_iff.mp hp).1
    by_cases hij : i = j
    · subst hij
      simp only [hist, pendOf, hp, State.upd, List.getElem?_set, hlt]
      simp [Mode.pend]
    · simp only [hist, pendOf, State.upd, List.getElem?_set, hij]
      simp [hij]
  | a3 => simp only [adv, Option.some.injEq] at he; subst he; exact hist_unlock hp rfl
  | s2 => simp only [adv, Option.some.injEq] at he; subst he; exact hist_unlock hp rfl
  | z1 => simp only [adv, Option.some.injEq] at he; subst he; exact hist_upd hp rfl rfl rfl
  | z2 n =>
    simp only [adv, Option.some.injEq] at he; subst he
    exact hist_unlock (s := { s with sizes := s.sizes ++ [(n, s.acc.length, (s.rets.flatMap Ret.out).length)] }) hp rfl
  | g4 rq ret out d0 =>
    simp only [adv, Option.some.injEq] at he; subst he
    exact hist_unlock (s := { s with rets := s.rets ++ [⟨i, rq, ret, out, d0⟩] }) hp rfl
  | a2 =>
    simp only [adv] at he
    split at he
    · simp at he
    · simp only [Option.some.injEq] at he; subst he; exact hist_upd hp rfl rfl rfl
  | s1 =>
    simp only [adv] at he
    split at he
    · simp at he
    · simp only [Option.some.injEq] at he; subst he; exact hist_upd hp rfl rfl rfl
  | g1 rq =>
    simp only [adv] at he
    split at he
    · split at he
      · simp only [Option.some.injEq] at he; subst he; exact hist_unlock hp rfl
      · simp only [Option.some.injEq] at he; subst he; exact hist_upd hp rfl rfl rfl
    · simp only [Option.some.injEq] at he; subst he; exact hist_upd hp rfl rfl rfl
  | g2 rq =>
    simp only [adv] at he
    split at he
    · simp only [Option.some.injEq] at he; subst he; exact hist_upd hp rfl rfl rfl
    · simp only [Option.some.injEq] at he; subst he; exact hist_upd hp rfl rfl rfl
  | g3 rq w k out d0 =>
    cases k with
    | zero => simp only [adv, Option.some.injEq] at he; subst he; exact hist_upd hp rfl rfl rfl
    | succ k => simp only [adv, Option.some.injEq] at he; subst he; exact hist_upd hp rfl rfl rfl
  | g3w rq w k out d0 c =>
    simp only [adv] at he
    split at he
    · simp only [Option.some.injEq] at he; subst he; exact hist_upd hp rfl rfl rfl
    · simp only [Option.some.injEq] at he; subst he; rfl

theorem hist_step {s s' : State T} {l : Label T} {j : Nat} (hl : l.calm = true) (he : step s l = some s') :
    hist s' j = hist s j ++ adds j [l] := by
  cases l with
  | add i e =>
    simp only [step] at he
    split at he
    · rename_i hp
      simp only [Option.some.injEq] at he; subst he
      have hlt : i < s.thr.length := (List.getElem?_eq_some_iff.mp hp).1
      by_cases hij : i = j
      · subst hij
        have hp' : s.thr[i] = .idle := (List.getElem?_eq_some_iff.mp hp).2
        simp [hist, pendOf, hp, hp', State.upd, hlt, Mode.pend, adds]
      · simp [hist, pendOf, State.upd, List.getElem?_set, hij, adds]
    · simp at he
  | signal i =>
    simp only [step] at he
    split at he
    · rename_i hp
      simp only [Option.some.injEq] at he; subst he
      rw [hist_upd' (q := .s0) hp rfl]; simp [adds]
    · simp at he
  | get i rq =>
    simp only [step] at he
    split at he
    · rename_i hp
      simp only [Option.some.injEq] at he; subst he
      rw [hist_upd' (q := .g0 rq) hp rfl]; simp [adds]
    · simp at he
  | size i =>
    simp only [step] at he
    split at he
    · rename_i hp
      simp only [Option.some.injEq] at he; subst he
      rw [hist_upd' (q := .z0) hp rfl]; simp [adds]
    · simp at he
  | spur i =>
    simp only [step] at he
    split at he
    · rename_i rq hp
      simp only [Option.some.injEq] at he; subst he
      rw [hist_upd' (q := .gr rq) hp rfl]; simp [adds]
    · simp at he
  | sig i k =>
    simp only [step] at he
    split at he
    · rename_i rq hi hk
      simp only [Option.some.injEq] at he; subst he
      have hij : i ≠ k := by rintro rfl; rw [hi] at hk; simp at hk
      have hi2 : (s.upd k (.gr rq)).thr[i]? = some .a2 := by
        show (s.thr.set k (.gr rq))[i]? = _
        rw [List.getElem?_set, if_neg (fun hh => hij hh.symm)]; exact hi
      rw [hist_upd' (q := .a3) hi2 rfl, hist_upd' (q := .gr rq) hk rfl]; simp [adds]
    · rename_i rq hi hk
      simp only [Option.some.injEq] at he; subst he
      have hij : i ≠ k := by rintro rfl; rw [hi] at hk; simp at hk
      have hi2 : (s.upd k (.gr rq)).thr[i]? = some .s1 := by
        show (s.thr.set k (.gr rq))[i]? = _
        rw [List.getElem?_set, if_neg (fun hh => hij hh.symm)]; exact hi
      rw [hist_upd' (q := .s2) hi2 rfl, hist_upd' (q := .gr rq) hk rfl]; simp [adds]
    · simp at he
  | adv i =>
    simp only [step] at he
    split at he
    · rename_i m hp
      rw [hist_adv hp he]; simp [adds]
    · simp at he
  | throw i => simp [Label.calm] at hl

theorem adds_cons (j : Nat) (a : Label T) (as : List (Label T)) : adds j (a :: as) = adds j [a] ++ adds j as := by
  cases a with
  | add i e =>
    simp only [adds]
    split <;> simp
  | _ => simp [adds]

theorem hist_exec : ∀ (ls : List (Label T)) (s s' : State T) (j : Nat), (∀ l ∈ ls, l.calm = true) → exec s ls = some s' →
    hist s' j = hist s j ++ adds j ls
  | [], s, s', j, _, he => by
    simp only [exec, Option.some.injEq] at he
    rw [← he]; simp [adds]
  | a :: as, s, s', j, hc, he => by
    simp only [exec] at he
    split at he
    · rename_i t hst
      rw [hist_exec as t s' j (fun l hl => hc l (List.mem_cons_of_mem _ hl)) he, hist_step (hc a List.mem_cons_self) hst, adds_cons j a as,
        List.append_assoc]
    · simp at he

end Verif.Synque
