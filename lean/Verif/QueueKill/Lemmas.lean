/-
  Lemmas for C152.
-/
import Verif.QueueKill.Spec
import Verif.QueueMsg.Props

set_option linter.unusedSimpArgs false
set_option linter.unusedVariables false

namespace Verif.QueueKill

open ShmQueue (Box Proc Mode boxOf Codec accepted delivered flushed SafeRun)
open QueueMsg (World WInv RInv readAll upd)

variable {M : Type} {size bs K : Nat} {ser : M → List UInt8} {des : List UInt8 → Option M}

/-- The steps of the ring that a step of the system makes. -/
def proj (K : Nat) (ser : M → List UInt8) (w : World M) : Label M → List ShmQueue.Label
  | .lab a => QueueMsg.proj K ser w a
  | .kill i => [.kill i]

def projs (size bs K : Nat) (ser : M → List UInt8) (des : List UInt8 → Option M) (w : World M) : List (Label M) → List ShmQueue.Label
  | [] => []
  | a :: as =>
    match step size bs K ser des w a with
    | some w' => proj K ser w a ++ projs size bs K ser des w' as
    | none => []

theorem proj_step {w w' : World M} {a : Label M} (e : step size bs K ser des w a = some w') : ShmQueue.exec size bs w.q (proj K ser w a) = some w'.q := by
  cases a with
  | lab a => exact QueueMsg.proj_step e
  | kill i =>
    simp only [step] at e
    split at e
    · rename_i q hq
      rw [← Option.some.inj e]
      simp [proj, ShmQueue.exec, hq]
    · exact absurd e (by simp)

theorem projs_exec : ∀ (as : List (Label M)) (w w' : World M), exec size bs K ser des w as = some w' →
    ShmQueue.exec size bs w.q (projs size bs K ser des w as) = some w'.q
  | [], w, w', e => by rw [← Option.some.inj e]; rfl
  | a :: as, w, w', e => by
    simp only [exec] at e
    cases hst : step size bs K ser des w a with
    | none => rw [hst] at e; exact absurd e (by simp)
    | some t =>
      rw [hst] at e
      simp only [projs, hst]
      rw [QueueMsg.ring_append, proj_step hst]
      exact projs_exec as t w' e

theorem safe_append (xs ys : List ShmQueue.Label) : ∀ (s t : ShmQueue.State), ShmQueue.exec size bs s xs = some t →
    SafeRun size bs s xs = true → SafeRun size bs t ys = true → SafeRun size bs s (xs ++ ys) = true := by
  induction xs with
  | nil => intro s t h _ h2; rw [Option.some.inj h]; exact h2
  | cons a xs ih =>
    intro s t h h1 h2
    simp only [ShmQueue.exec] at h
    simp only [List.cons_append, SafeRun, Bool.and_eq_true] at h1 ⊢
    cases hst : ShmQueue.step size bs s a with
    | none => rw [hst] at h; exact absurd h (by simp)
    | some u =>
      rw [hst] at h
      simp only [hst] at h1 ⊢
      exact ⟨h1.1, ih u t h h1.2 h2⟩

theorem harmless_ring {w : World M} {i : Nat} (h : Spec.harmless size w i) : ((w.q.procs[i]?.map (ShmQueue.harmless size w.q)).getD true) = true := by
  cases hp : w.q.procs[i]? with
  | none => rfl
  | some p =>
    obtain ⟨h1, h2, h3⟩ := h p hp
    simp only [Option.map_some, Option.getD_some, ShmQueue.harmless]
    cases hm : p.mode <;> first | rfl | skip
    · exact decide_eq_true (h1 hm)
    · exact decide_eq_true (h3 _ hm)
    · exact decide_eq_true (h2 hm)

theorem projs_safe : ∀ (as : List (Label M)) (w : World M), Spec.harmlessKills size bs K ser des w as → SafeRun size bs w.q (projs size bs K ser des w as) = true
  | [], w, _ => rfl
  | a :: as, w, h => by
    simp only [projs]
    cases hst : step size bs K ser des w a with
    | none => rfl
    | some t =>
      refine safe_append _ _ w.q t.q (proj_step hst) ?_ (projs_safe as t (h.2 t hst))
      cases a with
      | lab a => exact ShmQueue.calm_safe _ _ (QueueMsg.proj_calm w a)
      | kill i =>
        simp only [proj, SafeRun, Bool.and_eq_true]
        refine ⟨harmless_ring (h.1 i rfl), ?_⟩
        split <;> rfl

/-- The process is dead. -/
def Dead (w : World M) (i : Nat) : Prop := ∃ p, w.q.procs[i]? = some p ∧ p.mode = .dead

theorem dead_idle {w : World M} {i : Nat} (h : Dead w i) : QueueMsg.idle w i = false := by
  obtain ⟨p, hp, hm⟩ := h
  simp [QueueMsg.idle, hp, hm]

/-- A dead process makes no step. -/
theorem dead_step {w : World M} {a : QueueMsg.Label M} (h : Dead w a.who) : QueueMsg.step size bs K ser des w a = none := by
  have hi := dead_idle h
  obtain ⟨p, hp, hm⟩ := h
  cases a with
  | put i m =>
    have hi : QueueMsg.idle w i = false := hi
    have hp : w.q.procs[i]? = some p := hp
    simp only [QueueMsg.step, QueueMsg.callPut, QueueMsg.callFlush, hi, ShmQueue.step, hp, hm]
    split <;> simp
  | flush i =>
    have hp : w.q.procs[i]? = some p := hp
    simp [QueueMsg.step, QueueMsg.callFlush, ShmQueue.step, hp, hm]
  | unflush i =>
    have hp : w.q.procs[i]? = some p := hp
    simp [QueueMsg.step, ShmQueue.step, hp, hm]
  | timeout i =>
    have hp : w.q.procs[i]? = some p := hp
    simp [QueueMsg.step, ShmQueue.step, hp, hm]
  | get i =>
    have hi : QueueMsg.idle w i = false := hi
    simp [QueueMsg.step, hi]
  | adv i =>
    have hp : w.q.procs[i]? = some p := hp
    simp [QueueMsg.step, ShmQueue.step, ShmQueue.adv, hp, hm]

/-- What a kill does. -/
theorem kill_some {w w' : World M} {i : Nat} (e : step size bs K ser des w (.kill i) = some w') :
    Dead w' i ∧ w'.loc = w.loc ∧ w'.sent = w.sent ∧ w'.got = w.got ∧ (∀ j, j ≠ i → w'.q.procs[j]? = w.q.procs[j]?) ∧ delivered size bs w.q (proj K ser w (.kill i)) = [] := by
  simp only [step] at e
  split at e
  · rename_i q hq
    rw [← Option.some.inj e]
    refine ⟨?_, rfl, rfl, rfl, fun j hj => ShmQueue.step_other hq hj, ?_⟩
    · simp only [ShmQueue.step] at hq
      split at hq
      · rename_i p hp
        have hlt := (List.getElem?_eq_some_iff.mp hp).1
        split at hq
        · exact absurd hq (by simp)
        · rw [← Option.some.inj hq]
          refine ⟨{ p with mode := .dead, adj := ⟨0, 0⟩ }, ?_, rfl⟩
          simp [ShmQueue.State.upd, hlt]
      · exact absurd hq (by simp)
    · simp [proj, delivered, hq, ShmQueue.deliveredBy]
  · exact absurd e (by simp)

/-- What is known of a writer. -/
def WK (K bs : Nat) (ser : M → List UInt8) (w : World M) (i : Nat) (F : List (List UInt8)) : Prop :=
  WInv K bs ser w i F ∨ (Dead w i ∧ w.got i = [] ∧ ∃ (bl : List (List M)) (rest : List M), F = bl.map (boxOf bs ser) ∧ (∀ ms ∈ bl, ms.length * K ≤ bs) ∧ w.sent i = bl.flatten ++ rest)

/-- What is known of a reader. -/
def RK (K bs : Nat) (des : List UInt8 → Option M) (w : World M) (j : Nat) (D : List (Nat × List UInt8)) : Prop :=
  RInv False K bs des w j D ∨ (Dead w j ∧ w.sent j = [] ∧ ∃ P : List (List UInt8 × Nat), ShmQueue.mine j D = P.map Prod.fst ∧ w.got j = readAll K des P)

theorem WK.view {w : World M} {i : Nat} {F : List (List UInt8)} (h : WK K bs ser w i F) :
    w.got i = [] ∧ ∃ (bl : List (List M)) (rest : List M), F = bl.map (boxOf bs ser) ∧ (∀ ms ∈ bl, ms.length * K ≤ bs) ∧ w.sent i = bl.flatten ++ rest := by
  rcases h with ⟨hg, bl, hF, hf, hcase⟩ | ⟨_, hg, h⟩
  · rcases hcase with ⟨p, hp, hm, hs⟩ | ⟨_, cur, _, _, hs⟩
    · exact ⟨hg, bl, [], hF, hf, by simp [hs]⟩
    · exact ⟨hg, bl, cur, hF, hf, hs⟩
  · exact ⟨hg, h⟩

theorem RK.view {w : World M} {j : Nat} {D : List (Nat × List UInt8)} (h : RK K bs des w j D) :
    w.sent j = [] ∧ ∃ P : List (List UInt8 × Nat), ShmQueue.mine j D = P.map Prod.fst ∧ w.got j = readAll K des P := by
  rcases h with ⟨hs, _, P, h1, h2, _⟩ | ⟨_, hs, h⟩
  · exact ⟨hs, P, h1, h2⟩
  · exact ⟨hs, h⟩

theorem wk_step (hl : ∀ m, (ser m).length = K) {writes : Nat → Bool} {w w' : World M} {a : Label M} {i : Nat} {F : List (List UInt8)} (hi : writes i = true)
    (hr : Spec.inRole writes a = true) (h : WK K bs ser w i F) (e : step size bs K ser des w a = some w') :
    WK K bs ser w' i (F ++ flushed i (proj K ser w a)) ∧ ShmQueue.mine i (delivered size bs w.q (proj K ser w a)) = [] := by
  cases a with
  | lab a =>
    rcases h with h | ⟨hd, h⟩
    · exact ⟨.inl (QueueMsg.winv_step hl hi hr h e), QueueMsg.wdel_step hi hr h e⟩
    · by_cases hw : i = a.who
      · subst hw
        have e : QueueMsg.step size bs K ser des w a = some w' := e
        rw [dead_step hd] at e
        exact absurd e (by simp)
      · obtain ⟨f1, _, f3, f4, f5, f6⟩ := QueueMsg.frame e hw
        refine ⟨.inr ⟨?_, ?_, ?_⟩, f6⟩
        · obtain ⟨p, hp, hm⟩ := hd
          exact ⟨p, f1.trans hp, hm⟩
        · rw [f4]; exact h.1
        · rw [f3, show proj K ser w (.lab a) = QueueMsg.proj K ser w a from rfl, f5, List.append_nil]; exact h.2
  | kill k =>
    obtain ⟨g1, g2, g3, g4, g5, g6⟩ := kill_some e
    refine ⟨?_, by rw [g6]; rfl⟩
    rw [show flushed i (proj K ser w (.kill k)) = [] from rfl, List.append_nil]
    by_cases hk : i = k
    · subst hk
      have v := h.view
      exact .inr ⟨g1, by rw [g4]; exact v.1, by rw [g3]; exact v.2⟩
    · rcases h with h | ⟨hd, h⟩
      · left
        unfold WInv at h ⊢
        rw [g2, g3, g4, g5 i hk]
        exact h
      · right
        obtain ⟨p, hp, hm⟩ := hd
        exact ⟨⟨p, (g5 i hk).trans hp, hm⟩, by rw [g4]; exact h.1, by rw [g3]; exact h.2⟩

theorem rk_step (hz : ∀ n, des (List.replicate n 0) = none) {writes : Nat → Bool} {w w' : World M} {a : Label M} {j : Nat} {D : List (Nat × List UInt8)} (hj : writes j = false)
    (hr : Spec.inRole writes a = true) (h : RK K bs des w j D) (e : step size bs K ser des w a = some w') :
    RK K bs des w' j (D ++ delivered size bs w.q (proj K ser w a)) ∧ flushed j (proj K ser w a) = [] := by
  cases a with
  | lab a =>
    refine ⟨?_, QueueMsg.rflush_step hj hr⟩
    rcases h with h | ⟨hd, h⟩
    · exact .inl (QueueMsg.rinv_step hz hj hr (fun x => x.elim) h e)
    · by_cases hw : j = a.who
      · subst hw
        have e : QueueMsg.step size bs K ser des w a = some w' := e
        rw [dead_step hd] at e
        exact absurd e (by simp)
      · obtain ⟨f1, _, f3, f4, f5, f6⟩ := QueueMsg.frame e hw
        right
        refine ⟨?_, ?_, ?_⟩
        · obtain ⟨p, hp, hm⟩ := hd
          exact ⟨p, f1.trans hp, hm⟩
        · rw [f3]; exact h.1
        · rw [ShmQueue.mine_append, show proj K ser w (.lab a) = QueueMsg.proj K ser w a from rfl, f6, List.append_nil, f4]; exact h.2
  | kill k =>
    obtain ⟨g1, g2, g3, g4, g5, g6⟩ := kill_some e
    refine ⟨?_, rfl⟩
    rw [g6, List.append_nil]
    by_cases hk : j = k
    · subst hk
      have v := h.view
      exact .inr ⟨g1, by rw [g3]; exact v.1, by rw [g4]; exact v.2⟩
    · rcases h with h | ⟨hd, h⟩
      · left
        unfold RInv at h ⊢
        rw [g2, g3, g4, g5 j hk]
        exact h
      · right
        obtain ⟨p, hp, hm⟩ := hd
        exact ⟨⟨p, (g5 j hk).trans hp, hm⟩, by rw [g3]; exact h.1, by rw [g4]; exact h.2⟩

theorem wk_exec (hl : ∀ m, (ser m).length = K) {writes : Nat → Bool} {i : Nat} (hi : writes i = true) : ∀ (as : List (Label M)) (w w' : World M) (F : List (List UInt8)),
    (∀ a ∈ as, Spec.inRole writes a = true) → WK K bs ser w i F → exec size bs K ser des w as = some w' →
      WK K bs ser w' i (F ++ flushed i (projs size bs K ser des w as)) ∧ ShmQueue.mine i (delivered size bs w.q (projs size bs K ser des w as)) = []
  | [], w, w', F, _, h, e => by rw [← Option.some.inj e]; exact ⟨by simpa [projs, flushed] using h, rfl⟩
  | a :: as, w, w', F, hr, h, e => by
    simp only [exec] at e
    cases hst : step size bs K ser des w a with
    | none => rw [hst] at e; exact absurd e (by simp)
    | some t =>
      rw [hst] at e
      simp only [projs, hst, QueueMsg.flushed_append]
      obtain ⟨s1, s2⟩ := wk_step hl hi (hr a List.mem_cons_self) h hst
      obtain ⟨r1, r2⟩ := wk_exec hl hi as t w' _ (fun b hb => hr b (List.mem_cons_of_mem _ hb)) s1 e
      rw [← List.append_assoc, (QueueMsg.accepted_append (proj K ser w a) _ w.q t.q (proj_step hst)).2, ShmQueue.mine_append, s2, List.nil_append]
      exact ⟨r1, r2⟩

theorem rk_exec (hz : ∀ n, des (List.replicate n 0) = none) {writes : Nat → Bool} {j : Nat} (hj : writes j = false) :
    ∀ (as : List (Label M)) (w w' : World M) (D : List (Nat × List UInt8)), (∀ a ∈ as, Spec.inRole writes a = true) → RK K bs des w j D →
      exec size bs K ser des w as = some w' → RK K bs des w' j (D ++ delivered size bs w.q (projs size bs K ser des w as)) ∧ flushed j (projs size bs K ser des w as) = []
  | [], w, w', D, _, h, e => by rw [← Option.some.inj e]; exact ⟨by simpa [projs, delivered] using h, rfl⟩
  | a :: as, w, w', D, hr, h, e => by
    simp only [exec] at e
    cases hst : step size bs K ser des w a with
    | none => rw [hst] at e; exact absurd e (by simp)
    | some t =>
      rw [hst] at e
      simp only [projs, hst, QueueMsg.flushed_append]
      obtain ⟨s1, s2⟩ := rk_step hz hj (hr a List.mem_cons_self) h hst
      obtain ⟨r1, r2⟩ := rk_exec hz hj as t w' _ (fun b hb => hr b (List.mem_cons_of_mem _ hb)) s1 e
      rw [(QueueMsg.accepted_append (proj K ser w a) _ w.q t.q (proj_step hst)).2, ← List.append_assoc, s2, List.nil_append]
      exact ⟨r1, r2⟩

theorem ownS_sub {xs ys : List (Nat × List M)} (h : xs.Sublist ys) (i : Nat) : (QueueMsg.ownS xs i).Sublist (QueueMsg.ownS ys i) :=
  QueueMsg.sub_flatten ((h.filter _).map _)

end Verif.QueueKill
