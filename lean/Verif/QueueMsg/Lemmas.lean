import Verif.QueueMsg.Spec
import Verif.ShmQueue.Trace
import Verif.ShmQueue.BoxProps

set_option linter.unusedSimpArgs false
set_option linter.unusedVariables false

namespace Verif.QueueMsg

open ShmQueue (Box Proc Mode boxOf Codec accepted delivered flushed)
open Spec

variable {M : Type} {dr : Prop} {size bs K : Nat} {ser : M → List UInt8} {des : List UInt8 → Option M}

theorem upd_same {α : Type} (f : Nat → α) (i : Nat) (x : α) : upd f i x i = x := if_pos rfl
theorem upd_other {α : Type} (f : Nat → α) {i j : Nat} (x : α) (h : j ≠ i) : upd f i x j = f j := if_neg h

/-- The steps of the ring that a step of the system makes. -/
def proj (K : Nat) (ser : M → List UInt8) (w : World M) : Label M → List ShmQueue.Label
  | .put i m =>
    match (w.loc i).box.put K ser m with
    | some _ => []
    | none => [.flush i (w.loc i).box.buf]
  | .flush i => [.flush i (w.loc i).box.buf]
  | .unflush i => [.unflush i]
  | .timeout i => [.timeout i]
  | .get _ => []
  | .adv i => [.adv i]

/-- Those of a run. -/
def projs (size bs K : Nat) (ser : M → List UInt8) (des : List UInt8 → Option M) (w : World M) : List (Label M) → List ShmQueue.Label
  | [] => []
  | a :: as =>
    match step size bs K ser des w a with
    | some w' => proj K ser w a ++ projs size bs K ser des w' as
    | none => []

theorem proj_calm (w : World M) (a : Label M) : ∀ l ∈ proj K ser w a, l.calm = true := by
  cases a with
  | put i m =>
    simp only [proj]
    split <;> simp [ShmQueue.Label.calm]
  | _ => simp [proj, ShmQueue.Label.calm]

theorem projs_calm : ∀ (as : List (Label M)) (w : World M), ∀ l ∈ projs size bs K ser des w as, l.calm = true
  | [], w, l, h => by simp [projs] at h
  | a :: as, w, l, h => by
    unfold projs at h
    split at h
    · rcases List.mem_append.mp h with h | h
      · exact proj_calm w a l h
      · exact projs_calm as _ l h
    · simp at h

theorem callFlush_some {w w' : World M} {i : Nat} {pe : Option M} (e : callFlush size bs w i pe = some w') :
    ∃ q, ShmQueue.step size bs w.q (.flush i (w.loc i).box.buf) = some q ∧ w' = { w with q := q, loc := upd w.loc i { w.loc i with pend := pe } } := by
  unfold callFlush at e
  split at e
  · rename_i q hq
    exact ⟨q, hq, (Option.some.inj e).symm⟩
  · exact absurd e (by simp)

theorem after_q (w : World M) (i : Nat) (p : Proc) : (after bs K ser w i p).q = w.q := by
  unfold after endFlush endUnflush
  repeat' split
  all_goals rfl

/-- A step of the system is the steps of the ring. -/
theorem proj_step {w w' : World M} {a : Label M} (e : step size bs K ser des w a = some w') : ShmQueue.exec size bs w.q (proj K ser w a) = some w'.q := by
  cases a with
  | put i m =>
    simp only [step, callPut] at e
    simp only [proj]
    split at e
    · rename_i b hb
      simp only [hb]
      split at e
      · rw [← Option.some.inj e]; rfl
      · exact absurd e (by simp)
    · rename_i hb
      simp only [hb]
      obtain ⟨q, hq, rfl⟩ := callFlush_some e
      simp only [ShmQueue.exec, hq]
  | flush i =>
    obtain ⟨q, hq, rfl⟩ := callFlush_some e
    simp only [proj, ShmQueue.exec, hq]
  | unflush i =>
    simp only [step] at e
    split at e
    · rename_i q hq
      rw [← Option.some.inj e]
      simp only [proj, ShmQueue.exec, hq]
    · exact absurd e (by simp)
  | timeout i =>
    simp only [step] at e
    split at e
    · rename_i q hq
      rw [← Option.some.inj e]
      simp only [proj, ShmQueue.exec, hq]
    · exact absurd e (by simp)
  | get i =>
    simp only [step] at e
    repeat' split at e
    all_goals first
      | (rw [← Option.some.inj e]; rfl)
      | (exact absurd e (by simp))
  | adv i =>
    simp only [step] at e
    split at e
    · split at e
      · rename_i q hq
        rw [← Option.some.inj e, after_q]
        simp only [proj, ShmQueue.exec, hq]
      · exact absurd e (by simp)
    · exact absurd e (by simp)

theorem ring_append (s : ShmQueue.State) (xs ys : List ShmQueue.Label) :
    ShmQueue.exec size bs s (xs ++ ys) = (ShmQueue.exec size bs s xs).bind (fun t => ShmQueue.exec size bs t ys) := by
  induction xs generalizing s with
  | nil => rfl
  | cons a xs ih =>
    simp only [List.cons_append, ShmQueue.exec]
    cases ShmQueue.step size bs s a with
    | none => rfl
    | some t => exact ih t

theorem accepted_append (xs ys : List ShmQueue.Label) : ∀ (s t : ShmQueue.State), ShmQueue.exec size bs s xs = some t →
    accepted size bs s (xs ++ ys) = accepted size bs s xs ++ accepted size bs t ys ∧
    delivered size bs s (xs ++ ys) = delivered size bs s xs ++ delivered size bs t ys := by
  induction xs with
  | nil => intro s t h; rw [← Option.some.inj h]; exact ⟨rfl, rfl⟩
  | cons a xs ih =>
    intro s t h
    simp only [ShmQueue.exec] at h
    simp only [List.cons_append, accepted, delivered]
    cases hst : ShmQueue.step size bs s a with
    | none => rw [hst] at h; exact absurd h (by simp)
    | some u =>
      rw [hst] at h
      simp only [hst]
      obtain ⟨h1, h2⟩ := ih u t h
      rw [h1, h2]
      simp

theorem flushed_append (i : Nat) (xs ys : List ShmQueue.Label) : flushed i (xs ++ ys) = flushed i xs ++ flushed i ys := by
  induction xs with
  | nil => rfl
  | cons a xs ih => rw [List.cons_append, ShmQueue.flushed_cons, ShmQueue.flushed_cons, ih, List.append_assoc]

theorem projs_exec : ∀ (as : List (Label M)) (w w' : World M), exec size bs K ser des w as = some w' →
    ShmQueue.exec size bs w.q (projs size bs K ser des w as) = some w'.q
  | [], w, w', e => by rw [← Option.some.inj e]; rfl
  | a :: as, w, w', e => by
    simp only [exec] at e
    cases hst : step size bs K ser des w a with
    | none => rw [hst] at e; exact absurd e (by simp)
    | some t =>
      rw [hst] at e
      simp only [projs, hst]
      rw [ring_append, proj_step hst]
      exact projs_exec as t w' e

/-! ### modes -/

/-- Inside of flush, of unflush. -/
def inF : Mode → Bool
  | .f0 | .f1 | .f2 _ | .f4 | .f5 | .f6 => true
  | _ => false

def inU : Mode → Bool
  | .u0 | .u1 | .u2 _ | .u3 _ | .u5 | .u6 => true
  | _ => false

theorem adv_mode {s s' : ShmQueue.State} {i : Nat} {p : Proc} (hp : s.procs[i]? = some p) (e : ShmQueue.step size bs s (.adv i) = some s') :
    ∃ p', s'.procs[i]? = some p' ∧
      (p.mode = .f6 → p'.mode = .idle) ∧ (p.mode = .u6 → p'.mode = .idle) ∧
      (inF p.mode = true → p.mode ≠ .f6 → inF p'.mode = true) ∧ (inU p.mode = true → p.mode ≠ .u6 → inU p'.mode = true) ∧
      (p.mode ≠ .idle) := by
  have hlt : i < s.procs.length := (List.getElem?_eq_some_iff.mp hp).1
  simp only [ShmQueue.step, hp] at e
  unfold ShmQueue.adv at e
  cases hm : p.mode with
  | idle => simp only [hm] at e; exact absurd e (by simp)
  | dead => simp only [hm] at e; exact absurd e (by simp)
  | f0 => simp only [hm] at e; obtain ⟨v, a, rfl⟩ := ShmQueue.doSem_some e; exact ⟨_, by simp [ShmQueue.State.upd, hlt]; rfl, by simp [inF, inU]⟩
  | f6 => simp only [hm] at e; obtain ⟨v, a, rfl⟩ := ShmQueue.doSem_some e; exact ⟨_, by simp [ShmQueue.State.upd, hlt]; rfl, by simp [inF, inU]⟩
  | u0 => simp only [hm] at e; obtain ⟨v, a, rfl⟩ := ShmQueue.doSem_some e; exact ⟨_, by simp [ShmQueue.State.upd, hlt]; rfl, by simp [inF, inU]⟩
  | u1 => simp only [hm] at e; obtain ⟨v, a, rfl⟩ := ShmQueue.doSem_some e; exact ⟨_, by simp [ShmQueue.State.upd, hlt]; rfl, by simp [inF, inU]⟩
  | u6 => simp only [hm] at e; obtain ⟨v, a, rfl⟩ := ShmQueue.doSem_some e; exact ⟨_, by simp [ShmQueue.State.upd, hlt]; rfl, by simp [inF, inU]⟩
  | _ =>
    simp only [hm] at e
    repeat' split at e
    all_goals first
      | (rw [← Option.some.inj e]; exact ⟨p, hp, by simp [inF, inU, hm]⟩)
      | (rw [← Option.some.inj e]; exact ⟨_, by simp [ShmQueue.State.upd, ShmQueue.store_fields.1, hlt]; rfl, by simp [inF, inU]⟩)

/-! ### reading -/

theorem gets_snoc (cb : List UInt8) : ∀ (n p : Nat) (m : M) (b : Box), (Box.gets K des ⟨cb, p⟩ n).length = n → Box.get K des ⟨cb, p + n * K⟩ = some (m, b) →
    Box.gets K des ⟨cb, p⟩ (n + 1) = Box.gets K des ⟨cb, p⟩ n ++ [m] ∧ b = ⟨cb, p + (n + 1) * K⟩
  | 0, p, m, b, _, h => by
    simp only [Nat.zero_mul, Nat.add_zero] at h
    refine ⟨by simp [Box.gets, h], ?_⟩
    unfold Box.get at h
    split at h
    · split at h
      · have := (Prod.mk.inj (Option.some.inj h)).2
        rw [← this]; simp
      · exact absurd h (by simp)
    · exact absurd h (by simp)
  | n + 1, p, m, b, hl, h => by
    unfold Box.gets at hl ⊢
    cases hg : Box.get K des ⟨cb, p⟩ with
    | none => rw [hg] at hl; simp at hl
    | some x =>
      obtain ⟨m', b'⟩ := x
      rw [hg] at hl
      have hb' : b' = ⟨cb, p + K⟩ := by
        unfold Box.get at hg
        split at hg
        · split at hg
          · exact ((Prod.mk.inj (Option.some.inj hg)).2).symm
          · exact absurd hg (by simp)
        · exact absurd hg (by simp)
      subst hb'
      have hl' : (Box.gets K des ⟨cb, p + K⟩ n).length = n := by simpa using hl
      have e : p + (n + 1) * K = p + K + n * K := by rw [Nat.add_mul]; omega
      rw [e] at h
      obtain ⟨h1, h2⟩ := gets_snoc cb n (p + K) m b hl' h
      refine ⟨?_, ?_⟩
      · simp only [h1]; rfl
      · rw [h2]
        have : p + K + (n + 1) * K = p + (n + 1 + 1) * K := by simp only [Nat.add_mul]; omega
        rw [this]

/-! ### what a step leaves alone -/

def Label.who : Label M → Nat
  | .put i _ | .flush i | .unflush i | .timeout i | .get i | .adv i => i

theorem after_other (w : World M) (i : Nat) (p : Proc) {j : Nat} (h : j ≠ i) :
    (after bs K ser w i p).loc j = w.loc j ∧ (after bs K ser w i p).sent j = w.sent j ∧ (after bs K ser w i p).got j = w.got j := by
  unfold after endFlush endUnflush
  repeat' split
  all_goals simp [upd_other _ _ h]

theorem mine_none (i : Nat) (l : ShmQueue.Label) (s : ShmQueue.State) (h : i ≠ l.who) : ShmQueue.mine i (ShmQueue.deliveredBy s l) = [] := by
  cases l with
  | adv j =>
    have hj : ¬ j = i := fun e => h e.symm
    simp only [ShmQueue.deliveredBy]
    repeat' split
    all_goals simp [ShmQueue.mine, hj]
  | _ => rfl

theorem frame {w w' : World M} {a : Label M} (e : step size bs K ser des w a = some w') {j : Nat} (h : j ≠ a.who) :
    w'.q.procs[j]? = w.q.procs[j]? ∧ w'.loc j = w.loc j ∧ w'.sent j = w.sent j ∧ w'.got j = w.got j ∧
      flushed j (proj K ser w a) = [] ∧ ShmQueue.mine j (delivered size bs w.q (proj K ser w a)) = [] := by
  cases a with
  | put i m =>
    have h : j ≠ i := h
    have h' : ¬ i = j := fun e => h e.symm
    simp only [step, callPut] at e
    simp only [proj]
    split at e
    · rename_i b hb
      simp only [hb]
      split at e
      · rw [← Option.some.inj e]; simp [upd_other _ _ h, flushed, delivered, ShmQueue.mine]
      · exact absurd e (by simp)
    · rename_i hb
      simp only [hb]
      obtain ⟨q, hq, rfl⟩ := callFlush_some e
      refine ⟨ShmQueue.step_other hq h, by simp [upd_other _ _ h], rfl, rfl, by simp [flushed, h'], ?_⟩
      simp only [delivered, hq]; rfl
  | flush i =>
    have h : j ≠ i := h
    have h' : ¬ i = j := fun e => h e.symm
    obtain ⟨q, hq, rfl⟩ := callFlush_some e
    refine ⟨ShmQueue.step_other hq h, by simp [upd_other _ _ h], rfl, rfl, by simp [proj, flushed, h'], ?_⟩
    simp only [proj, delivered, hq]; rfl
  | unflush i =>
    simp only [step] at e
    split at e
    · rename_i q hq
      rw [← Option.some.inj e]
      refine ⟨ShmQueue.step_other hq h, rfl, rfl, rfl, rfl, ?_⟩
      simp only [proj, delivered, hq]; rfl
    · exact absurd e (by simp)
  | timeout i =>
    simp only [step] at e
    split at e
    · rename_i q hq
      rw [← Option.some.inj e]
      refine ⟨ShmQueue.step_other hq h, rfl, rfl, rfl, rfl, ?_⟩
      simp only [proj, delivered, hq]; rfl
    · exact absurd e (by simp)
  | get i =>
    have h : j ≠ i := h
    simp only [step] at e
    repeat' split at e
    all_goals first
      | (rw [← Option.some.inj e]; simp [upd_other _ _ h, flushed, proj, delivered, ShmQueue.mine]; done)
      | (exact absurd e (by simp))
  | adv i =>
    have h : j ≠ i := h
    simp only [step] at e
    split at e
    · split at e
      · rename_i q hq
        rw [← Option.some.inj e, after_q]
        obtain ⟨a1, a2, a3⟩ := after_other (bs := bs) (K := K) (ser := ser) { w with q := q } i ‹Proc› h
        refine ⟨ShmQueue.step_other hq h, a1, a2, a3, rfl, ?_⟩
        simp only [proj, delivered, hq, List.append_nil]
        exact mine_none j (.adv i) w.q h
      · exact absurd e (by simp)
    · exact absurd e (by simp)

/-! ### a writer -/

/-- `F` are the boxes that process `i` has called flush with. -/
def WInv (K bs : Nat) (ser : M → List UInt8) (w : World M) (i : Nat) (F : List (List UInt8)) : Prop :=
  w.got i = [] ∧ ∃ bl : List (List M), F = bl.map (boxOf bs ser) ∧ (∀ ms ∈ bl, ms.length * K ≤ bs) ∧
    ((∃ p, w.q.procs[i]? = some p ∧ inF p.mode = true ∧ w.sent i = bl.flatten) ∨
     ((∀ p, w.q.procs[i]? = some p → p.mode = .idle) ∧
      ∃ cur : List M, cur.length * K ≤ bs ∧ (w.loc i).box = ⟨boxOf bs ser cur, cur.length * K⟩ ∧ w.sent i = bl.flatten ++ cur))

theorem clear_eq : Box.clear bs = ⟨boxOf bs ser ([] : List M), ([] : List M).length * K⟩ := by simp [Box.clear, boxOf]

theorem put_cases (hl : ∀ m, (ser m).length = K) {cur : List M} {m : M} (hf : cur.length * K ≤ bs) :
    (∃ b, Box.put K ser ⟨boxOf bs ser cur, cur.length * K⟩ m = some b ∧ (cur ++ [m]).length * K ≤ bs ∧ b = ⟨boxOf bs ser (cur ++ [m]), (cur ++ [m]).length * K⟩) ∨
    Box.put K ser ⟨boxOf bs ser cur, cur.length * K⟩ m = none := by
  by_cases h : (cur.length + 1) * K ≤ bs
  · exact .inl ⟨_, ShmQueue.put_fit hl h, by simpa using h, rfl⟩
  · exact .inr (ShmQueue.put_full hl hf h)

theorem flush_mode {s s' : ShmQueue.State} {i : Nat} {b : List UInt8} (e : ShmQueue.step size bs s (.flush i b) = some s') :
    (∃ p, s.procs[i]? = some p ∧ p.mode = .idle) ∧ ∃ p, s'.procs[i]? = some p ∧ inF p.mode = true := by
  simp only [ShmQueue.step] at e
  split at e
  · rename_i p hp
    have hlt : i < s.procs.length := (List.getElem?_eq_some_iff.mp hp).1
    split at e
    · rename_i hc
      rw [← Option.some.inj e]
      exact ⟨⟨p, hp, hc.1⟩, ⟨_, by simp [ShmQueue.State.upd, hlt]; rfl, rfl⟩⟩
    · exact absurd e (by simp)
  · exact absurd e (by simp)

theorem winv_flush {w w' : World M} {i : Nat} {pe : Option M} {F : List (List UInt8)} (h : WInv K bs ser w i F) (e : callFlush size bs w i pe = some w') :
    WInv K bs ser w' i (F ++ [(w.loc i).box.buf]) := by
  obtain ⟨hg, bl, hF, hfit, hcase⟩ := h
  obtain ⟨q, hq, rfl⟩ := callFlush_some e
  obtain ⟨⟨p, hp, hm⟩, ⟨p', hp', hm'⟩⟩ := flush_mode hq
  rcases hcase with ⟨x, hx, hxm, _⟩ | ⟨_, cur, hcf, hbox, hsent⟩
  · rw [hp] at hx
    rw [← Option.some.inj hx, hm] at hxm
    exact absurd hxm (by simp [inF])
  · refine ⟨hg, bl ++ [cur], ?_, ?_, .inl ⟨p', hp', hm', ?_⟩⟩
    · rw [hF, hbox]; simp
    · intro ms hms
      rcases List.mem_append.mp hms with h | h
      · exact hfit ms h
      · rw [List.mem_singleton.mp h]; exact hcf
    · rw [hsent]; simp

theorem idle_proc {w : World M} {i : Nat} (h : idle w i = true) : ∃ p, w.q.procs[i]? = some p ∧ p.mode = .idle := by
  unfold idle at h
  split at h
  · rename_i p hp
    exact ⟨p, hp, by simpa using h⟩
  · exact absurd h (by simp)

theorem winv_step (hl : ∀ m, (ser m).length = K) {writes : Nat → Bool} {w w' : World M} {a : Label M} {i : Nat} {F : List (List UInt8)} (hi : writes i = true)
    (hr : inRole writes a = true) (h : WInv K bs ser w i F) (e : step size bs K ser des w a = some w') :
    WInv K bs ser w' i (F ++ flushed i (proj K ser w a)) := by
  by_cases hw : i = a.who
  · cases a with
    | put j m =>
      have hw : i = j := hw
      subst hw
      simp only [step, callPut] at e
      simp only [proj]
      split at e
      · rename_i b hb
        simp only [hb]
        split at e
        · rename_i hid
          rw [← Option.some.inj e]
          obtain ⟨p, hp, hm⟩ := idle_proc hid
          obtain ⟨hg, bl, hF, hfit, hcase⟩ := h
          refine ⟨hg, bl, by simpa [flushed] using hF, hfit, ?_⟩
          rcases hcase with ⟨x, hx, hxm, _⟩ | ⟨hidle, cur, hcf, hbox, hsent⟩
          · rw [hp] at hx
            rw [← Option.some.inj hx, hm] at hxm
            exact absurd hxm (by simp [inF])
          · right
            rw [hbox] at hb
            rcases put_cases hl (m := m) hcf with ⟨b', e1, e2, e3⟩ | e1
            · rw [e1] at hb
              refine ⟨hidle, cur ++ [m], e2, ?_, ?_⟩
              · show (upd w.loc i _ i).box = _
                rw [upd_same, ← Option.some.inj hb, e3]
              · show upd w.sent i _ i = _
                rw [upd_same, hsent, List.append_assoc]
            · rw [e1] at hb; exact absurd hb (by simp)
        · exact absurd e (by simp)
      · rename_i hb
        simp only [hb, flushed, if_pos]
        exact winv_flush h e
    | flush j =>
      have hw : i = j := hw
      subst hw
      simp only [proj, flushed, if_pos]
      exact winv_flush h e
    | unflush j => have hw : i = j := hw; subst hw; simp [inRole, hi] at hr
    | timeout j => have hw : i = j := hw; subst hw; simp [inRole, hi] at hr
    | get j => have hw : i = j := hw; subst hw; simp [inRole, hi] at hr
    | adv j =>
      have hw : i = j := hw
      subst hw
      simp only [proj, flushed, List.append_nil]
      simp only [step] at e
      split at e
      · rename_i p hp
        split at e
        · rename_i q hq
          rw [← Option.some.inj e]
          obtain ⟨p', hp', m1, m2, m3, m4, m5⟩ := adv_mode hp hq
          obtain ⟨hg, bl, hF, hfit, hcase⟩ := h
          rcases hcase with ⟨x, hx, hxm, hsent⟩ | ⟨hidle, _⟩
          · rw [hp] at hx
            rw [← Option.some.inj hx] at hxm
            by_cases h6 : p.mode = .f6
            · unfold after
              rw [if_pos h6]
              unfold endFlush
              split
              · refine ⟨hg, bl, hF, hfit, .inr ⟨?_, [], by simp, ?_, by simpa using hsent⟩⟩
                · intro y hy
                  rw [show y = p' from Option.some.inj (hy.symm.trans hp')]
                  exact m1 h6
                · show (upd w.loc i _ i).box = _
                  rw [upd_same]
                  exact clear_eq
              · rename_i m hpe
                split
                · rename_i b hb
                  rw [clear_eq (ser := ser) (K := K)] at hb
                  rcases put_cases (bs := bs) hl (cur := []) (m := m) (by simp) with ⟨b', e1, e2, e3⟩ | e1
                  · rw [e1] at hb
                    refine ⟨hg, bl, hF, hfit, .inr ⟨?_, [m], by simpa using e2, ?_, ?_⟩⟩
                    · intro y hy
                      rw [show y = p' from Option.some.inj (hy.symm.trans hp')]
                      exact m1 h6
                    · show (upd w.loc i _ i).box = _
                      rw [upd_same, ← Option.some.inj hb, e3]; rfl
                    · show upd w.sent i _ i = _
                      rw [upd_same]
                      show w.sent i ++ [m] = _
                      rw [hsent]
                  · rw [e1] at hb; exact absurd hb (by simp)
                · refine ⟨hg, bl, hF, hfit, .inr ⟨?_, [], by simp, ?_, by simpa using hsent⟩⟩
                  · intro y hy
                    rw [show y = p' from Option.some.inj (hy.symm.trans hp')]
                    exact m1 h6
                  · show (upd w.loc i _ i).box = _
                    rw [upd_same]
                    exact clear_eq
            · have hu : ¬ p.mode = .u6 := by intro hu; rw [hu] at hxm; exact absurd hxm (by simp [inF])
              unfold after
              rw [if_neg h6, if_neg hu]
              exact ⟨hg, bl, hF, hfit, .inl ⟨p', hp', m3 hxm h6, hsent⟩⟩
          · exact absurd (hidle p hp) m5
        · exact absurd e (by simp)
      · exact absurd e (by simp)
  · obtain ⟨f1, f2, f3, f4, f5, _⟩ := frame e hw
    unfold WInv
    rw [f1, f2, f3, f4, f5, List.append_nil]
    exact h

/-! ### a reader -/

/-- What is read from a list of boxes, `n` messages of each. -/
def readAll (K : Nat) (des : List UInt8 → Option M) (P : List (List UInt8 × Nat)) : List M := P.flatMap (fun x => Box.gets K des (Box.from x.1) x.2)

/-- Nothing more is read from the box. -/
def stuck (K : Nat) (des : List UInt8 → Option M) (x : List UInt8 × Nat) : Prop := Box.get K des ⟨x.1, x.2 * K⟩ = none

/-- `D` are the boxes that were delivered; with `dr`, boxes are read up before the next one. -/
def RInv (dr : Prop) (K bs : Nat) (des : List UInt8 → Option M) (w : World M) (j : Nat) (D : List (Nat × List UInt8)) : Prop :=
  w.sent j = [] ∧ (∀ p, w.q.procs[j]? = some p → p.mode = .idle ∨ inU p.mode = true) ∧
  ∃ P : List (List UInt8 × Nat), ShmQueue.mine j D = P.map Prod.fst ∧ w.got j = readAll K des P ∧
    ((P = [] ∧ (w.loc j).box = Box.clear bs) ∨
     ∃ P0 cb n, P = P0 ++ [(cb, n)] ∧ (w.loc j).box = ⟨cb, n * K⟩ ∧ (Box.gets K des (Box.from cb) n).length = n ∧
       (dr → (∀ x ∈ P0, stuck K des x) ∧ ∀ p, w.q.procs[j]? = some p → inU p.mode = true → stuck K des (cb, n)))

theorem get_clear (hz : ∀ n, des (List.replicate n 0) = none) : Box.get K des (Box.clear bs) = none := by
  unfold Box.get Box.clear
  split
  · simp [hz]
  · rfl

theorem rinv_step (hz : ∀ n, des (List.replicate n 0) = none) {writes : Nat → Bool} {w w' : World M} {a : Label M} {j : Nat} {D : List (Nat × List UInt8)}
    (hj : writes j = false) (hr : inRole writes a = true) (hd : dr → a = .unflush j → (w.loc j).box.get K des = none) (h : RInv dr K bs des w j D) (e : step size bs K ser des w a = some w') :
    RInv dr K bs des w' j (D ++ delivered size bs w.q (proj K ser w a)) := by
  by_cases hw : j = a.who
  · cases a with
    | put i m => have hw : j = i := hw; subst hw; simp [inRole, hj] at hr
    | flush i => have hw : j = i := hw; subst hw; simp [inRole, hj] at hr
    | unflush i =>
      have hw : j = i := hw
      subst hw
      simp only [step] at e
      split at e
      · rename_i q hq
        rw [← Option.some.inj e]
        obtain ⟨hs, hm, P, h1, h2, h3⟩ := h
        refine ⟨hs, ?_, P, ?_, h2, ?_⟩
        · intro p hp
          simp only [ShmQueue.step] at hq
          split at hq
          · rename_i x hx
            have hlt : j < w.q.procs.length := (List.getElem?_eq_some_iff.mp hx).1
            split at hq
            · rw [← Option.some.inj hq] at hp
              simp [ShmQueue.State.upd, hlt] at hp
              rw [← hp]; exact .inr rfl
            · exact absurd hq (by simp)
          · exact absurd hq (by simp)
        · simp only [proj, delivered, hq, ShmQueue.deliveredBy, List.append_nil]; exact h1
        · rcases h3 with h3 | ⟨P0, cb, n, g1, g2, g3, g4⟩
          · exact .inl h3
          · refine .inr ⟨P0, cb, n, g1, g2, g3, fun hdr => ⟨(g4 hdr).1, fun p hp hu => ?_⟩⟩
            have := hd hdr rfl
            rw [g2] at this
            exact this
      · exact absurd e (by simp)
    | timeout i =>
      have hw : j = i := hw
      subst hw
      simp only [step] at e
      split at e
      · rename_i q hq
        rw [← Option.some.inj e]
        obtain ⟨hs, hm, P, h1, h2, h3⟩ := h
        refine ⟨hs, ?_, P, ?_, h2, ?_⟩
        · intro p hp
          simp only [ShmQueue.step] at hq
          split at hq
          · rename_i x hx
            have hlt : j < w.q.procs.length := (List.getElem?_eq_some_iff.mp hx).1
            split at hq
            · rw [← Option.some.inj hq] at hp
              simp [ShmQueue.State.upd, hlt] at hp
              rw [← hp]; exact .inl rfl
            · exact absurd hq (by simp)
          · exact absurd hq (by simp)
        · simp only [proj, delivered, hq, ShmQueue.deliveredBy, List.append_nil]; exact h1
        · rcases h3 with h3 | ⟨P0, cb, n, g1, g2, g3, g4⟩
          · exact .inl h3
          · refine .inr ⟨P0, cb, n, g1, g2, g3, fun hdr => ⟨(g4 hdr).1, fun p hp hu => ?_⟩⟩
            simp only [ShmQueue.step] at hq
            split at hq
            · rename_i x hx
              have hlt : j < w.q.procs.length := (List.getElem?_eq_some_iff.mp hx).1
              split at hq
              · rw [← Option.some.inj hq] at hp
                simp [ShmQueue.State.upd, hlt] at hp
                rw [← hp] at hu; simp [inU] at hu
              · exact absurd hq (by simp)
            · exact absurd hq (by simp)
      · exact absurd e (by simp)
    | get i =>
      have hw : j = i := hw
      subst hw
      simp only [step] at e
      split at e
      · rename_i hid
        split at e
        · rename_i m b hb
          rw [← Option.some.inj e]
          obtain ⟨hs, hm, P, h1, h2, h3⟩ := h
          rcases h3 with ⟨_, hc⟩ | ⟨P0, cb, n, rfl, hbox, hlen, hst⟩
          · rw [hc, get_clear hz] at hb; exact absurd hb (by simp)
          · rw [hbox] at hb
            obtain ⟨g1, g2⟩ := gets_snoc cb n 0 m b hlen (by simpa using hb)
            refine ⟨hs, hm, P0 ++ [(cb, n + 1)], ?_, ?_, .inr ⟨P0, cb, n + 1, rfl, ?_, ?_, fun hdr => ⟨(hst hdr).1, fun p hp hu => ?_⟩⟩⟩
            · simp only [proj, delivered, List.append_nil]
              rw [h1]; simp
            · show upd w.got j _ j = _
              rw [upd_same, h2]
              simp only [readAll, List.flatMap_append, List.flatMap_cons, List.flatMap_nil, List.append_nil]
              rw [show Box.from cb = (⟨cb, 0⟩ : Box) from rfl, g1, List.append_assoc]
            · show (upd w.loc j _ j).box = _
              rw [upd_same, g2]; simp
            · rw [show Box.from cb = (⟨cb, 0⟩ : Box) from rfl, g1, List.length_append]
              have : (Box.gets K des (⟨cb, 0⟩ : Box) n).length = n := hlen
              rw [this]; rfl
            · obtain ⟨y, hy, hym⟩ := idle_proc hid
              rw [show p = y from Option.some.inj (hp.symm.trans hy), hym] at hu
              simp [inU] at hu
        · rw [← Option.some.inj e]
          simpa [proj, delivered] using h
      · exact absurd e (by simp)
    | adv i =>
      have hw : j = i := hw
      subst hw
      simp only [step] at e
      split at e
      · rename_i p hp
        split at e
        · rename_i q hq
          rw [← Option.some.inj e]
          obtain ⟨p', hp', m1, m2, m3, m4, m5⟩ := adv_mode hp hq
          obtain ⟨hs, hm, P, h1, h2, h3⟩ := h
          have hpm : inU p.mode = true := (hm p hp).resolve_left m5
          have h6 : ¬ p.mode = .f6 := by intro hu; rw [hu] at hpm; exact absurd hpm (by simp [inU])
          have hde : delivered size bs w.q [ShmQueue.Label.adv j] = if p.mode = .u6 then [(j, p.cb)] else [] := by
            simp only [delivered, hq, ShmQueue.deliveredBy, hp, List.append_nil]
          have hde' : proj K ser w (.adv j) = [ShmQueue.Label.adv j] := rfl
          rw [hde', hde]
          unfold after
          rw [if_neg h6]
          by_cases hu : p.mode = .u6
          · rw [if_pos hu, if_pos hu]
            unfold endUnflush
            refine ⟨hs, ?_, P ++ [(p.cb, 0)], ?_, ?_, .inr ⟨P, p.cb, 0, rfl, ?_, rfl, fun hdr => ⟨?_, ?_⟩⟩⟩
            · intro y hy
              rw [show y = p' from Option.some.inj (hy.symm.trans hp')]
              exact .inl (m2 hu)
            · rw [ShmQueue.mine_append, h1]; simp [ShmQueue.mine]
            · show w.got j = _
              rw [h2]; simp [readAll, Box.gets]
            · show (upd w.loc j _ j).box = _
              rw [upd_same]; simp [Box.from]
            · rcases h3 with ⟨rfl, _⟩ | ⟨P0, cb, n, rfl, _, _, g4⟩
              · simp
              · intro x hx
                rcases List.mem_append.mp hx with hx | hx
                · exact (g4 hdr).1 x hx
                · rw [List.mem_singleton.mp hx]
                  exact (g4 hdr).2 p hp hpm
            · intro y hy hyu
              rw [show y = p' from Option.some.inj (hy.symm.trans hp'), m2 hu] at hyu
              simp [inU] at hyu
          · rw [if_neg hu, if_neg hu, List.append_nil]
            refine ⟨hs, ?_, P, h1, h2, ?_⟩
            · intro y hy
              rw [show y = p' from Option.some.inj (hy.symm.trans hp')]
              exact .inr (m4 hpm hu)
            · rcases h3 with h3 | ⟨P0, cb, n, g1, g2, g3, g4⟩
              · exact .inl h3
              · exact .inr ⟨P0, cb, n, g1, g2, g3, fun hdr => ⟨(g4 hdr).1, fun _ _ _ => (g4 hdr).2 p hp hpm⟩⟩
        · exact absurd e (by simp)
      · exact absurd e (by simp)
  · obtain ⟨f1, f2, f3, f4, _, f6⟩ := frame e hw
    unfold RInv
    rw [f1, f2, f3, f4, ShmQueue.mine_append, f6, List.append_nil]
    exact h

/-! ### runs -/

theorem winv_exec (hl : ∀ m, (ser m).length = K) {writes : Nat → Bool} {i : Nat} (hi : writes i = true) : ∀ (as : List (Label M)) (w w' : World M) (F : List (List UInt8)),
    (∀ a ∈ as, inRole writes a = true) → WInv K bs ser w i F → exec size bs K ser des w as = some w' →
      WInv K bs ser w' i (F ++ flushed i (projs size bs K ser des w as))
  | [], w, w', F, _, h, e => by rw [← Option.some.inj e]; simpa [projs, flushed] using h
  | a :: as, w, w', F, hr, h, e => by
    simp only [exec] at e
    cases hst : step size bs K ser des w a with
    | none => rw [hst] at e; exact absurd e (by simp)
    | some t =>
      rw [hst] at e
      simp only [projs, hst, flushed_append]
      rw [← List.append_assoc]
      exact winv_exec hl hi as t w' _ (fun b hb => hr b (List.mem_cons_of_mem _ hb)) (winv_step hl hi (hr a List.mem_cons_self) h hst) e

theorem rinv_exec (hz : ∀ n, des (List.replicate n 0) = none) {writes : Nat → Bool} {j : Nat} (hj : writes j = false) :
    ∀ (as : List (Label M)) (w w' : World M) (D : List (Nat × List UInt8)), (∀ a ∈ as, inRole writes a = true) → (dr → readsUp size bs K ser des w as) → RInv dr K bs des w j D →
      exec size bs K ser des w as = some w' → RInv dr K bs des w' j (D ++ delivered size bs w.q (projs size bs K ser des w as))
  | [], w, w', D, _, _, h, e => by rw [← Option.some.inj e]; simpa [projs, delivered] using h
  | a :: as, w, w', D, hr, hd, h, e => by
    simp only [exec] at e
    cases hst : step size bs K ser des w a with
    | none => rw [hst] at e; exact absurd e (by simp)
    | some t =>
      rw [hst] at e
      simp only [projs, hst]
      rw [(accepted_append (proj K ser w a) _ w.q t.q (proj_step hst)).2, ← List.append_assoc]
      exact rinv_exec hz hj as t w' _ (fun b hb => hr b (List.mem_cons_of_mem _ hb)) (fun x => (hd x).2 t hst) (rinv_step hz hj (hr a List.mem_cons_self) (fun x => (hd x).1 j) h hst) e

theorem init_mode {n i : Nat} {p : Proc} (h : (init (M := M) bs n).q.procs[i]? = some p) : p.mode = .idle := by
  rw [(List.mem_replicate.mp (List.mem_of_getElem? h)).2]

theorem winv_init (n i : Nat) : WInv K bs ser (init bs n) i [] :=
  ⟨rfl, [], rfl, by simp, .inr ⟨fun p hp => init_mode hp, [], by simp, clear_eq, rfl⟩⟩

theorem rinv_init (n j : Nat) : RInv dr K bs des (init bs n) j [] :=
  ⟨rfl, fun p hp => .inl (init_mode hp), [], rfl, rfl, .inl ⟨rfl, rfl⟩⟩

/-! ### joining what is known of each process -/

/-- A list of tagged things, whose things of each tag are the images of a list: it is the image of a tagged list. -/
theorem join_tags {α β : Type} (g : α → β) : ∀ (L : List (Nat × β)) (f : Nat → List α), (∀ i, (L.filter (fun x => x.1 = i)).map Prod.snd = (f i).map g) →
    ∃ B : List (Nat × α), B.map (fun x => (x.1, g x.2)) = L ∧ ∀ i, (B.filter (fun x => x.1 = i)).map Prod.snd = f i
  | [], f, h => ⟨[], rfl, fun i => by
      have h0 := h i
      simp only [List.filter_nil, List.map_nil] at h0
      exact (List.map_eq_nil_iff.mp h0.symm).symm⟩
  | (k, b) :: L, f, h => by
    have h0 := h k
    simp only [List.filter_cons, decide_true, if_true, List.map_cons] at h0
    cases hf : f k with
    | nil => rw [hf] at h0; exact absurd h0 (by simp)
    | cons x xs =>
      rw [hf, List.map_cons, List.cons.injEq] at h0
      obtain ⟨B, hB, hB2⟩ := join_tags g L (fun i => if i = k then xs else f i) (fun i => by
        by_cases hi : i = k
        · subst hi; simp only [if_pos]; exact h0.2
        · simp only [if_neg hi]
          have h1 := h i
          rw [List.filter_cons_of_neg (by simpa using fun e => hi e.symm)] at h1
          exact h1)
      refine ⟨(k, x) :: B, ?_, ?_⟩
      · rw [List.map_cons, hB, ← h0.1]
      · intro i
        by_cases hi : i = k
        · subst hi
          have := hB2 i
          simp only [if_pos] at this
          rw [List.filter_cons_of_pos (by simp), List.map_cons, this, hf]
        · have := hB2 i
          simp only [if_neg hi] at this
          rw [List.filter_cons_of_neg (by simpa using fun e => hi e.symm), this]

/-- Choice of a list for each process. -/
theorem choose_fam {α : Type} {Q : Nat → α → Prop} (h : ∀ i, ∃ x, Q i x) : ∃ f : Nat → α, ∀ i, Q i (f i) := ⟨fun i => (h i).choose, fun i => (h i).choose_spec⟩

theorem readsUp_end : ∀ (as : List (Label M)) (w w' : World M), readsUp size bs K ser des w as → exec size bs K ser des w as = some w' →
    ∀ j, (w'.loc j).box.get K des = none
  | [], w, w', h, e => by rw [← Option.some.inj e]; exact h
  | a :: as, w, w', h, e => by
    simp only [exec] at e
    cases hst : step size bs K ser des w a with
    | none => rw [hst] at e; exact absurd e (by simp)
    | some t => rw [hst] at e; exact readsUp_end as t w' (h.2 t hst) e

/-! ### nobody else -/

/-- A writer is never given a box. -/
theorem wdel_step {writes : Nat → Bool} {w w' : World M} {a : Label M} {i : Nat} {F : List (List UInt8)} (hi : writes i = true)
    (hr : inRole writes a = true) (h : WInv K bs ser w i F) (e : step size bs K ser des w a = some w') :
    ShmQueue.mine i (delivered size bs w.q (proj K ser w a)) = [] := by
  by_cases hw : i = a.who
  · cases a with
    | put j m =>
      simp only [proj]
      split
      · rfl
      · simp only [delivered, ShmQueue.deliveredBy]; split <;> rfl
    | flush j => simp only [proj, delivered, ShmQueue.deliveredBy]; split <;> rfl
    | unflush j => simp only [proj, delivered, ShmQueue.deliveredBy]; split <;> rfl
    | timeout j => simp only [proj, delivered, ShmQueue.deliveredBy]; split <;> rfl
    | get j => rfl
    | adv j =>
      have hw : i = j := hw
      subst hw
      simp only [proj, delivered]
      split
      · simp only [ShmQueue.deliveredBy]
        cases hp : w.q.procs[i]? with
        | none => rfl
        | some p =>
          have hu : ¬ p.mode = .u6 := by
            obtain ⟨_, _, _, _, hcase⟩ := h
            rcases hcase with ⟨x, hx, hxm, _⟩ | ⟨hidle, _⟩
            · rw [hp] at hx
              rw [← Option.some.inj hx] at hxm
              intro hu; rw [hu] at hxm; exact absurd hxm (by simp [inF])
            · rw [hidle p hp]; simp
          simp only [if_neg hu]
          rfl
      · rfl
  · exact (frame e hw).2.2.2.2.2

theorem wdel_exec (hl : ∀ m, (ser m).length = K) {writes : Nat → Bool} {i : Nat} (hi : writes i = true) : ∀ (as : List (Label M)) (w w' : World M) (F : List (List UInt8)),
    (∀ a ∈ as, inRole writes a = true) → WInv K bs ser w i F → exec size bs K ser des w as = some w' →
      ShmQueue.mine i (delivered size bs w.q (projs size bs K ser des w as)) = []
  | [], w, w', F, _, h, e => rfl
  | a :: as, w, w', F, hr, h, e => by
    simp only [exec] at e
    cases hst : step size bs K ser des w a with
    | none => rw [hst] at e; exact absurd e (by simp)
    | some t =>
      rw [hst] at e
      simp only [projs, hst]
      rw [(accepted_append (proj K ser w a) _ w.q t.q (proj_step hst)).2, ShmQueue.mine_append, wdel_step hi (hr a List.mem_cons_self) h hst, List.nil_append]
      exact wdel_exec hl hi as t w' _ (fun b hb => hr b (List.mem_cons_of_mem _ hb)) (winv_step hl hi (hr a List.mem_cons_self) h hst) e

/-- A reader gives no box. -/
theorem rflush_step {writes : Nat → Bool} {w : World M} {a : Label M} {i : Nat} (hi : writes i = false) (hr : inRole writes a = true) :
    flushed i (proj K ser w a) = [] := by
  cases a with
  | put j m =>
    have hw : ¬ j = i := by intro h; subst h; simp [inRole, hi] at hr
    simp only [proj]
    split <;> simp [flushed, hw]
  | flush j =>
    have hw : ¬ j = i := by intro h; subst h; simp [inRole, hi] at hr
    simp [proj, flushed, hw]
  | _ => rfl

theorem rflush_exec {writes : Nat → Bool} {i : Nat} (hi : writes i = false) : ∀ (as : List (Label M)) (w : World M), (∀ a ∈ as, inRole writes a = true) →
    flushed i (projs size bs K ser des w as) = []
  | [], _, _ => rfl
  | a :: as, w, hr => by
    simp only [projs]
    split
    · rw [flushed_append, rflush_step hi (hr a List.mem_cons_self), List.nil_append]
      exact rflush_exec hi as _ (fun b hb => hr b (List.mem_cons_of_mem _ hb))
    · rfl

/-! ### every flushed box is accepted, if there is room -/

theorem room_ring {s s' : ShmQueue.State} {l : ShmQueue.Label} (i : Nat) (hc : l.calm = true)
    (hf : ∀ j, l = .adv j → ¬ ∃ p, s.procs[j]? = some p ∧ p.mode = .f1 ∧ ((s.end_ + 1) % 2 ^ 32) % size = s.start) (he : ShmQueue.step size bs s l = some s') :
    ShmQueue.mine i (ShmQueue.acceptedBy bs s l) ++ ShmQueue.pending s' i = ShmQueue.pending s i ++ ShmQueue.flushedBy i l := by
  by_cases hi : i = l.who
  · cases l with
    | kill j => simp [ShmQueue.Label.calm] at hc
    | intr j => simp [ShmQueue.Label.calm] at hc
    | adv j =>
      have hi' : i = j := hi
      subst hi'
      simp only [ShmQueue.step] at he
      cases hp : s.procs[i]? with
      | none => simp [hp] at he
      | some p =>
        have hlt : i < s.procs.length := (List.getElem?_eq_some_iff.mp hp).1
        simp only [hp] at he
        simp only [ShmQueue.acceptedBy, hp, ShmQueue.pending, ShmQueue.flushedBy, List.append_nil]
        unfold ShmQueue.adv ShmQueue.State.doSem at he
        cases hm : p.mode with
        | f1 =>
          have hn := fun h => hf i rfl ⟨p, hp, hm, h⟩
          simp only [hm] at he
          split at he
          · simp only [Option.some.injEq] at he
            rw [← he]; dsimp only; rw [hp]; simp [ShmQueue.mine, hm]
          · simp only [Option.some.injEq] at he
            rw [← he]; simp [ShmQueue.State.upd, hlt, ShmQueue.mine]
        | f2 k =>
          simp only [hm] at he
          dsimp only
          by_cases hc : k < bs
          · rw [if_pos hc] at he
            simp only [Option.some.injEq] at he
            rw [← he, if_pos hc]
            simp [ShmQueue.State.upd, ShmQueue.store_fields.1, hlt, ShmQueue.mine]
          · rw [if_neg hc] at he
            simp only [Option.some.injEq] at he
            rw [← he, if_neg hc]
            simp [ShmQueue.State.upd, hlt, ShmQueue.mine]
        | _ =>
          simp only [hm] at he
          repeat' split at he
          all_goals first
            | (simp at he; done)
            | (simp only [Option.some.injEq] at he; rw [← he]; dsimp only; rw [hp]; simp [ShmQueue.mine, hm]; done)
            | (simp only [Option.some.injEq] at he; rw [← he]; simp [ShmQueue.State.upd, ShmQueue.store_fields.1, hlt, ShmQueue.mine]; done)
    | _ j =>
      have hi' : i = j := hi
      subst hi'
      simp only [ShmQueue.step] at he
      cases hp : s.procs[i]? with
      | none => simp [hp] at he
      | some p =>
        have hlt : i < s.procs.length := (List.getElem?_eq_some_iff.mp hp).1
        simp only [hp] at he
        simp only [ShmQueue.acceptedBy, hp, ShmQueue.pending, ShmQueue.flushedBy]
        repeat' split at he
        all_goals first
          | (simp at he; done)
          | (rename_i hc; simp only [Option.some.injEq] at he; rw [← he]; simp [ShmQueue.State.upd, hlt, ShmQueue.mine, hc])
          | (simp only [Option.some.injEq] at he; rw [← he]; simp [ShmQueue.State.upd, hlt, ShmQueue.mine])
  · have h1 : ShmQueue.mine i (ShmQueue.acceptedBy bs s l) = [] := by
      cases l with
      | adv j =>
        have hj : ¬ j = i := fun hh => hi hh.symm
        simp only [ShmQueue.acceptedBy]
        repeat' split
        all_goals simp [ShmQueue.mine, hj]
      | _ => rfl
    have h2 : ShmQueue.pending s' i = ShmQueue.pending s i := by
      unfold ShmQueue.pending; rw [ShmQueue.step_other he hi]
    have h3 : ShmQueue.flushedBy i l = [] := by
      cases l with
      | flush j b => exact if_neg (fun hh => hi hh.symm)
      | _ => rfl
    rw [h1, h2, h3, List.nil_append, List.append_nil]

theorem room_one {s s' : ShmQueue.State} {l : ShmQueue.Label} (i : Nat) (hc : l.calm = true)
    (hf : ∀ j, l = .adv j → ¬ ∃ p, s.procs[j]? = some p ∧ p.mode = .f1 ∧ ((s.end_ + 1) % 2 ^ 32) % size = s.start)
    (he : ShmQueue.exec size bs s [l] = some s') :
    ShmQueue.mine i (accepted size bs s [l]) ++ ShmQueue.pending s' i = ShmQueue.pending s i ++ flushed i [l] := by
  simp only [ShmQueue.exec] at he
  cases hst : ShmQueue.step size bs s l with
  | none => rw [hst] at he; exact absurd he (by simp)
  | some t =>
    rw [hst] at he
    have : t = s' := Option.some.inj he
    subst this
    simp only [accepted, hst, List.append_nil]
    rw [ShmQueue.flushed_cons, show flushed i [] = [] from rfl, List.append_nil]
    exact room_ring i hc hf hst

theorem room_step {w w' : World M} {a : Label M} (i : Nat) (hf : ∀ j, a = .adv j → ¬ findsFull size w j) (e : step size bs K ser des w a = some w') :
    ShmQueue.mine i (accepted size bs w.q (proj K ser w a)) ++ ShmQueue.pending w'.q i = ShmQueue.pending w.q i ++ flushed i (proj K ser w a) := by
  have hq := proj_step e
  have hcalm := proj_calm (K := K) (ser := ser) w a
  have hnil : proj K ser w a = [] → ShmQueue.mine i (accepted size bs w.q (proj K ser w a)) ++ ShmQueue.pending w'.q i =
      ShmQueue.pending w.q i ++ flushed i (proj K ser w a) := by
    intro h
    rw [h] at hq ⊢
    rw [show w'.q = w.q from (Option.some.inj hq).symm]
    simp [accepted, flushed, ShmQueue.mine]
  have hone : ∀ l, proj K ser w a = [l] → (∀ j, l = .adv j → a = .adv j) → ShmQueue.mine i (accepted size bs w.q (proj K ser w a)) ++ ShmQueue.pending w'.q i =
      ShmQueue.pending w.q i ++ flushed i (proj K ser w a) := by
    intro l h hl
    rw [h] at hq hcalm ⊢
    exact room_one i (hcalm l (by simp)) (fun j hj => hf j (hl j hj)) hq
  cases a with
  | put j m =>
    by_cases hb : (Box.put K ser (w.loc j).box m).isSome
    · obtain ⟨b, hb⟩ := Option.isSome_iff_exists.mp hb
      exact hnil (by simp only [proj, hb])
    · have hb : Box.put K ser (w.loc j).box m = none := by simpa using hb
      exact hone _ (by simp only [proj, hb]; rfl) (by simp)
  | flush j => exact hone _ rfl (by simp)
  | unflush j => exact hone _ rfl (by simp)
  | timeout j => exact hone _ rfl (by simp)
  | get j => exact hnil rfl
  | adv j => exact hone _ rfl (by simp)

theorem room_exec (i : Nat) : ∀ (as : List (Label M)) (w w' : World M), roomy size bs K ser des w as → exec size bs K ser des w as = some w' →
    ShmQueue.mine i (accepted size bs w.q (projs size bs K ser des w as)) ++ ShmQueue.pending w'.q i =
      ShmQueue.pending w.q i ++ flushed i (projs size bs K ser des w as)
  | [], w, w', _, e => by rw [← Option.some.inj e]; simp [projs, accepted, flushed, ShmQueue.mine]
  | a :: as, w, w', h, e => by
    simp only [exec] at e
    cases hst : step size bs K ser des w a with
    | none => rw [hst] at e; exact absurd e (by simp)
    | some t =>
      rw [hst] at e
      simp only [projs, hst]
      rw [(accepted_append (proj K ser w a) _ w.q t.q (proj_step hst)).1, ShmQueue.mine_append, flushed_append, List.append_assoc,
        room_exec i as t w' (h.2 t hst) e, ← List.append_assoc, room_step i h.1 hst, List.append_assoc]

/-! ### the ways of the messages -/

/-- The messages of boxes with their writers, read in part by readers. -/
def ways : List (Nat × List M) → List (Nat × List UInt8 × Nat) → List (Way M)
  | x :: xs, y :: ys => (x.2.take y.2.2).map (fun m => ⟨x.1, y.1, m⟩) ++ ways xs ys
  | _, _ => []

def ownS (xs : List (Nat × List M)) (i : Nat) : List M := ((xs.filter (fun x => x.1 = i)).map Prod.snd).flatten

theorem fromProc_append (xs ys : List (Way M)) (i : Nat) : fromProc (xs ++ ys) i = fromProc xs i ++ fromProc ys i := by simp [fromProc]
theorem toProc_append (xs ys : List (Way M)) (i : Nat) : toProc (xs ++ ys) i = toProc xs i ++ toProc ys i := by simp [toProc]

theorem fromProc_map (ms : List M) (a b i : Nat) : fromProc (ms.map (fun m => (⟨a, b, m⟩ : Way M))) i = if a = i then ms else [] := by
  induction ms with
  | nil => simp [fromProc]
  | cons m ms ih => by_cases h : a = i <;> simp_all [fromProc]

theorem toProc_map (ms : List M) (a b i : Nat) : toProc (ms.map (fun m => (⟨a, b, m⟩ : Way M))) i = if b = i then ms else [] := by
  induction ms with
  | nil => simp [toProc]
  | cons m ms ih => by_cases h : b = i <;> simp_all [toProc]

theorem ways_from (i : Nat) : ∀ (xs : List (Nat × List M)) (ys : List (Nat × List UInt8 × Nat)), (fromProc (ways xs ys) i).Sublist (ownS xs i)
  | [], ys => by simp [ways, fromProc]
  | x :: xs, [] => by simp [ways, fromProc]
  | x :: xs, y :: ys => by
    simp only [ways, fromProc_append, fromProc_map, ownS, List.filter_cons]
    have ih := ways_from i xs ys
    by_cases h : x.1 = i
    · simp only [h, decide_true, if_true, List.map_cons, List.flatten_cons]
      exact (List.take_sublist _ _).append ih
    · simp only [h, decide_false, if_false, List.nil_append]
      exact ih

theorem ways_all (i : Nat) : ∀ (xs : List (Nat × List M)) (ys : List (Nat × List UInt8 × Nat)), xs.length = ys.length →
    (∀ x y, (x, y) ∈ xs.zip ys → x.2.length ≤ y.2.2) → fromProc (ways xs ys) i = ownS xs i
  | [], ys, _, _ => by simp [ways, fromProc, ownS]
  | x :: xs, [], h, _ => by simp at h
  | x :: xs, y :: ys, hl, hr => by
    simp only [ways, fromProc_append, fromProc_map, ownS, List.filter_cons]
    have ih := ways_all i xs ys (by simpa using hl) (fun a b h => hr a b (by simp [h]))
    have ht : x.2.take y.2.2 = x.2 := List.take_of_length_le (hr x y (by simp))
    by_cases h : x.1 = i
    · simp only [h, decide_true, if_true, List.map_cons, List.flatten_cons, ht]
      rw [ih]; rfl
    · simp only [h, decide_false, if_false, List.nil_append]
      exact ih

theorem ways_to (hc : Codec K ser des) (hz : ∀ n, des (List.replicate n 0) = none) (j : Nat) : ∀ (xs : List (Nat × List M)) (ys : List (Nat × List UInt8 × Nat)),
    ys.map (fun y => y.2.1) <+: xs.map (fun x => boxOf bs ser x.2) → (∀ x ∈ xs, x.2.length * K ≤ bs) →
    toProc (ways xs ys) j = readAll K des ((ys.filter (fun y => y.1 = j)).map Prod.snd)
  | xs, [], _, _ => by cases xs <;> simp [ways, toProc, readAll]
  | [], y :: ys, h, _ => by simp at h
  | x :: xs, y :: ys, h, hf => by
    simp only [List.map_cons, List.cons_prefix_cons] at h
    have ih := ways_to hc hz j xs ys h.2 (fun a ha => hf a (List.mem_cons_of_mem _ ha))
    simp only [ways, toProc_append, toProc_map, List.filter_cons]
    by_cases hj : y.1 = j
    · simp only [hj, decide_true, if_true, List.map_cons]
      rw [ih]
      simp only [readAll, List.flatMap_cons]
      rw [h.1, ShmQueue.gets_boxOf hc (hf x List.mem_cons_self) _ (.inr hz)]
    · simp only [hj, decide_false, if_false, List.nil_append]
      exact ih

theorem get_more (hc : Codec K ser des) {ms : List M} {n : Nat} (hf : ms.length * K ≤ bs) (hs : stuck K des (boxOf bs ser ms, n)) : ms.length ≤ n := by
  refine Nat.not_lt.mp (fun hn => ?_)
  have h1 := ShmQueue.gets_boxOf (bs := bs) hc hf n (.inl (by omega))
  have h2 := ShmQueue.gets_boxOf (bs := bs) hc hf (n + 1) (.inl (by omega))
  have hst : ∀ (n p : Nat) (cb : List UInt8), Box.get K des ⟨cb, p + n * K⟩ = none → (Box.gets K des ⟨cb, p⟩ (n + 1)).length ≤ n := by
    intro n
    induction n with
    | zero =>
      intro p cb h
      simp only [Nat.zero_mul, Nat.add_zero] at h
      simp [Box.gets, h]
    | succ n ih =>
      intro p cb h
      unfold Box.gets
      cases hg : Box.get K des ⟨cb, p⟩ with
      | none => simp
      | some x =>
        obtain ⟨m', b'⟩ := x
        have hb' : b' = ⟨cb, p + K⟩ := by
          unfold Box.get at hg
          split at hg
          · split at hg
            · exact ((Prod.mk.inj (Option.some.inj hg)).2).symm
            · exact absurd hg (by simp)
          · exact absurd hg (by simp)
        subst hb'
        have := ih (p + K) cb (by rw [show p + K + n * K = p + (n + 1) * K by rw [Nat.add_mul]; omega]; exact h)
        simpa using this
  have h3 := hst n 0 (boxOf bs ser ms) (by simpa [stuck] using hs)
  rw [show (⟨boxOf bs ser ms, 0⟩ : Box) = Box.from (boxOf bs ser ms) from rfl, h2, List.length_take] at h3
  omega

end Verif.QueueMsg
