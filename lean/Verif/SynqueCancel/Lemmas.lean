import Verif.SynqueCancel.Model
import Verif.Synque.Props

namespace Verif.SynqueCancel
open Verif.Synque

variable {T : Type}

/-- The calls of a history. -/
def calls : List (CLabel T) → List (Label T)
  | [] => []
  | .base l :: as => l :: calls as
  | _ :: as => calls as

theorem stuck_crun : ∀ (as : List (CLabel T)) (s s' : CState T) (i : Nat), Stuck s.base i → crun s as = some s' →
    Stuck s'.base i ∧ s'.base.acc = s.base.acc ∧ s'.base.rets = s.base.rets ∧ s'.base.sizes = s.base.sizes
  | [], s, s', i, h, e => by cases e; exact ⟨h, rfl, rfl, rfl⟩
  | a :: as, s, s', i, h, e => by
    simp only [crun] at e
    cases h1 : cstep s a with
    | none => rw [h1] at e; cases e
    | some t =>
      rw [h1] at e
      have key : Stuck t.base i ∧ t.base.acc = s.base.acc ∧ t.base.rets = s.base.rets ∧ t.base.sizes = s.base.sizes := by
        cases a with
        | base l =>
          simp only [cstep] at h1
          split at h1
          · cases h1
          · split at h1
            · rename_i b hb
              cases h1
              obtain ⟨k1, k2, k3, k4, _⟩ := stuck_step h hb
              exact ⟨k1, k2, k3, k4⟩
            · cases h1
        | request j => simp only [cstep] at h1; cases h1; exact ⟨h, rfl, rfl, rfl⟩
        | cancel j =>
          simp only [cstep] at h1
          split at h1
          · split at h1
            · rename_i b hb
              exfalso
              simp only [cancelled] at hb
              split at hb
              · rename_i rq hp
                have := h.2 _ (List.mem_of_getElem? hp)
                simp [Mode.locked] at this
              · rw [State.lock, h.1] at hb; cases hb
              · cases hb
            · cases h1
          · cases h1
        | leave j =>
          simp only [cstep] at h1
          split at h1
          · split at h1
            · cases h1; exact ⟨h, rfl, rfl, rfl⟩
            · cases h1
          · cases h1
      obtain ⟨k1, k2, k3, k4⟩ := key
      obtain ⟨m1, m2, m3, m4⟩ := stuck_crun as t s' i k1 e
      exact ⟨m1, m2.trans k2, m3.trans k3, m4.trans k4⟩

/-- What holds as long as nobody was cancelled inside of a call: the calls form an execution of the queue. -/
theorem crun_exec : ∀ (as : List (CLabel T)) (s s' : CState T), (∀ i, CLabel.cancel i ∉ as) → crun s as = some s' →
    exec s.base (calls as) = some s'.base
  | [], s, s', _, e => by cases e; rfl
  | a :: as, s, s', h, e => by
    simp only [crun] at e
    cases h1 : cstep s a with
    | none => rw [h1] at e; cases e
    | some t =>
      rw [h1] at e
      have ih := crun_exec as t s' (fun i hi => h i (List.mem_cons_of_mem _ hi)) e
      cases a with
      | base l =>
        simp only [cstep] at h1
        split at h1
        · cases h1
        · split at h1
          · rename_i b hb
            cases h1
            simp only [calls, exec, hb]; exact ih
          · cases h1
      | request j => simp only [cstep] at h1; cases h1; exact ih
      | cancel j => exact absurd List.mem_cons_self (h j)
      | leave j =>
        simp only [cstep] at h1
        split at h1
        · split at h1
          · cases h1; exact ih
          · cases h1
        · cases h1

/-- Where a thread waits or may come to wait. -/
def mayWait : Mode T → Bool
  | .g0 rq | .g1 rq => rq.canwait
  | .gw _ => true
  | _ => false

def NoWait (s : State T) : Prop := ∀ m ∈ s.thr, mayWait m = false

theorem nowait_set {s : State T} {i : Nat} {m : Mode T} (h : NoWait s) (hm : mayWait m = false) : ∀ x ∈ s.thr.set i m, mayWait x = false := by
  intro x hx
  rcases List.mem_or_eq_of_mem_set hx with hx | hx
  · exact h x hx
  · rw [hx]; exact hm

theorem nowait_upd {s : State T} {i : Nat} {m : Mode T} (h : NoWait s) (hm : mayWait m = false) : NoWait (s.upd i m) := nowait_set h hm

theorem nowait_lock {s t : State T} {i : Nat} {m : Mode T} (h : NoWait s) (hm : mayWait m = false) (e : s.lock i m = some t) : NoWait t := by
  simp only [State.lock] at e
  split at e
  · cases e; exact nowait_set h hm
  · cases e

theorem nowait_unlock {s : State T} {i : Nat} {m : Mode T} (h : NoWait s) (hm : mayWait m = false) : NoWait (s.unlock i m) := by
  simp only [State.unlock]
  split
  · exact nowait_set h hm
  · exact h

theorem nowait_step {s s' : State T} {l : Label T} (h : NoWait s) (hl : ∀ i rq, l = .get i rq → rq.canwait = false) (e : step s l = some s') :
    NoWait s' := by
  cases l with
  | add i x => simp only [step] at e; split at e <;> cases e; exact nowait_upd h rfl
  | signal i => simp only [step] at e; split at e <;> cases e; exact nowait_upd h rfl
  | get i rq => simp only [step] at e; split at e <;> cases e; exact nowait_upd h (hl i rq rfl)
  | size i => simp only [step] at e; split at e <;> cases e; exact nowait_upd h rfl
  | adv i =>
    simp only [step] at e
    split at e
    · rename_i m hp
      have hm := h m (List.mem_of_getElem? hp)
      cases m with
      | idle => cases e
      | a0 x => exact nowait_lock h rfl e
      | a1 x => simp only [adv] at e; cases e; exact nowait_upd h rfl
      | a1w x c => simp only [adv] at e; cases e; exact nowait_set h rfl
      | a2 => simp only [adv] at e; split at e <;> cases e; exact nowait_upd h rfl
      | a3 => simp only [adv] at e; cases e; exact nowait_unlock h rfl
      | s0 => exact nowait_lock h rfl e
      | s1 => simp only [adv] at e; split at e <;> cases e; exact nowait_upd h rfl
      | s2 => simp only [adv] at e; cases e; exact nowait_unlock h rfl
      | z0 => exact nowait_lock h rfl e
      | z1 => simp only [adv] at e; cases e; exact nowait_upd h rfl
      | z2 n => simp only [adv] at e; cases e; exact nowait_unlock (s := { s with sizes := _ }) h rfl
      | g0 rq => exact nowait_lock (m := .g1 rq) h hm e
      | g1 rq =>
        have hm' : rq.canwait = false := hm
        simp only [adv, hm'] at e
        split at e
        · simp at e; cases e; exact nowait_upd h rfl
        · cases e; exact nowait_upd h rfl
      | gw rq => cases e
      | gr rq => exact nowait_lock h rfl e
      | g2 rq => simp only [adv] at e; split at e <;> cases e <;> exact nowait_upd h rfl
      | g3 rq w k out d0 => simp only [adv] at e; split at e <;> cases e <;> exact nowait_upd h rfl
      | g3w rq w k out d0 c =>
        simp only [adv] at e
        split at e
        · cases e; exact nowait_set h rfl
        · cases e; exact h
      | g4 rq ret out d0 => simp only [adv] at e; cases e; exact nowait_unlock (s := { s with rets := _ }) h rfl
    · cases e
  | sig i j =>
    simp only [step] at e
    split at e
    · cases e; exact nowait_upd (nowait_upd h rfl) rfl
    · cases e; exact nowait_upd (nowait_upd h rfl) rfl
    · cases e
  | spur j => simp only [step] at e; split at e <;> cases e; exact nowait_upd h rfl
  | throw i => simp only [step] at e; split at e <;> cases e <;> exact nowait_upd h rfl

theorem nowait_cancelled {s : State T} {i : Nat} (h : NoWait s) : cancelled s i = none := by
  simp only [cancelled]
  split
  · rename_i rq hp
    have : rq.canwait = false := h _ (List.mem_of_getElem? hp)
    simp [this]
  · rename_i rq hp
    have := h _ (List.mem_of_getElem? hp)
    simp [mayWait] at this
  · rfl

/-- Without waiting gets there is nothing to cancel. -/
theorem nowait_crun : ∀ (as : List (CLabel T)) (s s' : CState T), NoWait s.base → (∀ i rq, CLabel.base (.get i rq) ∈ as → rq.canwait = false) →
    crun s as = some s' → ∀ i, CLabel.cancel i ∉ as
  | [], s, s', _, _, _ => by intro i h; cases h
  | a :: as, s, s', h, hg, e => by
    simp only [crun] at e
    cases h1 : cstep s a with
    | none => rw [h1] at e; cases e
    | some t =>
      rw [h1] at e
      have key : NoWait t.base ∧ ∀ i, a ≠ .cancel i := by
        cases a with
        | base l =>
          simp only [cstep] at h1
          split at h1
          · cases h1
          · split at h1
            · rename_i b hb
              cases h1
              exact ⟨nowait_step h (fun i rq hl => hg i rq (hl ▸ List.mem_cons_self)) hb, by simp⟩
            · cases h1
        | request j => simp only [cstep] at h1; cases h1; exact ⟨h, by simp⟩
        | cancel j =>
          simp only [cstep, nowait_cancelled h] at h1
          split at h1 <;> cases h1
        | leave j =>
          simp only [cstep] at h1
          split at h1
          · split at h1
            · cases h1; exact ⟨h, by simp⟩
            · cases h1
          · cases h1
      have ih := nowait_crun as t s' key.1 (fun i rq hi => hg i rq (List.mem_cons_of_mem _ hi)) e
      intro i hi
      rcases List.mem_cons.1 hi with hi | hi
      · exact key.2 i hi.symm
      · exact ih i hi

theorem nowait_init (n : Nat) : NoWait (init T n) := by
  intro m hm
  have := (List.mem_replicate.mp hm).2
  subst this; rfl

theorem calls_get {as : List (CLabel T)} {l : Label T} (h : l ∈ calls as) : CLabel.base l ∈ as := by
  induction as with
  | nil => cases h
  | cons a as ih =>
    cases a with
    | base l' =>
      simp only [calls, List.mem_cons] at h
      rcases h with h | h
      · subst h; exact List.mem_cons_self
      · exact List.mem_cons_of_mem _ (ih h)
    | _ => exact List.mem_cons_of_mem _ (ih h)

end Verif.SynqueCancel
