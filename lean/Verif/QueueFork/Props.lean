import Verif.QueueFork.Spec
import Verif.QueueMsg.Props

set_option linter.unusedSimpArgs false
set_option linter.unusedVariables false

namespace Verif.QueueFork

open Spec
open ShmQueue (Box Mode)
open QueueMsg (World inF adv_mode flush_mode callFlush_some idle_proc upd_same upd_other idle upd)
open QueueMsg.Spec (Way toProc fromProc inRole)

variable {M : Type} {size bs K : Nat} {ser : M → List UInt8} {des : List UInt8 → Option M}

/-- Nothing is in the current box of `i`, or it is in a flush that will leave nothing. -/
def Clean (bs : Nat) (w : World M) (i : Nat) : Prop :=
  ((∀ p, w.q.procs[i]? = some p → p.mode = .idle) ∧ w.loc i = ⟨Box.clear bs, none⟩) ∨ ∃ p, w.q.procs[i]? = some p ∧ inF p.mode = true ∧ (w.loc i).pend = none

/-- Process `i` has not been used. -/
def Unused (bs : Nat) (w : World M) (i : Nat) : Prop := (∀ p, w.q.procs[i]? = some p → p.mode = .idle) ∧ w.loc i = ⟨Box.clear bs, none⟩

theorem who_eq (a : QueueMsg.Label M) : a.who = Spec.who a := by cases a <;> rfl

theorem clean_frame {w w' : World M} {a : QueueMsg.Label M} (e : QueueMsg.step size bs K ser des w a = some w') {j : Nat} (h : j ≠ Spec.who a) (hc : Clean bs w j) : Clean bs w' j := by
  obtain ⟨h1, h2, _⟩ := QueueMsg.frame e (j := j) (by rw [who_eq]; exact h)
  unfold Clean at *
  rw [h1, h2]; exact hc

theorem unused_frame {w w' : World M} {a : QueueMsg.Label M} (e : QueueMsg.step size bs K ser des w a = some w') {j : Nat} (h : j ≠ Spec.who a) (hc : Unused bs w j) : Unused bs w' j := by
  obtain ⟨h1, h2, _⟩ := QueueMsg.frame e (j := j) (by rw [who_eq]; exact h)
  unfold Unused at *
  rw [h1, h2]; exact hc

theorem clean_step {w w' : World M} {a : QueueMsg.Label M} (e : QueueMsg.step size bs K ser des w a = some w') (fl : Nat → Bool) (hc : ∀ j, fl j = true → Clean bs w j) :
    ∀ j, last fl a j = true → Clean bs w' j := by
  intro j hj
  by_cases hw : j = Spec.who a
  · cases a with
    | flush i =>
      have hw : j = i := hw
      subst hw
      obtain ⟨q, hq, rfl⟩ := callFlush_some e
      obtain ⟨_, p, hp, hm⟩ := flush_mode hq
      exact .inr ⟨p, hp, hm, by simp [upd_same]⟩
    | put i m =>
      have hw : j = i := hw
      subst hw; simp [last] at hj
    | unflush i =>
      have hw : j = i := hw
      subst hw; simp [last] at hj
    | get i =>
      have hw : j = i := hw
      subst hw; simp [last] at hj
    | timeout i =>
      have hw : j = i := hw
      subst hw
      exfalso
      have h0 := hc j hj
      simp only [QueueMsg.step, ShmQueue.step] at e
      cases hp : w.q.procs[j]? with
      | none => rw [hp] at e; exact absurd e (by simp)
      | some p =>
        rw [hp] at e
        simp only at e
        by_cases hm : p.mode = .u0
        · rcases h0 with ⟨h0, _⟩ | ⟨p', hp', hm', _⟩
          · rw [h0 p hp] at hm; exact absurd hm (by simp)
          · rw [hp] at hp'
            rw [← Option.some.inj hp', hm] at hm'
            exact absurd hm' (by simp [inF])
        · simp [hm] at e
    | adv i =>
      have hw : j = i := hw
      subst hw
      have h0 := hc j hj
      simp only [QueueMsg.step] at e
      cases hp : w.q.procs[j]? with
      | none => rw [hp] at e; exact absurd e (by simp)
      | some p =>
        rw [hp] at e
        simp only at e
        cases hq : ShmQueue.step size bs w.q (.adv j) with
        | none => rw [hq] at e; exact absurd e (by simp)
        | some q =>
          rw [hq] at e
          simp only [Option.some.injEq] at e
          obtain ⟨p', hp', m1, m2, m3, m4, m5⟩ := adv_mode hp hq
          rcases h0 with ⟨h0, _⟩ | ⟨p2, hp2, hm2, hpe⟩
          · exact absurd (h0 p hp) m5
          · rw [hp] at hp2
            rw [← Option.some.inj hp2] at hm2
            have hwq : w'.q = q := by rw [← e, QueueMsg.after_q]
            by_cases h6 : p.mode = .f6
            · left
              refine ⟨fun x hx => ?_, ?_⟩
              · rw [hwq, hp'] at hx
                rw [← Option.some.inj hx]; exact m1 h6
              · rw [← e]
                simp [QueueMsg.after, h6, QueueMsg.endFlush, hpe, upd_same]
            · right
              have h6' : ¬ p.mode = .u6 := by
                intro h; rw [h] at hm2; exact absurd hm2 (by simp [inF])
              refine ⟨p', by rw [hwq]; exact hp', m3 hm2 h6, ?_⟩
              rw [← e]
              simp [QueueMsg.after, h6, h6', hpe]
  · refine clean_frame e hw (hc j ?_)
    cases a with
    | flush i =>
      have hw : j ≠ i := hw
      simpa [last, hw] using hj
    | put i m =>
      have hw : j ≠ i := hw
      simpa [last, hw] using hj
    | unflush i =>
      have hw : j ≠ i := hw
      simpa [last, hw] using hj
    | get i =>
      have hw : j ≠ i := hw
      simpa [last, hw] using hj
    | timeout i => exact hj
    | adv i => exact hj

theorem same : ∀ (as : List (Label M)) (w w' : World M) (fl used : Nat → Bool), (∀ j, fl j = true → Clean bs w j) → (∀ j, used j = false → Unused bs w j) → afterFlush fl used as →
    exec size bs K ser des w as = some w' → QueueMsg.exec size bs K ser des w (calls as) = some w'
  | [], w, w', fl, used, _, _, _, e => e
  | .lab a :: as, w, w', fl, used, hc, hu, ha, e => by
    simp only [exec, step] at e
    simp only [calls, QueueMsg.exec]
    cases hs : QueueMsg.step size bs K ser des w a with
    | none => rw [hs] at e; exact absurd e (by simp)
    | some w1 =>
      rw [hs] at e
      simp only at e ⊢
      refine same as w1 w' _ _ (clean_step hs fl hc) (fun j hj => ?_) ha e
      simp only [Bool.or_eq_false_iff, decide_eq_false_iff_not] at hj
      exact unused_frame hs hj.1 (hu j hj.2)
  | .fork i j :: as, w, w', fl, used, hc, hu, ha, e => by
    obtain ⟨h1, h2, h3, h4⟩ := ha
    simp only [exec, step] at e
    simp only [calls]
    by_cases hid : (idle w i && idle w j) = true
    · simp only [hid, if_true] at e
      simp only [Bool.and_eq_true] at hid
      obtain ⟨p, hp, hm⟩ := idle_proc hid.1
      have hl : w.loc i = ⟨Box.clear bs, none⟩ := by
        rcases hc i h1 with ⟨_, h⟩ | ⟨p', hp', hm', _⟩
        · exact h
        · rw [hp] at hp'
          rw [← Option.some.inj hp', hm] at hm'
          exact absurd hm' (by simp [inF])
      have hw : ({ w with loc := upd w.loc j (w.loc i) } : World M) = w := by
        have : upd w.loc j (w.loc i) = w.loc := by
          funext k
          by_cases hk : k = j
          · subst hk; rw [upd_same, hl, (hu k h2).2]
          · rw [upd_other _ _ hk]
        rw [this]
      rw [hw] at e
      refine same as w w' fl _ hc (fun k hk => ?_) h4 e
      simp only [Bool.or_eq_false_iff] at hk
      exact hu k hk.2
    · simp only [hid] at e
      exact absurd e (by simp)

/-- **C150_same_partial**: if every fork comes when the last call of the parent was flush, or before its first call, the run is the run of as many processes that were there from the beginning. -/
theorem C150_same_partial (n : Nat) (as : List (Label M)) (w : World M) (ha : afterFlush (fun _ => true) (fun _ => false) as) (he : exec size bs K ser des (QueueMsg.init bs n) as = some w) :
    QueueMsg.exec size bs K ser des (QueueMsg.init bs n) (calls as) = some w := by
  refine same as _ w _ _ (fun j _ => ?_) (fun j _ => ?_) ha he
  · exact .inl ⟨fun p hp => QueueMsg.init_mode hp, rfl⟩
  · exact ⟨fun p hp => QueueMsg.init_mode hp, rfl⟩

/-- **C150_ways_partial**: so parents and children that write, and those that read, can share a queue: every message got was sent, none is got twice, in the order of the senders. -/
theorem C150_ways_partial (hc : ShmQueue.Codec K ser des) (hz : ∀ n, des (List.replicate n 0) = none) (h1 : 1 ≤ size) (h2 : size < 2 ^ 32) (h3 : size * bs < 2 ^ 32)
    (writes : Nat → Bool) (n : Nat) (as : List (Label M)) (w : World M) (hr : ∀ a ∈ calls as, inRole writes a = true) (ha : afterFlush (fun _ => true) (fun _ => false) as)
    (he : exec size bs K ser des (QueueMsg.init bs n) as = some w) :
    ∃ h : List (Way M), (∀ j, toProc h j = w.got j) ∧ ∀ i, (fromProc h i).Sublist (w.sent i) :=
  QueueMsg.C145_ways hc hz h1 h2 h3 writes n (calls as) w hr (C150_same_partial n as w ha he)

def advs (i k : Nat) : List (Label M) := List.replicate k (.lab (.adv i))

/-- Process 0 puts 5 and flushes, forks process 1, both send; process 2 reads. -/
def run1 : List (Label (Fin 255)) := [.lab (.put 0 5), .lab (.flush 0)] ++ advs 0 8 ++ [.fork 0 1, .lab (.put 0 6), .lab (.put 1 7), .lab (.flush 1)] ++ advs 1 8 ++ [.lab (.flush 0)] ++ advs 0 8 ++
  [.lab (.unflush 2)] ++ advs 2 10 ++ [.lab (.get 2), .lab (.unflush 2)] ++ advs 2 10 ++ [.lab (.get 2), .lab (.unflush 2)] ++ advs 2 10 ++ [.lab (.get 2)]

example : ∃ w, exec 4 2 1 ShmQueue.ser1 ShmQueue.des1 (QueueMsg.init 2 3) run1 = some w ∧ w.sent 0 = [5, 6] ∧ w.sent 1 = [7] ∧ w.got 2 = [5, 7, 6] := ⟨_, rfl, by decide +kernel, by decide +kernel, by decide +kernel⟩
example : ∀ a ∈ calls run1, inRole (fun i => decide (i < 2)) a = true := by decide +kernel
example : afterFlush (fun _ => true) (fun _ => false) run1 := by simp [run1, advs, afterFlush, last, List.replicate, Spec.who]

/-- Process 0 puts 5 and forks process 1; both flush; processes 2 and 3 read. -/
def run2 : List (Label (Fin 255)) := [.lab (.put 0 5), .fork 0 1, .lab (.flush 0)] ++ advs 0 8 ++ [.lab (.flush 1)] ++ advs 1 8 ++ [.lab (.unflush 2)] ++ advs 2 10 ++ [.lab (.unflush 3)] ++ advs 3 10 ++
  [.lab (.get 2), .lab (.get 3)]

/-- Process 0 sends 5, process 1 receives the box and forks process 2: both get the message. -/
def run3 : List (Label (Fin 255)) := [.lab (.put 0 5), .lab (.flush 0)] ++ advs 0 8 ++ [.lab (.unflush 1)] ++ advs 1 10 ++ [.fork 1 2, .lab (.get 1), .lab (.get 2)]

def whoF : Label M → List Nat
  | .lab a => [Spec.who a]
  | .fork i j => [i, j]

theorem exec_frame (n : Nat) : ∀ (as : List (Label M)) (w w' : World M), as.all (fun a => (whoF a).all (fun i => decide (i < n))) = true → exec size bs K ser des w as = some w' →
    ∀ j, n ≤ j → w'.sent j = w.sent j ∧ w'.got j = w.got j
  | [], w, w', _, e, j, _ => by rw [← Option.some.inj e]; exact ⟨rfl, rfl⟩
  | a :: as, w, w', h, e, j, hj => by
    simp only [List.all_cons, Bool.and_eq_true] at h
    simp only [exec] at e
    cases hst : step size bs K ser des w a with
    | none => rw [hst] at e; exact absurd e (by simp)
    | some t =>
      rw [hst] at e
      obtain ⟨e1, e2⟩ := exec_frame n as t w' h.2 e j hj
      rw [e1, e2]
      cases a with
      | lab a =>
        have hw : Spec.who a < n := by simpa [whoF] using h.1
        obtain ⟨_, _, h1, h2, _⟩ := QueueMsg.frame hst (j := j) (by rw [who_eq]; omega)
        exact ⟨h1, h2⟩
      | fork i k =>
        simp only [step] at hst
        split at hst
        · rw [← Option.some.inj hst]; exact ⟨rfl, rfl⟩
        · exact absurd hst (by simp)

/-- **C150_refuted**: a fork with messages in the current box: they are sent twice.  Process 0 has put 5 once, nobody else has; two processes have got it. -/
theorem C150_refuted : ∃ w, exec 4 2 1 ShmQueue.ser1 ShmQueue.des1 (QueueMsg.init 2 4) run2 = some w ∧ (∀ a ∈ calls run2, inRole (fun i => decide (i < 2)) a = true) ∧
    w.sent 0 = [5] ∧ w.sent 1 = [] ∧ w.got 2 = [5] ∧ w.got 3 = [5] ∧ ¬ ∃ h : List (Way (Fin 255)), (∀ j, toProc h j = w.got j) ∧ ∀ i, (fromProc h i).Sublist (w.sent i) := by
  refine ⟨_, rfl, by decide +kernel, by decide +kernel, by decide +kernel, by decide +kernel, by decide +kernel, ?_⟩
  refine QueueMsg.no_ways (m := 5) (i := 0) (j := 2) (k := 3) (by decide +kernel) ?_ (by decide) (by decide +kernel) (by decide +kernel)
  intro x hx
  by_cases h3 : 4 ≤ x
  · rw [(exec_frame (size := 4) (bs := 2) (K := 1) (ser := ShmQueue.ser1) (des := ShmQueue.des1) 4 run2 (QueueMsg.init 2 4) _ (by decide +kernel) rfl x h3).1]
    simp [QueueMsg.init]
  · have : x = 1 ∨ x = 2 ∨ x = 3 := by omega
    rcases this with rfl | rfl | rfl <;> decide +kernel

/-- **C150_refuted_reader**: a fork of a reader that has not read its box up: parent and child get the same message. -/
theorem C150_refuted_reader : ∃ w, exec 4 2 1 ShmQueue.ser1 ShmQueue.des1 (QueueMsg.init 2 3) run3 = some w ∧ (∀ a ∈ calls run3, inRole (fun i => decide (i = 0)) a = true) ∧
    w.sent 0 = [5] ∧ w.got 1 = [5] ∧ w.got 2 = [5] ∧ ¬ ∃ h : List (Way (Fin 255)), (∀ j, toProc h j = w.got j) ∧ ∀ i, (fromProc h i).Sublist (w.sent i) := by
  refine ⟨_, rfl, by decide +kernel, by decide +kernel, by decide +kernel, by decide +kernel, ?_⟩
  refine QueueMsg.no_ways (m := 5) (i := 0) (j := 1) (k := 2) (by decide +kernel) ?_ (by decide) (by decide +kernel) (by decide +kernel)
  intro x hx
  by_cases h3 : 3 ≤ x
  · rw [(exec_frame (size := 4) (bs := 2) (K := 1) (ser := ShmQueue.ser1) (des := ShmQueue.des1) 3 run3 (QueueMsg.init 2 3) _ (by decide +kernel) rfl x h3).1]
    simp [QueueMsg.init]
  · have : x = 1 ∨ x = 2 := by omega
    rcases this with rfl | rfl <;> decide +kernel

end Verif.QueueFork
