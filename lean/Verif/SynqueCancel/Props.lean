/-
  C159: threads that use a synque may be cancelled.
-/
import Verif.SynqueCancel.Lemmas

namespace Verif.SynqueCancel
open Verif.Synque

variable {T : Type}

/-- C159, the part that holds: if no thread calls a get that may wait, cancellation does no harm: the elements handed out are the first ones
that were added, in their order; nothing is lost; the mutex is free when no call is in progress, however many threads were cancelled. -/
theorem C159_nowait_partial (n : Nat) (as : List (CLabel T)) (s : CState T) (hc : ∀ i, CLabel.base (.throw i) ∉ as)
    (hg : ∀ i rq, CLabel.base (.get i rq) ∈ as → rq.canwait = false) (e : crun (cinit T n) as = some s) :
    got s.base <+: s.base.acc.map Prod.snd ∧ (s.base.mtx = none → s.base.acc.map Prod.snd = got s.base ++ s.base.d.reverse) ∧
      (quiet s.base → s.base.mtx = none) := by
  have hn := nowait_crun as _ _ (nowait_init n) hg e
  have he := crun_exec as _ _ hn e
  have hcalm : ∀ l ∈ calls as, l.calm = true := by
    intro l hl
    have := calls_get hl
    cases l with
    | throw i => exact absurd this (hc i)
    | _ => rfl
  obtain ⟨h1, h2, _⟩ := C58_fifo n _ _ hcalm he
  exact ⟨h1, h2, C85_released_partial n _ _ hcalm he⟩

/-- C159, the part that holds for gets that wait, as long as no request finds its thread inside of pthread_cond_wait. -/
theorem C159_outside_partial (n : Nat) (as : List (CLabel T)) (s : CState T) (hc : ∀ i, CLabel.base (.throw i) ∉ as)
    (hn : ∀ i, CLabel.cancel i ∉ as) (e : crun (cinit T n) as = some s) :
    got s.base <+: s.base.acc.map Prod.snd ∧ (s.base.mtx = none → s.base.acc.map Prod.snd = got s.base ++ s.base.d.reverse) ∧
      (quiet s.base → s.base.mtx = none) := by
  have he := crun_exec as _ _ hn e
  have hcalm : ∀ l ∈ calls as, l.calm = true := by
    intro l hl
    have := calls_get hl
    cases l with
    | throw i => exact absurd this (hc i)
    | _ => rfl
  obtain ⟨h1, h2, _⟩ := C58_fifo n _ _ hcalm he
  exact ⟨h1, h2, C85_released_partial n _ _ hcalm he⟩

/-- Thread 0 adds and is cancelled after its call; thread 1 gets the element. -/
example : (crun (cinit Nat 2) [.base (.add 0 7), .base (.adv 0), .request 0, .base (.adv 0), .base (.adv 0), .base (.adv 0), .base (.adv 0),
      .leave 0, .base (.get 1 ⟨none, false⟩), .base (.adv 1), .base (.adv 1), .base (.adv 1), .base (.adv 1), .base (.adv 1),
      .base (.adv 1)]).map (fun s => (got s.base, s.base.mtx, s.dead)) = some ([7], none, [0]) := by decide +kernel

/-- C159 is refuted: whenever a thread is cancelled inside of a get, the queue is of no use any more: from then on, whatever any thread
does, no add inserts, no get returns and no size() returns. -/
theorem C159_refuted (n : Nat) (as : List (CLabel T)) (s s' : CState T) (i : Nat) (hc : ∀ i, CLabel.base (.throw i) ∉ as)
    (hn : ∀ i, CLabel.cancel i ∉ as) (e : crun (cinit T n) as = some s) (ec : cstep s (.cancel i) = some s') (bs : List (CLabel T))
    (s'' : CState T) (eb : crun s' bs = some s'') :
    s''.base.mtx = some i ∧ s''.base.acc = s'.base.acc ∧ s''.base.rets = s'.base.rets ∧ s''.base.sizes = s'.base.sizes := by
  have he := crun_exec as _ _ hn e
  have hcalm : ∀ l ∈ calls as, l.calm = true := by
    intro l hl
    have := calls_get hl
    cases l with
    | throw i => exact absurd this (hc i)
    | _ => rfl
  have hI := inv_exec _ _ _ (inv_init n) hcalm he
  have hst : Stuck s'.base i := by
    simp only [cstep] at ec
    split at ec
    · split at ec
      · rename_i b hb
        cases ec
        simp only [cancelled] at hb
        split at hb
        · rename_i rq hp
          split at hb
          · cases hb
            obtain ⟨hm, ho, _⟩ := held hI hp rfl
            refine ⟨hm, ?_⟩
            intro x hx
            obtain ⟨k, hk⟩ := List.getElem?_of_mem hx
            have hk' : (s.base.thr.set i .idle)[k]? = some x := hk
            rw [List.getElem?_set] at hk'
            split at hk'
            · split at hk'
              · cases hk'; rfl
              · cases hk'
            · rename_i hik
              exact ho k x (fun hh => hik hh.symm) hk'
          · cases hb
        · rename_i rq hp
          simp only [State.lock] at hb
          split at hb
          · rename_i hmx
            cases hb
            refine ⟨rfl, ?_⟩
            intro x hx
            rcases List.mem_or_eq_of_mem_set (hx : x ∈ s.base.thr.set i .idle) with hx | hx
            · rcases hI.lock with ⟨_, ho, _⟩ | ⟨j, m, h1, _⟩
              · exact ho x hx
              · rw [hmx] at h1; cases h1
            · rw [hx]; rfl
          · cases hb
        · cases hb
      · cases ec
    · cases ec
  obtain ⟨h1, h2, h3, h4⟩ := stuck_crun bs s' s'' i hst eb
  exact ⟨h1.1, h2, h3, h4⟩

/-- It happens: thread 0 waits in get and is cancelled; the add of thread 1 never gets the mutex. -/
theorem C159_witness : (crun (cinit Nat 2) [.base (.get 0 ⟨none, true⟩), .base (.adv 0), .base (.adv 0), .request 0, .cancel 0,
      .base (.add 1 7)]).map (fun s => (s.base.mtx, s.base.thr, s.dead)) = some (some 0, [.idle, .a0 7], [0]) ∧
    ((crun (cinit Nat 2) [.base (.get 0 ⟨none, true⟩), .base (.adv 0), .base (.adv 0), .request 0, .cancel 0,
      .base (.add 1 7), .base (.adv 1)]).map fun s => s.base.mtx) = none := by decide +kernel

end Verif.SynqueCancel
