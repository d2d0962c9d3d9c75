import Verif.MapWeak.Spec
import Verif.MapSys.Props

set_option linter.unusedVariables false
set_option linter.unusedSimpArgs false

namespace Verif.MapWeak

open Verif.ShmPool Verif.ShmMap Verif.MapSys

variable {V : Type} {N H : Nat}

/-! ### Stores -/

theorem store_cur (m : Map V) (n : Nat) : store N H m (.pool (.cur n)) = { m with pool := { m.pool with cur := n } } := rfl
theorem store_top (m : Map V) (n : Nat) : store N H m (.pool (.stk (.top n))) = { m with pool := { m.pool with free := { m.pool.free with top := n } } } := rfl
theorem store_data (m : Map V) (i n : Nat) : store N H m (.pool (.stk (.data i n))) =
    if i < N then { m with pool := { m.pool with free := { m.pool.free with data := put m.pool.free.data i n } } } else m := by
  by_cases h : i < N <;> simp [store, Wr.apply, PWr.apply, SWr.apply, h]
  rfl
theorem store_key (m : Map V) (i : Nat) (k : UInt64) : store N H m (.key i k) = if i < N then { m with key := put m.key i k } else m := by
  by_cases h : i < N <;> simp [store, Wr.apply, h]
theorem store_val (m : Map V) (i : Nat) (v : V) : store N H m (.val i v) = if i < N then { m with val := put m.val i v } else m := by
  by_cases h : i < N <;> simp [store, Wr.apply, h]
theorem store_next (m : Map V) (i n : Nat) : store N H m (.next i n) = if i < N then { m with next := put m.next i n } else m := by
  by_cases h : i < N <;> simp [store, Wr.apply, h]
theorem store_hash (m : Map V) (i n : Nat) : store N H m (.hash i n) = if i < H then { m with hash := put m.hash i n } else m := by
  by_cases h : i < H <;> simp [store, Wr.apply, h]

theorem put_comm {α : Type} (f : Nat → α) (i j : Nat) (x y : α) (hij : i ≠ j) : put (put f i x) j y = put (put f j y) i x := by
  funext k
  simp only [put]
  by_cases h1 : k = i
  · subst h1
    rw [if_neg hij, if_pos rfl, if_pos rfl]
  · by_cases h2 : k = j <;> simp [h1, h2]
    intro e; exact absurd e.symm hij

theorem store_comm (m : Map V) (a b : Wr V) (h : cell a ≠ cell b) : store N H (store N H m a) b = store N H (store N H m b) a := by
  rcases a with (n | (n | ⟨i, n⟩)) | ⟨i, k⟩ | ⟨i, v⟩ | ⟨i, n⟩ | ⟨i, n⟩ <;> rcases b with (n' | (n' | ⟨j, n'⟩)) | ⟨j, k'⟩ | ⟨j, v'⟩ | ⟨j, n'⟩ | ⟨j, n'⟩ <;>
    simp only [store_cur, store_top, store_data, store_key, store_val, store_next, store_hash]
  all_goals first
    | exact absurd rfl h
    | rfl
    | (have hij : i ≠ j := by rintro rfl; exact h rfl
       by_cases h1 : i < N <;> by_cases h2 : j < N <;> simp [h1, h2] <;> exact put_comm _ _ _ _ _ hij)
    | (have hij : i ≠ j := by rintro rfl; exact h rfl
       by_cases h1 : i < H <;> by_cases h2 : j < H <;> simp [h1, h2] <;> exact put_comm _ _ _ _ _ hij)
    | (split <;> rfl)
    | (by_cases h1 : i < N <;> by_cases h2 : j < N <;> simp [h1, h2] <;> done)
    | (by_cases h1 : i < N <;> by_cases h2 : j < H <;> simp [h1, h2] <;> done)
    | (by_cases h1 : i < H <;> by_cases h2 : j < N <;> simp [h1, h2] <;> done)

def storeAll (N H : Nat) (m : Map V) (ws : List (Wr V)) : Map V := ws.foldl (store N H) m

theorem storeAll_append (m : Map V) (ws : List (Wr V)) (w : Wr V) : storeAll N H m (ws ++ [w]) = store N H (storeAll N H m ws) w := by
  simp [storeAll]

/-- A store that no earlier one to the same word precedes may be made first. -/
theorem storeAll_early (ws : List (Wr V)) : ∀ (m : Map V) (k : Nat) (w : Wr V), ws[k]? = some w → (∀ u ∈ ws.take k, cell u ≠ cell w) →
    storeAll N H (store N H m w) (ws.eraseIdx k) = storeAll N H m ws := by
  induction ws with
  | nil => intro m k w h; simp at h
  | cons x ws ih =>
    intro m k w h hc
    cases k with
    | zero => simp only [List.getElem?_cons_zero, Option.some.injEq] at h; subst h; simp [storeAll]
    | succ k =>
      simp only [List.getElem?_cons_succ] at h
      have hx : cell x ≠ cell w := hc x (by simp)
      have := ih (store N H m x) k w h (fun u hu => hc u (by simp [hu]))
      simp only [List.eraseIdx_cons_succ, storeAll, List.foldl_cons] at this ⊢
      rw [← this, store_comm m x w hx]

theorem wstep_wbody (m : Map V) (l : Loc V) :
    wbody N H m l = ((match (wstep N H m l).1 with | none => m | some w => store N H m w), (wstep N H m l).2) := by
  obtain ⟨pc, todo, last, cnt, rets⟩ := l
  have gen : ∀ (pc : Pc V), (∀ r, pc ≠ .ret r) → pc ≠ .idle →
      wbody N H m ⟨pc, todo, last, cnt, rets⟩ = (match pc.step N H m with
        | (none, pc') => (m, ⟨pc', todo, last, cnt, rets⟩)
        | (some w, pc') => match w.apply N H m with
          | .ok m' => (m', ⟨pc', todo, last, cnt, rets⟩)
          | .ub => (m, ⟨.ub, todo, last, cnt, rets⟩)) ∧
      wstep N H m ⟨pc, todo, last, cnt, rets⟩ = (match pc.step N H m with
        | (none, pc') => (none, ⟨pc', todo, last, cnt, rets⟩)
        | (some w, pc') => match w.apply N H m with
          | .ok _ => (some w, ⟨pc', todo, last, cnt, rets⟩)
          | .ub => (none, ⟨.ub, todo, last, cnt, rets⟩)) := by
    intro pc h1 h2
    cases pc <;> first | exact absurd rfl h2 | exact absurd rfl (h1 _) | exact ⟨rfl, rfl⟩
  by_cases hi : pc = .idle
  · subst hi
    cases todo <;> rfl
  · by_cases hr : ∃ r, pc = .ret r
    · obtain ⟨r, rfl⟩ := hr; rfl
    · obtain ⟨e1, e2⟩ := gen pc (fun r e => hr ⟨r, e⟩) hi
      rw [e1, e2]
      rcases pc.step N H m with ⟨_ | w, pc'⟩
      · rfl
      · simp only [store]
        cases hw : w.apply N H m with
        | ub => simp only [hw]
        | ok m' => simp only [hw]

/-! ### The semaphores do not depend on the memory -/

def withMem (s : RwLock.State Unit (Loc V)) (m : Map V) : RwLock.State (Map V) (Loc V) := ⟨s.exist, s.sem, m, s.procs⟩

theorem doSem_mem (s : RwLock.State Unit (Loc V)) (m : Map V) (i : Nat) (p : RwLock.Proc (Loc V)) (ops : List RwLock.SemBuf) (md : RwLock.Mode) (l : Loc V) :
    (withMem s m).doSem i p ops md l = (s.doSem i p ops md l).map (withMem · m) := by
  simp only [RwLock.State.doSem, withMem]
  split <;> rfl

theorem step_mem (s : RwLock.State Unit (Loc V)) (m : Map V) (a : RwLock.Label (Loc V)) (ha : a.isBody = false)
    (wb : Map V → Loc V → Map V × Loc V) (rb : Map V → Loc V → Loc V) (wb' : Unit → Loc V → Unit × Loc V) (rb' : Unit → Loc V → Loc V) :
    RwLock.step wb rb (withMem s m) a = (RwLock.step wb' rb' s a).map (withMem · m) := by
  have hp : (withMem s m).procs = s.procs := rfl
  cases a with
  | body i => cases ha
  | lockR i l =>
    simp only [RwLock.step, hp]
    cases s.procs[i]? with
    | none => rfl
    | some p => simp only; split; exact doSem_mem ..; rfl
  | lockW i l =>
    simp only [RwLock.step, hp]
    cases s.procs[i]? with
    | none => rfl
    | some p => simp only; split; exact doSem_mem ..; rfl
  | unlock i =>
    simp only [RwLock.step, hp]
    cases s.procs[i]? with
    | none => rfl
    | some p =>
      simp only
      split
      · exact doSem_mem ..
      · split
        · exact doSem_mem ..
        · rfl
  | _ i =>
    obtain ⟨ex, sem, u, ps⟩ := s
    simp only [RwLock.step, withMem]
    cases ps[i]? with
    | none => rfl
    | some p =>
      by_cases h1 : p.mode = .fresh <;> by_cases h2 : ex = true <;> by_cases h3 : p.mode = .missing <;> by_cases h4 : p.mode = .setR <;>
        by_cases h5 : p.mode = .setW <;> by_cases h6 : p.mode = .dead <;> simp [h1, h2, h3, h4, h5, h6, RwLock.State.upd] <;> (try simp_all)

/-! ### Simulation by Verif.MapSys -/

/-- All views become the same memory when all stores have arrived; nothing is on its way to a process inside of a section. -/
structure Sim (N H : Nat) (s : Sys V) (t : MapSys.Sys V) : Prop where
  rw : t.rw = withMem s.lk t.rw.mem
  pend : t.pend = s.pend
  view : ∀ j, storeAll N H (s.view j) (s.inc j) = t.rw.mem
  none : ∀ j p, s.lk.procs[j]? = some p → p.mode = .writing ∨ p.mode = .reading → s.inc j = []
  inv : RwLock.Inv t.rw

theorem low_sim {s s' : Sys V} {t : MapSys.Sys V} {a : RwLock.Label (Loc V)} (h : Sim N H s t) (ha : a.isBody = false) (e : s.low a = some s') :
    ∃ t', t.low N H a = some t' ∧ s'.view = s.view ∧ s'.inc = s.inc ∧ s'.pend = s.pend ∧ t'.pend = t.pend ∧ t'.rw.mem = t.rw.mem ∧
      t'.rw = withMem s'.lk t'.rw.mem ∧ RwLock.Inv t'.rw ∧ RwLock.step (fun m l => (m, l)) (fun _ l => l) s.lk a = some s'.lk := by
  simp only [Sys.low, Option.map_eq_some_iff] at e
  obtain ⟨lk, e1, rfl⟩ := e
  have e2 : RwLock.step (wbody N H) (rbody N H) t.rw a = some (withMem lk t.rw.mem) := by
    rw [h.rw, step_mem s.lk t.rw.mem a ha _ _ (fun m l => (m, l)) (fun _ l => l), e1]
    rfl
  refine ⟨{ t with rw := withMem lk t.rw.mem }, by simp only [MapSys.Sys.low, e2, Option.map_some], rfl, rfl, rfl, rfl, rfl, rfl, ?_, e1⟩
  exact RwLock.inv_step h.inv e2

/-- The mode of a process other than that of the label does not change. -/
theorem mode_other {s s' : RwLock.State Unit (Loc V)} {a : RwLock.Label (Loc V)} (e : RwLock.step (fun m l => (m, l)) (fun _ l => l) s a = some s')
    (j : Nat) (hj : j ≠ a.pid) (q : RwLock.Proc (Loc V)) (hq : s'.procs[j]? = some q) : ∃ p, s.procs[j]? = some p ∧ p.mode = q.mode := by
  have upd : ∀ (i : Nat) (x : RwLock.Proc (Loc V)), j ≠ i → (s.procs.set i x)[j]? = s.procs[j]? := by
    intro i x hi
    rw [List.getElem?_set_ne (Ne.symm hi)]
  have sem : ∀ {i p ops m l}, j ≠ i → s.doSem i p ops m l = some s' → ∃ p, s.procs[j]? = some p ∧ p.mode = q.mode := by
    intro i p ops m l hi e
    obtain ⟨v, adj, rfl⟩ := RwLock.doSem_some e
    simp only [RwLock.State.upd, upd i _ hi] at hq
    exact ⟨q, hq, rfl⟩
  have clr : ∀ {n i x}, j ≠ i → (RwLock.clearAdj n (s.procs.set i x))[j]? = some q → ∃ p, s.procs[j]? = some p ∧ p.mode = q.mode := by
    intro n i x hi hq
    simp only [RwLock.clearAdj, List.getElem?_map, upd i x hi, Option.map_eq_some_iff] at hq
    obtain ⟨p, hp, rfl⟩ := hq
    exact ⟨p, hp, rfl⟩
  cases a with
  | lockR i l =>
    simp only [RwLock.step] at e
    cases hp : s.procs[i]? with
    | none => rw [hp] at e; cases e
    | some p =>
      rw [hp] at e; simp only at e
      split at e
      · exact sem hj e
      · cases e
  | lockW i l =>
    simp only [RwLock.step] at e
    cases hp : s.procs[i]? with
    | none => rw [hp] at e; cases e
    | some p =>
      rw [hp] at e; simp only at e
      split at e
      · exact sem hj e
      · cases e
  | unlock i =>
    simp only [RwLock.step] at e
    cases hp : s.procs[i]? with
    | none => rw [hp] at e; cases e
    | some p =>
      rw [hp] at e; simp only at e
      split at e
      · exact sem hj e
      · split at e
        · exact sem hj e
        · cases e
  | body i =>
    simp only [RwLock.step] at e
    cases hp : s.procs[i]? with
    | none => rw [hp] at e; cases e
    | some p =>
      rw [hp] at e; simp only at e
      split at e
      · cases e
        simp only [RwLock.State.upd, upd i _ hj] at hq
        exact ⟨q, hq, rfl⟩
      · split at e
        · cases e
          simp only [RwLock.State.upd, upd i _ hj] at hq
          exact ⟨q, hq, rfl⟩
        · cases e
  | kill i =>
    simp only [RwLock.step] at e
    cases hp : s.procs[i]? with
    | none => rw [hp] at e; cases e
    | some p =>
      rw [hp] at e; simp only at e
      split at e
      · cases e
      · cases e
        simp only [RwLock.State.upd, upd i _ hj] at hq
        exact ⟨q, hq, rfl⟩
  | _ i =>
    simp only [RwLock.step] at e
    cases hp : s.procs[i]? with
    | none => rw [hp] at e; cases e
    | some p =>
      rw [hp] at e; simp only at e
      split at e
      · cases e
        first
          | (simp only [RwLock.State.upd, upd i _ hj] at hq; exact ⟨q, hq, rfl⟩)
          | exact clr hj hq
      · cases e

/-- A step of the semaphores after which the process is outside, or at which no stores are on their way to it. -/
theorem low_step {s s' : Sys V} {t : MapSys.Sys V} {a : RwLock.Label (Loc V)} (h : Sim N H s t) (ha : a.isBody = false) (e : s.low a = some s')
    (hi : s.inc a.pid = [] ∨ ∀ q, s'.lk.procs[a.pid]? = some q → ¬ (q.mode = .writing ∨ q.mode = .reading)) :
    ∃ t', t.low N H a = some t' ∧ Sim N H s' t' ∧ t'.pend = t.pend ∧ s'.pend = s.pend := by
  obtain ⟨t', e1, hv, hinc, hp, hp', hm, hrw, hinv, elk⟩ := low_sim h ha e
  refine ⟨t', e1, ⟨hrw, by rw [hp', hp, h.pend], fun j => by rw [hv, hinc, hm]; exact h.view j, ?_, hinv⟩, hp', hp⟩
  intro j q hq hin
  rw [hinc]
  by_cases hj : j = a.pid
  · subst hj
    rcases hi with hi | hi
    · exact hi
    · exact absurd hin (hi q hq)
  · obtain ⟨p, hp1, hp2⟩ := mode_other elk j hj q hq
    rw [← hp2] at hin
    exact h.none j p hp1 hin

theorem setPend_sim {s : Sys V} {t : MapSys.Sys V} (h : Sim N H s t) (i : Nat) (p : Pend V) : Sim N H (s.setPend i p) (t.setPend i p) :=
  ⟨h.rw, by simp only [Sys.setPend, MapSys.Sys.setPend, h.pend], h.view, h.none, h.inv⟩

theorem out_after {s s' : RwLock.State Unit (Loc V)} {i : Nat} {a : RwLock.Label (Loc V)} (ha : a = .get i ∨ a = .kill i ∨ a = .spawn i)
    (e : RwLock.step (fun m l => (m, l)) (fun _ l => l) s a = some s') (q : RwLock.Proc (Loc V)) (hq : s'.procs[i]? = some q) :
    ¬ (q.mode = .writing ∨ q.mode = .reading) := by
  cases hp : s.procs[i]? with
  | none => rcases ha with rfl | rfl | rfl <;> simp only [RwLock.step, hp] at e <;> cases e
  | some p =>
    have hlt : i < s.procs.length := (List.getElem?_eq_some_iff.mp hp).1
    rcases ha with rfl | rfl | rfl <;> simp only [RwLock.step, hp] at e <;> split at e <;> cases e <;>
      simp only [RwLock.State.upd, List.getElem?_set_self hlt, Option.some.injEq] at hq <;> subst hq <;> simp

theorem body_sim {s s' : Sys V} {t : MapSys.Sys V} {i : Nat} (h : Sim N H s t) (e : s.body N H i = some s') :
    ∃ t', t.low N H (.body i) = some t' ∧ Sim N H s' t' := by
  have hrw := h.rw
  cases hp : s.lk.procs[i]? with
  | none => simp only [Sys.body, hp] at e; cases e
  | some p =>
    have hpt : t.rw.procs[i]? = some p := by rw [hrw]; exact hp
    have hlt : i < s.lk.procs.length := (List.getElem?_eq_some_iff.mp hp).1
    simp only [Sys.body, hp] at e
    have keep : ∀ (l : Loc V) (j : Nat) (q : RwLock.Proc (Loc V)), (s.lk.upd i { p with loc := l }).procs[j]? = some q →
        q.mode = .writing ∨ q.mode = .reading → s.inc j = [] := by
      intro l j q hq hin
      simp only [RwLock.State.upd] at hq
      by_cases hj : j = i
      · subst hj
        rw [List.getElem?_set_self hlt, Option.some.injEq] at hq
        subst hq
        exact h.none j p hp hin
      · rw [List.getElem?_set_ne (Ne.symm hj)] at hq
        exact h.none j q hq hin
    split at e
    · rename_i hm
      cases e
      have hi : s.inc i = [] := h.none i p hp (Or.inl hm)
      have hview : s.view i = t.rw.mem := by have := h.view i; rw [hi] at this; exact this
      have e2 : RwLock.step (wbody N H) (rbody N H) t.rw (.body i) = some ({ t.rw with mem := (wbody N H t.rw.mem p.loc).1 }.upd i { p with loc := (wbody N H t.rw.mem p.loc).2 }) := by
        simp only [RwLock.step, hpt]
        rw [if_pos hm]
      refine ⟨_, by simp only [MapSys.Sys.low, e2, Option.map_some]; rfl, ?_⟩
      have hinv := RwLock.inv_step h.inv e2
      rw [hview]
      have hwb := wstep_wbody (N := N) (H := H) t.rw.mem p.loc
      cases hw : (wstep N H t.rw.mem p.loc).1 with
      | none =>
        rw [hw] at hwb
        simp only at hwb
        simp only [Sys.send]
        refine ⟨?_, h.pend, ?_, fun j q hq hin => keep _ j q hq hin, hinv⟩
        · rw [hwb]; rw [hrw]; rfl
        · intro j
          rw [hwb]
          exact h.view j
      | some w =>
        rw [hw] at hwb
        simp only at hwb
        simp only [Sys.send]
        refine ⟨?_, h.pend, ?_, ?_, hinv⟩
        · rw [hwb]; rw [hrw]; rfl
        · intro j
          simp only
          by_cases hj : j = i
          · subst hj
            simp only [if_true, hi, hview, hwb]
            rfl
          · rw [if_neg hj, if_neg hj, storeAll_append, h.view j, hwb]
            rfl
        · intro j q hq hin
          simp only
          by_cases hj : j = i
          · rw [if_pos hj]; exact keep _ j q hq hin
          · exfalso
            have hq' : t.rw.procs[j]? = some q := by
              rw [hrw]
              simp only [RwLock.State.upd] at hq
              rw [List.getElem?_set_ne (Ne.symm hj)] at hq
              exact hq
            have := RwLock.inv_excl h.inv hpt hq' (Ne.symm hj) hm
            rcases hin with hin | hin
            · exact this.1 hin
            · exact this.2 hin
    · rename_i hm
      split at e
      · rename_i hm'
        cases e
        have hi : s.inc i = [] := h.none i p hp (Or.inr hm')
        have hview : s.view i = t.rw.mem := by have := h.view i; rw [hi] at this; exact this
        have e2 : RwLock.step (wbody N H) (rbody N H) t.rw (.body i) = some (t.rw.upd i { p with loc := rbody N H t.rw.mem p.loc }) := by
          simp only [RwLock.step, hpt]
          rw [if_neg hm, if_pos hm']
        refine ⟨_, by simp only [MapSys.Sys.low, e2, Option.map_some]; rfl, ?_⟩
        rw [hview]
        exact ⟨by rw [hrw]; rfl, h.pend, h.view, fun j q hq hin => keep _ j q hq hin, RwLock.inv_step h.inv e2⟩
      · cases e

theorem arrive_sim {s s' : Sys V} {t : MapSys.Sys V} {j k : Nat} (h : Sim N H s t) (e : s.arrive N H j k = some s') : Sim N H s' t := by
  simp only [Sys.arrive] at e
  cases hw : (s.inc j)[k]? with
  | none => rw [hw] at e; cases e
  | some w =>
    rw [hw] at e
    simp only at e
    split at e
    · rename_i hc
      cases e
      refine ⟨h.rw, h.pend, ?_, ?_, h.inv⟩
      · intro i
        simp only
        by_cases hi : i = j
        · subst hi
          simp only [if_true]
          rw [storeAll_early _ _ _ _ hw hc]
          exact h.view i
        · rw [if_neg hi, if_neg hi]; exact h.view i
      · intro i p hp hin
        have := h.none i p hp hin
        simp only
        by_cases hi : i = j
        · subst hi
          rw [this] at hw; simp at hw
        · rw [if_neg hi]; exact this
    · cases e

/-- Every step is a step of Verif.MapSys with the same events, or the arrival of a store. -/
theorem sim_step {s s' : Sys V} {t : MapSys.Sys V} {x : Act V} {es : List (Event V)} (h : Sim N H s t) (e : step N H s x = some (s', es)) :
    (∃ j k, x = .arrive j k ∧ es = [] ∧ Sim N H s' t) ∨ (∃ a t', x = .act a ∧ MapSys.step N H t a = some (t', es) ∧ Sim N H s' t') := by
  have hlow : ∀ (a : RwLock.Label (Loc V)) (f : Sys V → Sys V) (g : MapSys.Sys V → MapSys.Sys V) (ev : List (Event V)) (s' : Sys V) (es : List (Event V)), a.isBody = false →
      (∀ s1, s.low a = some s1 → s.inc a.pid = [] ∨ ∀ q, s1.lk.procs[a.pid]? = some q → ¬ (q.mode = .writing ∨ q.mode = .reading)) →
      (∀ s1 t1, Sim N H s1 t1 → Sim N H (f s1) (g t1)) →
      (s.low a).map (fun s => (f s, ev)) = some (s', es) →
      ∃ t', (t.low N H a).map (fun t => (g t, ev)) = some (t', es) ∧ Sim N H s' t' := by
    intro a f g ev s' es ha hi hfg e
    simp only [Option.map_eq_some_iff] at e
    obtain ⟨s1, e1, e2⟩ := e
    cases e2
    obtain ⟨t1, e3, h1, -, -⟩ := low_step h ha e1 (hi s1 e1)
    exact ⟨g t1, by rw [e3]; rfl, hfg s1 t1 h1⟩
  have hstep : ∀ {a : RwLock.Label (Loc V)} {s1 : Sys V}, s.low a = some s1 → RwLock.step (fun m l => (m, l)) (fun _ l => l) s.lk a = some s1.lk := by
    intro a s1 e1
    simp only [Sys.low, Option.map_eq_some_iff] at e1
    obtain ⟨lk, e1, rfl⟩ := e1
    exact e1
  cases x with
  | arrive j k =>
    left
    simp only [step, Option.map_eq_some_iff] at e
    obtain ⟨s1, e1, e2⟩ := e
    cases e2
    exact ⟨j, k, rfl, rfl, arrive_sim h e1⟩
  | act a =>
    right
    refine ⟨a, ?_⟩
    cases a with
    | connect i =>
      obtain ⟨t', e1, h1⟩ := hlow (.get i) id id [] s' es rfl (fun s1 e1 => Or.inr (out_after (Or.inl rfl) (hstep e1))) (fun _ _ h => h) e
      exact ⟨t', rfl, e1, h1⟩
    | spawn i =>
      obtain ⟨t', e1, h1⟩ := hlow (.spawn i) id id [] s' es rfl (fun s1 e1 => Or.inr (out_after (Or.inr (Or.inr rfl)) (hstep e1))) (fun _ _ h => h) e
      exact ⟨t', rfl, e1, h1⟩
    | kill i =>
      obtain ⟨t', e1, h1⟩ := hlow (.kill i) (fun s => s.setPend i .idle) (fun s => s.setPend i .idle) [.killed i] s' es rfl
        (fun s1 e1 => Or.inr (out_after (Or.inr (Or.inl rfl)) (hstep e1))) (fun _ _ h => setPend_sim h _ _) e
      exact ⟨t', rfl, e1, h1⟩
    | call i c =>
      have hmode : t.rw.mode i = s.lk.mode i := by rw [h.rw]; rfl
      simp only [step] at e
      simp only [MapSys.step, h.pend, hmode]
      cases hpd : s.pend i with
      | idle =>
        rw [hpd] at e
        simp only at e ⊢
        split at e
        · rename_i hm
          cases e
          rw [if_pos hm]
          exact ⟨_, trivial, rfl, setPend_sim h _ _⟩
        · cases e
      | called c' => rw [hpd] at e; cases e
      | returning rs => rw [hpd] at e; cases e
    | ret i =>
      simp only [step] at e
      simp only [MapSys.step, h.pend]
      cases hpd : s.pend i with
      | idle => rw [hpd] at e; cases e
      | called c' => rw [hpd] at e; cases e
      | returning rs =>
        rw [hpd] at e
        cases e
        exact ⟨_, trivial, rfl, setPend_sim h _ _⟩
    | body i =>
      simp only [step, Option.map_eq_some_iff] at e
      obtain ⟨s1, e1, e2⟩ := e
      cases e2
      obtain ⟨t', e3, h1⟩ := body_sim h e1
      exact ⟨t', rfl, by simp only [MapSys.step, e3, Option.map_some], h1⟩
    | lock i =>
      simp only [step] at e
      simp only [MapSys.step, h.pend]
      cases hpd : s.pend i with
      | idle => rw [hpd] at e; cases e
      | returning rs => rw [hpd] at e; cases e
      | called c =>
        rw [hpd] at e
        cases hinc : s.inc i with
        | cons w ws => rw [hinc] at e; cases e
        | nil =>
          rw [hinc] at e
          obtain ⟨t', e1, h1⟩ := hlow (if c.reads then .lockR i (.begin c) else .lockW i (.begin c)) id id [] s' es (by split <;> rfl)
            (fun s1 e1 => Or.inl (by split <;> exact hinc)) (fun _ _ h => h) e
          exact ⟨t', trivial, e1, h1⟩
    | unlock i =>
      have hpt : t.rw.procs[i]? = s.lk.procs[i]? := by rw [h.rw]; rfl
      simp only [step] at e
      simp only [MapSys.step, h.pend, hpt]
      cases hpd : s.pend i with
      | idle => rw [hpd] at e; cases e
      | returning rs => rw [hpd] at e; cases e
      | called c =>
        rw [hpd] at e
        cases hp : s.lk.procs[i]? with
        | none => rw [hp] at e; cases e
        | some p =>
          rw [hp] at e
          simp only at e ⊢
          split at e
          · rename_i hf
            rw [if_pos hf]
            obtain ⟨t', e1, h1⟩ := hlow (.unlock i) (fun s => s.setPend i (.returning (c.result p.loc))) (fun s => s.setPend i (.returning (c.result p.loc))) [] s' es rfl
              (fun s1 e1 => Or.inl (by
                have := hstep e1
                simp only [RwLock.step, hp] at this
                by_cases hm : p.mode = .writing
                · exact h.none i p hp (Or.inl hm)
                · rw [if_neg hm] at this
                  by_cases hm' : p.mode = .reading
                  · exact h.none i p hp (Or.inr hm')
                  · rw [if_neg hm'] at this; cases this)) (fun _ _ h => setPend_sim h _ _) e
            exact ⟨t', trivial, e1, h1⟩
          · cases e

end Verif.MapWeak
