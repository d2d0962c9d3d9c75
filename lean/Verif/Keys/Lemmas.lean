import Verif.Keys.Spec

set_option linter.unusedSimpArgs false
set_option linter.unusedVariables false

namespace Verif.Keys

open Spec

/-- The key of a connect whose ftok succeeds. -/
def ekey : QueueApi.Op → Option Nat
  | .connect _ k _ _ env => if env.ftok then some k else none
  | _ => none

def mkey {V : Type} : MapApi.Call V → Option Nat
  | .connect _ k env => if env.ftok then some k else none
  | _ => none

/-! ### queues: the part of the world that belongs to some handles and keys -/

namespace Q
open QueueApi

variable (inA keyA : Nat → Bool)

def cut (w : World) : World :=
  ⟨fun k => if keyA k then w.segs k else none, fun k => if keyA k then w.sems k else none, fun h => if inA h then w.hs h else .new⟩

variable {inA keyA}

theorem cut_seg {k : Nat} (h : keyA k = true) (w : World) : (cut inA keyA w).segs k = w.segs k := if_pos h
theorem cut_sem {k : Nat} (h : keyA k = true) (w : World) : (cut inA keyA w).sems k = w.sems k := if_pos h
theorem cut_h {i : Nat} (h : inA i = true) (w : World) : (cut inA keyA w).hs i = w.hs i := if_pos h

theorem cut_setSeg {k : Nat} (h : keyA k = true) (w : World) (s : Seg) : cut inA keyA (w.setSeg k s) = (cut inA keyA w).setSeg k s := by
  simp only [cut, World.setSeg, World.mk.injEq, and_true, true_and]
  funext x
  by_cases hx : x = k
  · subst hx; simp [QueueApi.set, h]
  · simp [QueueApi.set, hx]
theorem cut_setSem {k : Nat} (h : keyA k = true) (w : World) (s : Sem) : cut inA keyA (w.setSem k s) = (cut inA keyA w).setSem k s := by
  simp only [cut, World.setSem, World.mk.injEq, and_true, true_and]
  funext x
  by_cases hx : x = k
  · subst hx; simp [QueueApi.set, h]
  · simp [QueueApi.set, hx]
theorem cut_setH {i : Nat} (h : inA i = true) (w : World) (H : Handle) : cut inA keyA (w.setH i H) = (cut inA keyA w).setH i H := by
  simp only [cut, World.setH, World.mk.injEq, and_true, true_and]
  funext x
  by_cases hx : x = i
  · subst hx; simp [QueueApi.set, h]
  · simp [QueueApi.set, hx]

/-- The keys of a handle are of the kind `b`. -/
def Own (keyA : Nat → Bool) (b : Bool) (H : Handle) : Prop := (∀ k, H.sem = some k → keyA k = b) ∧ ∀ k, H.info = some k → keyA k = b

def OwnAll (inA keyA : Nat → Bool) (w : World) : Prop := ∀ h, Own keyA (inA h) (w.hs h)

/-! inside -/

theorem lock_in {H : Handle} (h : Own keyA true H) (w : World) : lock_queue (cut inA keyA w) H = (lock_queue w H).map (cut inA keyA) := by
  unfold lock_queue
  cases hs : H.sem with
  | none => rfl
  | some k =>
    have hk := h.1 k hs
    simp only [cut_sem hk]
    cases w.sems k with
    | none => rfl
    | some s =>
      simp only
      split
      · rfl
      · simp [cut_setSem hk]

theorem unlock_in {H : Handle} (h : Own keyA true H) (w : World) : unlock_queue (cut inA keyA w) H = cut inA keyA (unlock_queue w H) := by
  unfold unlock_queue
  cases hs : H.sem with
  | none => rfl
  | some k =>
    have hk := h.1 k hs
    simp only [cut_sem hk]
    cases w.sems k with
    | none => rfl
    | some s => simp [cut_setSem hk]

theorem countUp_in {H : Handle} (h : Own keyA true H) (w : World) : countUp (cut inA keyA w) H = cut inA keyA (countUp w H) := by
  unfold countUp
  cases hs : H.sem with
  | none => rfl
  | some k =>
    have hk := h.1 k hs
    simp only [cut_sem hk]
    cases w.sems k with
    | none => rfl
    | some s =>
      simp only
      split
      · simp [cut_setSem hk]
      · rfl

theorem countDown_in {H : Handle} (h : Own keyA true H) (w : World) : countDown (cut inA keyA w) H = (countDown w H).map (cut inA keyA) := by
  unfold countDown
  cases hs : H.sem with
  | none => rfl
  | some k =>
    have hk := h.1 k hs
    simp only [cut_sem hk]
    cases w.sems k with
    | none => rfl
    | some s =>
      simp only
      split
      · rfl
      · simp [cut_setSem hk]

/-- What a step gives, in the part. -/
def cutR {α : Type} (inA keyA : Nat → Bool) : Res (World × α) → Res (World × α)
  | .ok (w, r) => .ok (cut inA keyA w, r)
  | .ub => .ub

def cutO (inA keyA : Nat → Bool) : Res (Option World) → Res (Option World)
  | .ok x => .ok (x.map (cut inA keyA))
  | .ub => .ub

theorem flushBoxes_in {H : Handle} (h : Own keyA true H) (w : World) : flushBoxes (cut inA keyA w) H = cutO inA keyA (flushBoxes w H) := by
  unfold flushBoxes
  rw [lock_in h]
  cases lock_queue w H with
  | none => rfl
  | some w1 =>
    simp only [Option.map_some]
    cases hi : H.info with
    | none => rfl
    | some k =>
      have hk := h.2 k hi
      simp only [cut_seg hk]
      cases w1.segs k with
      | none => rfl
      | some s =>
        simp only
        cases flushSeg s H.buf with
        | ub => rfl
        | ok x =>
          cases x with
          | none => simp [bind, Res.bind, cutO, unlock_in h]
          | some s' => simp [bind, Res.bind, cutO, unlock_in h, ← cut_setSeg hk, countUp_in h]

theorem flushCall_in {i : Nat} (hi : inA i = true) {w : World} (h : Own keyA true (w.hs i)) : flushCall (cut inA keyA w) i = cutO inA keyA (flushCall w i) := by
  unfold flushCall
  simp only [cut_h hi]
  split
  · rw [flushBoxes_in h]
    cases flushBoxes w (w.hs i) with
    | ub => rfl
    | ok x =>
      cases x with
      | none => rfl
      | some w1 => simp [bind, Res.bind, cutO, cut_setH hi, cut_h hi]
  · simp [cutO, cut_setH hi]

theorem connect_in {i key bs max : Nat} {env : Env} (hi : inA i = true) (hk : keyA key = true) {w : World} (h : Own keyA true (w.hs i)) :
    connect (cut inA keyA w) i key bs max env = cutR inA keyA (connect w i key bs max env) := by
  unfold connect
  simp only [cut_h hi]
  have hH : Own keyA true { w.hs i with bs := bs, max := max } := h
  generalize { w.hs i with bs := bs, max := max } = H at hH
  have hsem : connect_sem (cut inA keyA w) H key env = (connect_sem w H key env).map (fun x => (cut inA keyA x.1, x.2)) := by
    unfold connect_sem
    split
    · rfl
    · split
      · rfl
      · simp only [cut_sem hk]
        cases w.sems key with
        | some s => rfl
        | none =>
          simp only
          split
          · rfl
          · simp [cut_setSem hk]
  rw [hsem]
  cases hcs : connect_sem w H key env with
  | none => simp [cutR, cut_setH hi]
  | some x =>
    obtain ⟨w1, H1⟩ := x
    have hH1 : Own keyA true H1 := by
      unfold connect_sem at hcs
      repeat' split at hcs
      all_goals first
        | (simp at hcs; done)
        | (obtain ⟨_, rfl⟩ := Prod.mk.inj (Option.some.inj hcs)
           exact ⟨fun k e => by rw [← Option.some.inj e]; exact hk, hH.2⟩)
    simp only [Option.map_some]
    rw [lock_in hH1]
    cases lock_queue w1 H1 with
    | none => simp [cutR, cut_setH hi]
    | some w2 =>
      simp only [Option.map_some]
      have hshm : connect_shm (cut inA keyA w2) H1 key env = cutR inA keyA (connect_shm w2 H1 key env) := by
        have hat : ∀ seg, attach (cut inA keyA w2) H1 key seg = cutR inA keyA (attach w2 H1 key seg) := by
          intro seg
          unfold attach
          split
          · rfl
          · simp [cutR, cut_setSeg hk]
        unfold connect_shm
        split
        · rfl
        · split
          · rfl
          · simp only [cut_seg hk]
            cases w2.segs key with
            | some seg =>
              simp only
              split
              · split
                · rfl
                · rw [hat]
                  cases attach w2 H1 key seg with
                  | ub => rfl
                  | ok x => rfl
              · rfl
            | none =>
              simp only
              split
              · rfl
              · split
                · simp [cutR, cut_setSeg hk]
                · rw [hat]
                  cases attach w2 H1 key (freshSeg H1.bs H1.max) with
                  | ub => rfl
                  | ok x => rfl
      rw [hshm]
      cases hcm : connect_shm w2 H1 key env with
      | ub => rfl
      | ok x =>
        obtain ⟨w3, H2⟩ := x
        cases H2 with
        | none => simp [cutR, cut_setH hi]
        | some H2 =>
          have hH2 : Own keyA true H2 := by
            unfold connect_shm attach at hcm
            repeat' split at hcm
            all_goals first
              | (simp at hcm; done)
              | (simp only [Res.ok_bind, Res.ok.injEq, Prod.mk.injEq, Option.some.injEq] at hcm
                 rw [← hcm.2]
                 exact ⟨hH1.1, fun k e => by rw [← Option.some.inj e]; exact hk⟩)
          simp [cutR, unlock_in hH2, cut_setH hi]

theorem step_in {op : Op} {w : World} (hi : inA (handle op) = true) (hk : ∀ f, ekey op = some f → keyA f = true) (h : Own keyA true (w.hs (handle op))) :
    step (cut inA keyA w) op = cutR inA keyA (step w op) := by
  cases op with
  | connect i key bs max env =>
    cases hf : env.ftok with
    | true => exact connect_in hi (hk key (by simp [ekey, hf])) h
    | false =>
      have hi : inA i = true := hi
      simp only [step, connect, connect_sem, hf, cut_h hi]
      simp [cutR, cut_setH hi]
  | disconnect i =>
    have hi : inA i = true := hi
    have h : Own keyA true (w.hs i) := h
    simp only [step, disconnect, cut_h hi]
    cases hin : (w.hs i).info with
    | none => rfl
    | some k =>
      have hk := h.2 k hin
      simp only [cut_seg hk]
      cases w.segs k with
      | none => rfl
      | some s => simp [cutR, cut_setH hi, cut_setSeg hk]
  | flush i =>
    have hi : inA i = true := hi
    simp only [step, flush]
    rw [flushCall_in hi h]
    cases flushCall w i with
    | ub => rfl
    | ok x => cases x <;> rfl
  | unflush i =>
    have hi : inA i = true := hi
    have h : Own keyA true (w.hs i) := h
    simp only [step, unflush, cut_h hi]
    split
    · rw [countDown_in h]
      cases countDown w (w.hs i) with
      | none => rfl
      | some w1 =>
        simp only [Option.map_some]
        rw [lock_in h]
        cases lock_queue w1 (w.hs i) with
        | none => rfl
        | some w2 =>
          simp only [Option.map_some]
          cases hin : (w.hs i).info with
          | none => rfl
          | some k =>
            have hk := h.2 k hin
            simp only [cut_seg hk]
            cases w2.segs k with
            | none => rfl
            | some s =>
              simp only
              cases unflushSeg s (w.hs i).buf.length with
              | ub => rfl
              | ok x => simp [cutR, cut_setH hi, ← cut_setSeg hk, unlock_in h]
    · rfl
  | put i m =>
    have hi : inA i = true := hi
    have h : Own keyA true (w.hs i) := h
    simp only [step, put, cut_h hi]
    cases boxPut (w.hs i) m with
    | some H => simp [cutR, cut_setH hi]
    | none =>
      simp only
      rw [flushCall_in hi h]
      cases flushCall w i with
      | ub => rfl
      | ok x =>
        cases x with
        | none => rfl
        | some w1 =>
          simp only [cutO, Option.map_some, Res.ok_bind, cut_h hi]
          cases boxPut (w1.hs i) m with
          | some H => simp [cutR, cut_setH hi]
          | none => rfl
  | get i k =>
    have hi : inA i = true := hi
    simp only [step, QueueApi.get, cut_h hi]
    split
    · simp [cutR, cut_setH hi]
    · rfl
  | count i =>
    have hi : inA i = true := hi
    have h : Own keyA true (w.hs i) := h
    simp only [step, count, cut_h hi]
    cases hs : (w.hs i).sem with
    | none => rfl
    | some k =>
      simp only [cut_sem (h.1 k hs)]
      cases w.sems k with
      | none => rfl
      | some s => rfl
  | setReg i off v =>
    have hi : inA i = true := hi
    have h : Own keyA true (w.hs i) := h
    simp only [step, set_register, cut_h hi]
    split
    · rw [lock_in h]
      cases lock_queue w (w.hs i) with
      | none => rfl
      | some w1 =>
        simp only [Option.map_some]
        cases hin : (w.hs i).info with
        | none => rfl
        | some k =>
          have hk := h.2 k hin
          simp only [cut_seg hk]
          cases w1.segs k with
          | none => rfl
          | some s => simp [cutR, ← cut_setSeg hk, unlock_in h]
    · rfl
  | getReg i off =>
    have hi : inA i = true := hi
    have h : Own keyA true (w.hs i) := h
    simp only [step, get_register, cut_h hi]
    split
    · rw [lock_in h]
      cases lock_queue w (w.hs i) with
      | none => rfl
      | some w1 =>
        simp only [Option.map_some]
        cases hin : (w.hs i).info with
        | none => rfl
        | some k =>
          have hk := h.2 k hin
          simp only [cut_seg hk]
          cases w1.segs k with
          | none => rfl
          | some s => simp [cutR, unlock_in h]
    · rfl

/-! outside -/

/-- What a step of handle `i`, whose keys are of the kind `b`, may change. -/
structure Foot (keyA : Nat → Bool) (b : Bool) (i : Nat) (w w' : World) : Prop where
  own : Own keyA b (w'.hs i)
  hs : ∀ j, j ≠ i → w'.hs j = w.hs j
  segs : ∀ k, keyA k ≠ b → w'.segs k = w.segs k
  sems : ∀ k, keyA k ≠ b → w'.sems k = w.sems k

variable {b : Bool} {i : Nat} {w0 : World}

theorem Foot.setSeg {w : World} (f : Foot keyA b i w0 w) {k : Nat} (h : keyA k = b) (s : Seg) : Foot keyA b i w0 (w.setSeg k s) :=
  ⟨f.own, f.hs, fun x hx => by
    have : x ≠ k := by rintro rfl; exact hx h
    simp [World.setSeg, QueueApi.set, this, f.segs x hx], f.sems⟩
theorem Foot.setSem {w : World} (f : Foot keyA b i w0 w) {k : Nat} (h : keyA k = b) (s : Sem) : Foot keyA b i w0 (w.setSem k s) :=
  ⟨f.own, f.hs, f.segs, fun x hx => by
    have : x ≠ k := by rintro rfl; exact hx h
    simp [World.setSem, QueueApi.set, this, f.sems x hx]⟩
theorem Foot.setH {w : World} (f : Foot keyA b i w0 w) {H : Handle} (h : Own keyA b H) : Foot keyA b i w0 (w.setH i H) :=
  ⟨by simpa [World.setH, QueueApi.set] using h, fun j hj => by simp [World.setH, QueueApi.set, hj, f.hs j hj], f.segs, f.sems⟩

theorem Foot.lock {w w1 : World} {H : Handle} (f : Foot keyA b i w0 w) (h : Own keyA b H) (e : lock_queue w H = some w1) : Foot keyA b i w0 w1 := by
  unfold lock_queue at e
  split at e
  · rw [← Option.some.inj e]; exact f
  · rename_i k hk
    split at e
    · rw [← Option.some.inj e]; exact f
    · split at e
      · exact absurd e (by simp)
      · rw [← Option.some.inj e]; exact f.setSem (h.1 k hk) _

theorem Foot.unlock {w : World} {H : Handle} (f : Foot keyA b i w0 w) (h : Own keyA b H) : Foot keyA b i w0 (unlock_queue w H) := by
  unfold unlock_queue
  split
  · exact f
  · rename_i k hk
    split
    · exact f
    · exact f.setSem (h.1 k hk) _

theorem Foot.up {w : World} {H : Handle} (f : Foot keyA b i w0 w) (h : Own keyA b H) : Foot keyA b i w0 (countUp w H) := by
  unfold countUp
  split
  · exact f
  · rename_i k hk
    split
    · exact f
    · split
      · exact f.setSem (h.1 k hk) _
      · exact f

theorem Foot.down {w w1 : World} {H : Handle} (f : Foot keyA b i w0 w) (h : Own keyA b H) (e : countDown w H = some w1) : Foot keyA b i w0 w1 := by
  unfold countDown at e
  split at e
  · exact absurd e (by simp)
  · rename_i k hk
    split at e
    · exact absurd e (by simp)
    · split at e
      · exact absurd e (by simp)
      · rw [← Option.some.inj e]; exact f.setSem (h.1 k hk) _

theorem foot_refl {w : World} (h : Own keyA b (w.hs i)) : Foot keyA b i w w := ⟨h, fun _ _ => rfl, fun _ _ => rfl, fun _ _ => rfl⟩

theorem foot_flushBoxes {w w1 : World} {H : Handle} (f : Foot keyA b i w0 w) (h : Own keyA b H) (e : flushBoxes w H = .ok (some w1)) : Foot keyA b i w0 w1 := by
  unfold flushBoxes at e
  split at e
  · exact absurd e (by simp)
  · rename_i w2 hl
    have f2 := f.lock h hl
    split at e
    · exact absurd e (by simp)
    · rename_i k hk
      split at e
      · exact absurd e (by simp)
      · rename_i seg hs
        cases hf : flushSeg seg H.buf with
        | ub => rw [hf] at e; exact absurd e (by simp)
        | ok x =>
          rw [hf] at e
          cases x with
          | none =>
            simp only [Res.ok_bind, Res.ok.injEq, Option.some.injEq] at e
            rw [← e]; exact f2.unlock h
          | some s =>
            simp only [Res.ok_bind, Res.ok.injEq, Option.some.injEq] at e
            rw [← e]; exact ((f2.setSeg (h.2 k hk) s).up h).unlock h

theorem foot_flushCall {w w1 : World} (f : Foot keyA b i w0 w) (e : flushCall w i = .ok (some w1)) : Foot keyA b i w0 w1 := by
  unfold flushCall at e
  split at e
  · cases hf : flushBoxes w (w.hs i) with
    | ub => rw [hf] at e; exact absurd e (by simp)
    | ok x =>
      rw [hf] at e
      cases x with
      | none => simp at e
      | some w2 =>
        simp only [Res.ok_bind, Res.ok.injEq, Option.some.injEq] at e
        have f2 := foot_flushBoxes f f.own hf
        rw [← e]
        exact f2.setH f2.own
  · simp only [Res.ok.injEq, Option.some.injEq] at e
    rw [← e]
    exact f.setH f.own

theorem foot_connect {key bs max : Nat} {env : Env} {w w1 : World} {r : Reply} (hk : keyA key = b) (h : Own keyA b (w.hs i)) (e : connect w i key bs max env = .ok (w1, r)) :
    Foot keyA b i w w1 := by
  have f := foot_refl h
  unfold connect at e
  have hH : Own keyA b { w.hs i with bs := bs, max := max } := h
  simp only at e
  generalize { w.hs i with bs := bs, max := max } = H at hH e
  cases hcs : connect_sem w H key env with
  | none =>
    rw [hcs] at e
    simp only [Res.ok.injEq, Prod.mk.injEq] at e
    rw [← e.1]; exact f.setH hH
  | some x =>
    obtain ⟨w2, H1⟩ := x
    have hs : Foot keyA b i w w2 ∧ Own keyA b H1 := by
      unfold connect_sem at hcs
      repeat' split at hcs
      all_goals first
        | (simp at hcs; done)
        | (obtain ⟨rfl, rfl⟩ := Prod.mk.inj (Option.some.inj hcs)
           exact ⟨f, fun k e => by rw [← Option.some.inj e]; exact hk, hH.2⟩)
        | (obtain ⟨rfl, rfl⟩ := Prod.mk.inj (Option.some.inj hcs)
           exact ⟨f.setSem hk _, fun k e => by rw [← Option.some.inj e]; exact hk, hH.2⟩)
    obtain ⟨f2, hH1⟩ := hs
    rw [hcs] at e
    simp only at e
    cases hl : lock_queue w2 H1 with
    | none =>
      rw [hl] at e
      simp only [Res.ok.injEq, Prod.mk.injEq] at e
      rw [← e.1]; exact f2.setH hH1
    | some w3 =>
      rw [hl] at e
      simp only at e
      have f3 := f2.lock hH1 hl
      cases hcm : connect_shm w3 H1 key env with
      | ub => rw [hcm] at e; exact absurd e (by simp)
      | ok x =>
        obtain ⟨w4, H2⟩ := x
        have hm : Foot keyA b i w w4 ∧ ∀ H', H2 = some H' → Own keyA b H' := by
          unfold connect_shm attach at hcm
          repeat' split at hcm
          all_goals first
            | (simp at hcm; done)
            | (simp only [Res.ok_bind, Res.ok.injEq, Prod.mk.injEq] at hcm
               rw [← hcm.2, ← hcm.1]
               exact ⟨f3, nofun⟩)
            | (simp only [Res.ok_bind, Res.ok.injEq, Prod.mk.injEq] at hcm
               rw [← hcm.2, ← hcm.1]
               exact ⟨f3.setSeg hk _, fun H' e => by
                 rw [← Option.some.inj e]
                 exact ⟨hH1.1, fun k e => by rw [← Option.some.inj e]; exact hk⟩⟩)
            | (simp only [Res.ok_bind, Res.ok.injEq, Prod.mk.injEq] at hcm
               rw [← hcm.2, ← hcm.1]
               exact ⟨f3.setSeg hk _, nofun⟩)
        obtain ⟨f4, hH2⟩ := hm
        rw [hcm] at e
        cases H2 with
        | none =>
          simp only [Res.ok_bind, Res.ok.injEq, Prod.mk.injEq] at e
          rw [← e.1]; exact f4.setH hH1
        | some H2 =>
          simp only [Res.ok_bind, Res.ok.injEq, Prod.mk.injEq] at e
          rw [← e.1]; exact (f4.unlock (hH2 _ rfl)).setH (hH2 _ rfl)

theorem step_foot {op : Op} {w w1 : World} {r : Reply} (hk : ∀ f, ekey op = some f → keyA f = b) (h : Own keyA b (w.hs (handle op))) (e : step w op = .ok (w1, r)) :
    Foot keyA b (handle op) w w1 := by
  have f := foot_refl h
  cases op with
  | connect i key bs max env =>
    cases hf : env.ftok with
    | true => exact foot_connect (hk key (by simp [ekey, hf])) h e
    | false =>
      simp only [step, connect, connect_sem, hf] at e
      simp at e
      rw [← e.1]
      exact f.setH h
  | disconnect i =>
    simp only [step, disconnect] at e
    split at e
    · simp only [Res.ok.injEq, Prod.mk.injEq] at e
      rw [← e.1]; exact f
    · rename_i k hi
      split at e
      · exact absurd e (by simp)
      · simp only [Res.ok.injEq, Prod.mk.injEq] at e
        rw [← e.1]
        exact (f.setSeg (h.2 k hi) _).setH ⟨fun k e => absurd e (by simp [Handle.new]), fun k e => absurd e (by simp [Handle.new])⟩
  | flush i =>
    simp only [step, flush] at e
    cases hf : flushCall w i with
    | ub => rw [hf] at e; exact absurd e (by simp)
    | ok x =>
      rw [hf] at e
      cases x with
      | none =>
        simp only [Res.ok_bind, Res.ok.injEq, Prod.mk.injEq] at e
        rw [← e.1]; exact f
      | some w2 =>
        simp only [Res.ok_bind, Res.ok.injEq, Prod.mk.injEq] at e
        rw [← e.1]; exact foot_flushCall f hf
  | unflush i =>
    have h : Own keyA b (w.hs i) := h
    simp only [step, unflush] at e
    split at e
    · split at e
      · simp only [Res.ok.injEq, Prod.mk.injEq] at e
        rw [← e.1]; exact f
      · rename_i w2 hd
        have f2 := f.down h hd
        split at e
        · simp only [Res.ok.injEq, Prod.mk.injEq] at e
          rw [← e.1]; exact f2
        · rename_i w3 hl
          have f3 := f2.lock h hl
          split at e
          · exact absurd e (by simp)
          · rename_i k hi
            split at e
            · exact absurd e (by simp)
            · rename_i seg hs
              cases hu : unflushSeg seg (w.hs i).buf.length with
              | ub => rw [hu] at e; exact absurd e (by simp)
              | ok x =>
                rw [hu] at e
                simp only [Res.ok_bind, Res.ok.injEq, Prod.mk.injEq] at e
                rw [← e.1]
                exact ((f3.setSeg (h.2 k hi) _).unlock h).setH h
    · simp only [Res.ok.injEq, Prod.mk.injEq] at e
      rw [← e.1]; exact f
  | put i m =>
    have h : Own keyA b (w.hs i) := h
    have own_put : ∀ {H H' : Handle} {m : List UInt8}, Own keyA b H → boxPut H m = some H' → Own keyA b H' := by
      intro H H' m hH e
      unfold boxPut at e
      split at e
      · rw [← Option.some.inj e]; exact hH
      · exact absurd e (by simp)
    simp only [step, put] at e
    split at e
    · rename_i H hp
      simp only [Res.ok.injEq, Prod.mk.injEq] at e
      rw [← e.1]; exact f.setH (own_put h hp)
    · cases hf : flushCall w i with
      | ub => rw [hf] at e; exact absurd e (by simp)
      | ok x =>
        rw [hf] at e
        cases x with
        | none =>
          simp only [Res.ok_bind, Res.ok.injEq, Prod.mk.injEq] at e
          rw [← e.1]; exact f
        | some w2 =>
          have f2 := foot_flushCall f hf
          simp only [Res.ok_bind] at e
          split at e
          · rename_i H hp
            simp only [Res.ok.injEq, Prod.mk.injEq] at e
            rw [← e.1]; exact f2.setH (own_put f2.own hp)
          · simp only [Res.ok.injEq, Prod.mk.injEq] at e
            rw [← e.1]; exact f2
  | get i k =>
    simp only [step, QueueApi.get] at e
    split at e
    · simp only [Res.ok.injEq, Prod.mk.injEq] at e
      rw [← e.1]; exact f.setH h
    · simp only [Res.ok.injEq, Prod.mk.injEq] at e
      rw [← e.1]; exact f
  | count i =>
    simp only [step, count] at e
    repeat' split at e
    all_goals
      simp only [Res.ok.injEq, Prod.mk.injEq] at e
      rw [← e.1]; exact f
  | setReg i off v =>
    have h : Own keyA b (w.hs i) := h
    simp only [step, set_register] at e
    split at e
    · split at e
      · simp only [Res.ok.injEq, Prod.mk.injEq] at e
        rw [← e.1]; exact f
      · rename_i w2 hl
        have f2 := f.lock h hl
        split at e
        · exact absurd e (by simp)
        · rename_i k hi
          split at e
          · exact absurd e (by simp)
          · simp only [Res.ok.injEq, Prod.mk.injEq] at e
            rw [← e.1]; exact (f2.setSeg (h.2 k hi) _).unlock h
    · simp only [Res.ok.injEq, Prod.mk.injEq] at e
      rw [← e.1]; exact f
  | getReg i off =>
    have h : Own keyA b (w.hs i) := h
    simp only [step, get_register] at e
    split at e
    · split at e
      · simp only [Res.ok.injEq, Prod.mk.injEq] at e
        rw [← e.1]; exact f
      · rename_i w2 hl
        have f2 := f.lock h hl
        split at e
        · exact absurd e (by simp)
        · rename_i k hi
          split at e
          · exact absurd e (by simp)
          · simp only [Res.ok.injEq, Prod.mk.injEq] at e
            rw [← e.1]; exact f2.unlock h
    · simp only [Res.ok.injEq, Prod.mk.injEq] at e
      rw [← e.1]; exact f

theorem foot_all {op : Op} {w w1 : World} (ho : OwnAll inA keyA w) (f : Foot keyA (inA (handle op)) (handle op) w w1) : OwnAll inA keyA w1 := by
  intro j
  by_cases hj : j = handle op
  · rw [hj]; exact f.own
  · rw [f.hs j hj]; exact ho j

theorem foot_out {op : Op} {w w1 : World} (hi : inA (handle op) = false) (f : Foot keyA (inA (handle op)) (handle op) w w1) : cut inA keyA w1 = cut inA keyA w := by
  simp only [cut, World.mk.injEq]
  refine ⟨?_, ?_, ?_⟩
  · funext k
    split
    · rename_i hk; exact f.segs k (by rw [hk, hi]; simp)
    · rfl
  · funext k
    split
    · rename_i hk; exact f.sems k (by rw [hk, hi]; simp)
    · rfl
  · funext j
    split
    · rename_i hj
      exact f.hs j (by rintro rfl; rw [hi] at hj; exact absurd hj (by simp))
    · rfl

theorem run_in : ∀ (ops : List Op) (w w1 : World) (rs : List Reply), OwnAll inA keyA w → (∀ op ∈ ops, ∀ f, ekey op = some f → keyA f = inA (handle op)) →
    run w ops = .ok (w1, rs) →
    run (cut inA keyA w) (ops.filter (fun op => inA (handle op))) = .ok (cut inA keyA w1, repliesOf (fun op => inA (handle op)) ops rs)
  | [], w, w1, rs, _, _, e => by
    simp only [run, Res.ok.injEq, Prod.mk.injEq] at e
    rw [← e.1]; rfl
  | op :: ops, w, w1, rs, ho, hk, e => by
    simp only [run] at e
    cases hst : step w op with
    | ub => rw [hst] at e; exact absurd e (by simp)
    | ok x =>
      obtain ⟨w2, r⟩ := x
      rw [hst, Res.ok_bind] at e
      cases hr : run w2 ops with
      | ub => rw [hr] at e; exact absurd e (by simp)
      | ok y =>
        obtain ⟨w3, rs'⟩ := y
        rw [hr] at e
        simp only [Res.ok_bind, Res.ok.injEq, Prod.mk.injEq] at e
        obtain ⟨rfl, rfl⟩ := e
        have f := step_foot (hk op List.mem_cons_self) (ho (handle op)) hst
        have ih := run_in ops w2 w3 rs' (foot_all ho f) (fun o hm => hk o (List.mem_cons_of_mem _ hm)) hr
        cases hi : inA (handle op) with
        | true =>
          rw [List.filter_cons_of_pos (by simpa using hi)]
          have h1 := step_in (inA := inA) hi (fun f hf => (hk op List.mem_cons_self f hf).trans hi) (by have := ho (handle op); rw [hi] at this; exact this)
          simp only [run, h1, hst, cutR, Res.ok_bind, ih, repliesOf, hi, if_true]
        | false =>
          rw [List.filter_cons_of_neg (by simp [hi]), ← foot_out hi f, ih]
          simp only [repliesOf, hi]
          rfl

theorem own_init : OwnAll inA keyA World.init := fun h => ⟨fun k e => absurd e (by simp [World.init, Handle.new]), fun k e => absurd e (by simp [World.init, Handle.new])⟩

theorem cut_init : cut inA keyA World.init = World.init := by
  simp only [cut, World.init, World.mk.injEq]
  refine ⟨?_, ?_, ?_⟩ <;> (funext x; split <;> rfl)

end Q

/-! ### maps -/

namespace M
open MapApi

variable {V : Type} (inA keyA : Nat → Bool)

def cut (w : World V) : World V :=
  ⟨fun k => if keyA k then w.segs k else none, fun k => if keyA k then w.sems k else none, fun h => if inA h then w.hs h else ⟨none, none⟩⟩

variable {inA keyA}

theorem cut_seg {k : Nat} (h : keyA k = true) (w : World V) : (cut inA keyA w).segs k = w.segs k := if_pos h
theorem cut_sem {k : Nat} (h : keyA k = true) (w : World V) : (cut inA keyA w).sems k = w.sems k := if_pos h
theorem cut_h {i : Nat} (h : inA i = true) (w : World V) : (cut inA keyA w).hs i = w.hs i := if_pos h

theorem cut_setSeg {k : Nat} (h : keyA k = true) (w : World V) (s : MSeg V) :
    cut inA keyA { w with segs := MapApi.set w.segs k (some s) } = { cut inA keyA w with segs := MapApi.set (cut inA keyA w).segs k (some s) } := by
  simp only [cut, World.mk.injEq, and_true, true_and]
  funext x
  by_cases hx : x = k
  · subst hx; simp [MapApi.set, h]
  · simp [MapApi.set, hx]
theorem cut_setSem {k : Nat} (h : keyA k = true) (w : World V) (s : RwLock.Vals) :
    cut inA keyA { w with sems := MapApi.set w.sems k (some s) } = { cut inA keyA w with sems := MapApi.set (cut inA keyA w).sems k (some s) } := by
  simp only [cut, World.mk.injEq, and_true, true_and]
  funext x
  by_cases hx : x = k
  · subst hx; simp [MapApi.set, h]
  · simp [MapApi.set, hx]
theorem cut_setH {i : Nat} (h : inA i = true) (w : World V) (H : Handle) : cut inA keyA (w.setH i H) = (cut inA keyA w).setH i H := by
  simp only [cut, World.setH, World.mk.injEq, and_true, true_and]
  funext x
  by_cases hx : x = i
  · subst hx; simp [MapApi.set, h]
  · simp [MapApi.set, hx]

/-- The keys of a handle are of the kind `b`. -/
def Own (keyA : Nat → Bool) (b : Bool) (H : Handle) : Prop := (∀ k, H.sem = some k → keyA k = b) ∧ ∀ k, H.shm = some k → keyA k = b

def OwnAll (inA keyA : Nat → Bool) (w : World V) : Prop := ∀ h, Own keyA (inA h) (w.hs h)

theorem own_disc {b : Bool} {H : Handle} (h : Own keyA b H) : Own keyA b (disconnect H) := by
  unfold disconnect
  split
  · exact ⟨nofun, nofun⟩
  · exact h

/-! inside -/

def cutS (inA keyA : Nat → Bool) : Sem V → Sem V
  | .done w => .done (cut inA keyA w)
  | .threw => .threw
  | .blocked => .blocked

def cutR {α : Type} (inA keyA : Nat → Bool) : Res (World V × α) → Res (World V × α)
  | .ok (w, r) => .ok (cut inA keyA w, r)
  | .ub => .ub

theorem semop_in {H : Handle} (h : Own keyA true H) (w : World V) (ops : List RwLock.SemBuf) : semop (cut inA keyA w) H ops = cutS inA keyA (semop w H ops) := by
  unfold semop
  cases hs : H.sem with
  | none => rfl
  | some k =>
    have hk := h.1 k hs
    simp only [cut_sem hk]
    cases w.sems k with
    | none => rfl
    | some s =>
      simp only
      cases RwLock.semop s ⟨0, 0⟩ ops with
      | none => rfl
      | some x => simp [cutS, cut_setSem hk]

theorem sem_in {H : Handle} {key : Nat} {env : Env} (hk : keyA key = true) (w : World V) :
    connect_sem (cut inA keyA w) H key env = (connect_sem w H key env).map (fun x => (cut inA keyA x.1, x.2)) := by
  unfold connect_sem
  split
  · rfl
  · split
    · rfl
    · simp only [cut_sem hk]
      cases w.sems key with
      | some s => rfl
      | none =>
        simp only
        split
        · rfl
        · simp [cut_setSem hk]

theorem shm_in {p : Params} {v0 : V} {H : Handle} {key : Nat} {env : Env} (hk : keyA key = true) (w : World V) :
    connect_shm p v0 (cut inA keyA w) H key env = cutR inA keyA (connect_shm p v0 w H key env) := by
  unfold connect_shm
  split
  · rfl
  · split
    · rfl
    · cases required_space p with
      | ub => rfl
      | ok sz =>
        simp only [Res.ok_bind, cut_seg hk]
        cases w.segs key with
        | some s =>
          simp only
          split
          · split
            · rfl
            · simp [cutR, cut_setSeg hk]
          · rfl
        | none =>
          simp only
          split
          · rfl
          · split
            · simp [cutR, cut_setSeg hk]
            · simp [cutR, cut_setSeg hk]

theorem attach_in {p : Params} {i : Nat} {H : Handle} {key : Nat} (hi : inA i = true) (hk : keyA key = true) (h : Own keyA true H) (w : World V) :
    connect_attach p (cut inA keyA w) i H key = cutR inA keyA (connect_attach p w i H key) := by
  unfold connect_attach
  rw [semop_in h]
  cases semop w H RwLock.lock_write_rw with
  | threw => rfl
  | blocked => simp [cutS, cutR, cut_setH hi]
  | done w1 =>
    simp only [cutS, cut_seg hk]
    cases w1.segs key with
    | none => rfl
    | some s =>
      simp only [← cut_setSeg hk]
      rw [semop_in h]
      cases semop { w1 with segs := MapApi.set w1.segs key (some { s with seg := applyA s.seg (attachWrites p s.seg).1 }) } H RwLock.unlock_write_rw with
      | threw => rfl
      | blocked => rfl
      | done w2 =>
        simp only [cutS]
        split <;> simp [cutR, cut_setH hi]

theorem own_sem {b : Bool} {w w1 : World V} {H H1 : Handle} {key : Nat} {env : Env} (hk : keyA key = b) (h : Own keyA b H) (e : connect_sem w H key env = some (w1, H1)) : Own keyA b H1 := by
  unfold connect_sem at e
  repeat' split at e
  all_goals first
    | (simp at e; done)
    | (obtain ⟨_, rfl⟩ := Prod.mk.inj (Option.some.inj e)
       exact ⟨fun k e => by rw [← Option.some.inj e]; exact hk, h.2⟩)

theorem own_shm {b : Bool} {p : Params} {v0 : V} {w w1 : World V} {H H1 : Handle} {key : Nat} {env : Env} (hk : keyA key = b) (h : Own keyA b H)
    (e : connect_shm p v0 w H key env = .ok (w1, some H1)) : Own keyA b H1 := by
  unfold connect_shm at e
  cases hr : required_space p with
  | ub =>
    rw [hr] at e
    repeat' split at e
    all_goals (simp at e; done)
  | ok sz =>
    rw [hr] at e
    simp only [Res.ok_bind] at e
    repeat' split at e
    all_goals first
      | (simp at e; done)
      | (simp only [Res.ok.injEq, Prod.mk.injEq, Option.some.injEq] at e
         rw [← e.2]
         exact ⟨h.1, fun k e => by rw [← Option.some.inj e]; exact hk⟩)

theorem connect_in {p : Params} {v0 : V} {i key : Nat} {env : Env} (hi : inA i = true) (hk : keyA key = true) {w : World V} (h : Own keyA true (w.hs i)) :
    connect p v0 (cut inA keyA w) i key env = cutR inA keyA (connect p v0 w i key env) := by
  unfold connect
  simp only [cut_h hi]
  rw [sem_in hk]
  cases hcs : connect_sem w (w.hs i) key env with
  | none => simp [cutR, cut_setH hi]
  | some x =>
    obtain ⟨w1, H1⟩ := x
    have hH1 := own_sem hk h hcs
    simp only [Option.map_some]
    rw [semop_in hH1]
    cases semop w1 H1 RwLock.lock_write_rw with
    | threw => simp [cutS, cutR, cut_setH hi]
    | blocked => simp [cutS, cutR, cut_setH hi]
    | done w2 =>
      simp only [cutS]
      rw [shm_in hk]
      cases hcm : connect_shm p v0 w2 H1 key env with
      | ub => rfl
      | ok y =>
        obtain ⟨w3, H2⟩ := y
        simp only [cutR, Res.ok_bind]
        rw [semop_in hH1]
        cases semop w3 H1 RwLock.unlock_write_rw with
        | threw => rfl
        | blocked => rfl
        | done w4 =>
          simp only [cutS]
          cases H2 with
          | none => simp [cutR, cut_setH hi]
          | some H2 => exact attach_in hi hk (own_shm hk hH1 hcm) w4

theorem locked_in {α : Type} {i : Nat} {l u : List RwLock.SemBuf} {body : ShmMap.Map V → Res (ShmMap.Map V × α)} {mk : α → Reply V} (hi : inA i = true) {w : World V} (h : Own keyA true (w.hs i)) :
    locked (cut inA keyA w) i l u body mk = cutR inA keyA (locked w i l u body mk) := by
  unfold locked
  simp only [cut_h hi]
  rw [semop_in h]
  cases semop w (w.hs i) l with
  | threw => rfl
  | blocked => rfl
  | done w1 =>
    simp only [cutS]
    cases hs : (w.hs i).shm with
    | none => rfl
    | some k =>
      have hk := h.2 k hs
      simp only [cut_seg hk]
      cases w1.segs k with
      | none => rfl
      | some s =>
        simp only
        cases body s.seg.map with
        | ub => rfl
        | ok x =>
          simp only [Res.ok_bind, ← cut_setSeg hk]
          rw [semop_in h]
          cases semop { w1 with segs := MapApi.set w1.segs k (some { s with seg := setMap s.seg x.1 }) } (w.hs i) u <;> rfl

theorem step_in {par : Nat → Params} {v0 : V} {c : Call V} {w : World V} (hi : inA (mhandle c) = true) (hk : ∀ f, mkey c = some f → keyA f = true) (h : Own keyA true (w.hs (mhandle c))) :
    step par v0 (cut inA keyA w) c = cutR inA keyA (step par v0 w c) := by
  cases c with
  | connect i key env =>
    cases hf : env.ftok with
    | true => exact connect_in hi (hk key (by simp [mkey, hf])) h
    | false =>
      have hi : inA i = true := hi
      simp only [step, connect, connect_sem, hf, cut_h hi]
      simp [cutR, cut_setH hi]
  | disconnect i =>
    have hi : inA i = true := hi
    simp [step, cutR, cut_h hi, cut_setH hi]
  | isConnected i =>
    have hi : inA i = true := hi
    simp [step, cutR, cut_h hi]
  | capacity i => rfl
  | op i o =>
    simp only [step]
    exact locked_in (i := i) hi h
  | insertMany i ps =>
    simp only [step]
    exact locked_in (i := i) hi h
  | eraseMany i ks =>
    simp only [step]
    exact locked_in (i := i) hi h
  | nonEmpty i =>
    have hi : inA i = true := hi
    have h : Own keyA true (w.hs i) := h
    simp only [step, nonEmpty, cut_h hi]
    cases hs : (w.hs i).shm with
    | none => rfl
    | some k =>
      simp only [cut_seg (h.2 k hs)]
      cases w.segs k with
      | none => rfl
      | some s => rfl

/-! outside -/

structure Foot (keyA : Nat → Bool) (b : Bool) (i : Nat) (w w' : World V) : Prop where
  own : Own keyA b (w'.hs i)
  hs : ∀ j, j ≠ i → w'.hs j = w.hs j
  segs : ∀ k, keyA k ≠ b → w'.segs k = w.segs k
  sems : ∀ k, keyA k ≠ b → w'.sems k = w.sems k

variable {b : Bool} {i : Nat} {w0 : World V}

theorem Foot.setSeg {w : World V} (f : Foot keyA b i w0 w) {k : Nat} (h : keyA k = b) (s : MSeg V) : Foot keyA b i w0 { w with segs := MapApi.set w.segs k (some s) } :=
  ⟨f.own, f.hs, fun x hx => by
    have : x ≠ k := by rintro rfl; exact hx h
    simp [MapApi.set, this, f.segs x hx], f.sems⟩
theorem Foot.setSem {w : World V} (f : Foot keyA b i w0 w) {k : Nat} (h : keyA k = b) (s : RwLock.Vals) : Foot keyA b i w0 { w with sems := MapApi.set w.sems k (some s) } :=
  ⟨f.own, f.hs, f.segs, fun x hx => by
    have : x ≠ k := by rintro rfl; exact hx h
    simp [MapApi.set, this, f.sems x hx]⟩
theorem Foot.setH {w : World V} (f : Foot keyA b i w0 w) {H : Handle} (h : Own keyA b H) : Foot keyA b i w0 (w.setH i H) :=
  ⟨by simpa [World.setH, MapApi.set] using h, fun j hj => by simp [World.setH, MapApi.set, hj, f.hs j hj], f.segs, f.sems⟩

theorem foot_refl {w : World V} (h : Own keyA b (w.hs i)) : Foot keyA b i w w := ⟨h, fun _ _ => rfl, fun _ _ => rfl, fun _ _ => rfl⟩

theorem Foot.semop {w w1 : World V} {H : Handle} {ops : List RwLock.SemBuf} (f : Foot keyA b i w0 w) (h : Own keyA b H) (e : MapApi.semop w H ops = .done w1) : Foot keyA b i w0 w1 := by
  unfold MapApi.semop at e
  split at e
  · exact absurd e (by simp)
  · rename_i k hk
    split at e
    · exact absurd e (by simp)
    · split at e
      · exact absurd e (by simp)
      · simp only [Sem.done.injEq] at e
        rw [← e]; exact f.setSem (h.1 k hk) _

theorem Foot.sem {w w1 : World V} {H H1 : Handle} {key : Nat} {env : Env} (f : Foot keyA b i w0 w) (hk : keyA key = b) (e : connect_sem w H key env = some (w1, H1)) : Foot keyA b i w0 w1 := by
  unfold connect_sem at e
  repeat' split at e
  all_goals first
    | (simp at e; done)
    | (obtain ⟨rfl, _⟩ := Prod.mk.inj (Option.some.inj e)
       exact f)
    | (obtain ⟨rfl, _⟩ := Prod.mk.inj (Option.some.inj e)
       exact f.setSem hk _)

theorem Foot.shm {p : Params} {v0 : V} {w w1 : World V} {H : Handle} {H1 : Option Handle} {key : Nat} {env : Env} (f : Foot keyA b i w0 w) (hk : keyA key = b)
    (e : connect_shm p v0 w H key env = .ok (w1, H1)) : Foot keyA b i w0 w1 := by
  unfold connect_shm at e
  cases hr : required_space p with
  | ub =>
    rw [hr] at e
    repeat' split at e
    all_goals first
      | (simp at e; done)
      | (simp only [Res.ok.injEq, Prod.mk.injEq] at e
         rw [← e.1]; exact f)
  | ok sz =>
    rw [hr] at e
    simp only [Res.ok_bind] at e
    repeat' split at e
    all_goals first
      | (simp at e; done)
      | (simp only [Res.ok.injEq, Prod.mk.injEq] at e
         rw [← e.1]; exact f)
      | (simp only [Res.ok.injEq, Prod.mk.injEq] at e
         rw [← e.1]; exact f.setSeg hk _)

theorem foot_attach {p : Params} {w w1 : World V} {H : Handle} {key : Nat} {r : Reply V} (f : Foot keyA b i w0 w) (hk : keyA key = b) (h : Own keyA b H)
    (e : connect_attach p w i H key = .ok (w1, r)) : Foot keyA b i w0 w1 := by
  unfold connect_attach at e
  split at e
  · exact absurd e (by simp)
  · simp only [Res.ok.injEq, Prod.mk.injEq] at e
    rw [← e.1]; exact f.setH h
  · rename_i w2 hl
    have f2 := f.semop h hl
    split at e
    · exact absurd e (by simp)
    · rename_i s hs
      simp only at e
      split at e
      · rename_i w3 hu
        have f3 := (f2.setSeg hk _).semop h hu
        split at e
        · simp only [Res.ok.injEq, Prod.mk.injEq] at e
          rw [← e.1]; exact f3.setH (own_disc h)
        · simp only [Res.ok.injEq, Prod.mk.injEq] at e
          rw [← e.1]; exact f3.setH h
      · exact absurd e (by simp)

theorem foot_connect {p : Params} {v0 : V} {key : Nat} {env : Env} {w w1 : World V} {r : Reply V} (hk : keyA key = b) (h : Own keyA b (w.hs i)) (e : connect p v0 w i key env = .ok (w1, r)) :
    Foot keyA b i w w1 := by
  have f := foot_refl h
  unfold connect at e
  split at e
  · simp only [Res.ok.injEq, Prod.mk.injEq] at e
    rw [← e.1]; exact f.setH (own_disc h)
  · rename_i w2 H1 hcs
    have f2 := f.sem hk hcs
    have hH1 := own_sem hk h hcs
    split at e
    · simp only [Res.ok.injEq, Prod.mk.injEq] at e
      rw [← e.1]; exact f2.setH (own_disc hH1)
    · simp only [Res.ok.injEq, Prod.mk.injEq] at e
      rw [← e.1]; exact f2.setH hH1
    · rename_i w3 hl
      have f3 := f2.semop hH1 hl
      cases hcm : connect_shm p v0 w3 H1 key env with
      | ub => rw [hcm] at e; exact absurd e (by simp)
      | ok y =>
        obtain ⟨w4, H2⟩ := y
        have f4 := f3.shm hk hcm
        rw [hcm] at e
        simp only [Res.ok_bind] at e
        split at e
        · rename_i w5 hu
          have f5 := f4.semop hH1 hu
          cases H2 with
          | none =>
            simp only [Res.ok.injEq, Prod.mk.injEq] at e
            rw [← e.1]; exact f5.setH (own_disc hH1)
          | some H2 => exact foot_attach f5 hk (own_shm hk hH1 hcm) e
        · exact absurd e (by simp)

theorem foot_locked {α : Type} {l u : List RwLock.SemBuf} {body : ShmMap.Map V → Res (ShmMap.Map V × α)} {mk : α → Reply V} {w w1 : World V} {r : Reply V} (h : Own keyA b (w.hs i))
    (e : locked w i l u body mk = .ok (w1, r)) : Foot keyA b i w w1 := by
  have f := foot_refl h
  unfold locked at e
  simp only at e
  split at e
  · simp only [Res.ok.injEq, Prod.mk.injEq] at e
    rw [← e.1]; exact f
  · simp only [Res.ok.injEq, Prod.mk.injEq] at e
    rw [← e.1]; exact f
  · rename_i w2 hl
    have f2 := f.semop h hl
    split at e
    · exact absurd e (by simp)
    · rename_i k hk
      split at e
      · exact absurd e (by simp)
      · rename_i s hs
        cases hb : body s.seg.map with
        | ub => rw [hb] at e; exact absurd e (by simp)
        | ok x =>
          rw [hb] at e
          simp only [Res.ok_bind] at e
          split at e
          · rename_i w3 hu
            simp only [Res.ok.injEq, Prod.mk.injEq] at e
            rw [← e.1]; exact (f2.setSeg (h.2 k hk) _).semop h hu
          · exact absurd e (by simp)

theorem step_foot {par : Nat → Params} {v0 : V} {c : Call V} {w w1 : World V} {r : Reply V} (hk : ∀ f, mkey c = some f → keyA f = b) (h : Own keyA b (w.hs (mhandle c)))
    (e : step par v0 w c = .ok (w1, r)) : Foot keyA b (mhandle c) w w1 := by
  have f := foot_refl h
  cases c with
  | connect i key env =>
    cases hf : env.ftok with
    | true => exact foot_connect (hk key (by simp [mkey, hf])) h e
    | false =>
      simp only [step, connect, connect_sem, hf] at e
      simp at e
      rw [← e.1]
      exact f.setH (own_disc h)
  | disconnect i =>
    simp only [step, Res.ok.injEq, Prod.mk.injEq] at e
    rw [← e.1]; exact f.setH (own_disc h)
  | isConnected i =>
    simp only [step, Res.ok.injEq, Prod.mk.injEq] at e
    rw [← e.1]; exact f
  | capacity i =>
    simp only [step, Res.ok.injEq, Prod.mk.injEq] at e
    rw [← e.1]; exact f
  | op i o =>
    simp only [step] at e
    exact foot_locked (i := i) h e
  | insertMany i ps =>
    simp only [step] at e
    exact foot_locked (i := i) h e
  | eraseMany i ks =>
    simp only [step] at e
    exact foot_locked (i := i) h e
  | nonEmpty i =>
    simp only [step, nonEmpty] at e
    repeat' split at e
    all_goals first
      | (simp at e; done)
      | (simp only [Res.ok.injEq, Prod.mk.injEq] at e
         rw [← e.1]; exact f)

theorem foot_all {c : Call V} {w w1 : World V} (ho : OwnAll inA keyA w) (f : Foot keyA (inA (mhandle c)) (mhandle c) w w1) : OwnAll inA keyA w1 := by
  intro j
  by_cases hj : j = mhandle c
  · rw [hj]; exact f.own
  · rw [f.hs j hj]; exact ho j

theorem foot_out {c : Call V} {w w1 : World V} (hi : inA (mhandle c) = false) (f : Foot keyA (inA (mhandle c)) (mhandle c) w w1) : cut inA keyA w1 = cut inA keyA w := by
  simp only [cut, World.mk.injEq]
  refine ⟨?_, ?_, ?_⟩
  · funext k
    split
    · rename_i hk; exact f.segs k (by rw [hk, hi]; simp)
    · rfl
  · funext k
    split
    · rename_i hk; exact f.sems k (by rw [hk, hi]; simp)
    · rfl
  · funext j
    split
    · rename_i hj
      exact f.hs j (by rintro rfl; rw [hi] at hj; exact absurd hj (by simp))
    · rfl

theorem run_in {par : Nat → Params} {v0 : V} : ∀ (cs : List (Call V)) (w w1 : World V) (rs : List (Reply V)), OwnAll inA keyA w → (∀ c ∈ cs, ∀ f, mkey c = some f → keyA f = inA (mhandle c)) →
    run par v0 w cs = .ok (w1, rs) →
    run par v0 (cut inA keyA w) (cs.filter (fun c => inA (mhandle c))) = .ok (cut inA keyA w1, repliesOf (fun c => inA (mhandle c)) cs rs)
  | [], w, w1, rs, _, _, e => by
    simp only [run, Res.ok.injEq, Prod.mk.injEq] at e
    rw [← e.1]; rfl
  | c :: cs, w, w1, rs, ho, hk, e => by
    simp only [run] at e
    cases hst : step par v0 w c with
    | ub => rw [hst] at e; exact absurd e (by simp)
    | ok x =>
      obtain ⟨w2, r⟩ := x
      rw [hst, Res.ok_bind] at e
      cases hr : run par v0 w2 cs with
      | ub => rw [hr] at e; exact absurd e (by simp)
      | ok y =>
        obtain ⟨w3, rs'⟩ := y
        rw [hr] at e
        simp only [Res.ok_bind, Res.ok.injEq, Prod.mk.injEq] at e
        obtain ⟨rfl, rfl⟩ := e
        have f := step_foot (hk c List.mem_cons_self) (ho (mhandle c)) hst
        have ih := run_in cs w2 w3 rs' (foot_all ho f) (fun o hm => hk o (List.mem_cons_of_mem _ hm)) hr
        cases hi : inA (mhandle c) with
        | true =>
          rw [List.filter_cons_of_pos (by simpa using hi)]
          have h1 := step_in (par := par) (v0 := v0) (inA := inA) hi (fun f hf => (hk c List.mem_cons_self f hf).trans hi) (by have := ho (mhandle c); rw [hi] at this; exact this)
          simp only [run, h1, hst, cutR, Res.ok_bind, ih, repliesOf, hi, if_true]
        | false =>
          rw [List.filter_cons_of_neg (by simp [hi]), ← foot_out hi f, ih]
          simp only [repliesOf, hi]
          rfl

theorem own_init : OwnAll inA keyA (World.init (V := V)) := fun h => ⟨nofun, nofun⟩

theorem cut_init : cut inA keyA (World.init (V := V)) = World.init := by
  simp only [cut, World.init, World.mk.injEq]
  refine ⟨?_, ?_, ?_⟩ <;> (funext x; split <;> rfl)

end M

end Verif.Keys
