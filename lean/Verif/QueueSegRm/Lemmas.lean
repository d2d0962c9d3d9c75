import Verif.QueueSegRm.Spec
import Verif.QueueApi.Lemmas
import Verif.SegRm.Lemmas
/-
  Helper lemmas for C175.
-/
set_option linter.unusedVariables false
set_option linter.unusedSimpArgs false

namespace Verif.QueueSegRm

open Verif.QueueApi
open Verif.QueueApi.Spec (State Queue User)
open Verif.SegRm (segId owner owner_segId segId_inj)

theorem set_self {α : Type} (f : Nat → α) (i : Nat) (x : α) (h : f i = x) : set f i x = f := by
  funext j; simp only [QueueApi.set]; split
  · subst_vars; rfl
  · rfl

/-! ## the calls in one piece -/

/-- What the calls of a connected handle find. -/
structure Conn (w : QueueApi.World) (h k id n : Nat) (seg : Seg) : Prop where
  sem : (w.hs h).sem = some k
  info : (w.hs h).info = some id
  boxes : (w.hs h).boxes = true
  val : w.sems k = some ⟨1, n⟩
  seg : w.segs id = some seg

theorem flushCall_flat {w : QueueApi.World} {h k id n : Nat} {seg : Seg} (C : Conn w h k id n seg) :
    flushCall w h = (do
      let r ← flushSeg seg (w.hs h).buf
      match r with
      | none => .ok (some ⟨w.segs, w.sems, set w.hs h (clearBox (w.hs h))⟩)
      | some g => .ok (some ⟨set w.segs id (some g), if n + 1 ≤ SEMVMX then set w.sems k (some ⟨1, n + 1⟩) else w.sems, set w.hs h (clearBox (w.hs h))⟩)) := by
  have hl : lock_queue w (w.hs h) = some (w.setSem k ⟨0, n⟩) := by simp [lock_queue, C.sem, C.val]
  have hs : (w.setSem k ⟨0, n⟩).segs id = some seg := C.seg
  simp only [flushCall, C.boxes, if_true, flushBoxes, hl, C.info, hs]
  cases flushSeg seg (w.hs h).buf with
  | ub => rfl
  | ok r =>
    cases r with
    | none =>
      simp only [Res.ok_bind, unlock_queue, C.sem, World.setSem, set_same, set_set, World.setH, Nat.zero_add]
      rw [set_self _ _ _ C.val]
    | some g =>
      simp only [Res.ok_bind, unlock_queue, countUp, C.sem, World.setSem, World.setSeg, set_same, World.setH, Nat.zero_add]
      by_cases hm : n + 1 ≤ SEMVMX
      · simp only [hm, if_true, set_set, set_same]
      · simp only [hm, if_false, set_set, set_same]
        rw [set_self _ _ _ C.val]

theorem unflush_flat {w : QueueApi.World} {h k id n : Nat} {seg : Seg} (C : Conn w h k id n seg) :
    unflush w h = (if n = 0 then .ok (w, .bool false) else do
      let (d, g) ← unflushSeg seg (w.hs h).buf.length
      .ok (⟨set w.segs id (some g), set w.sems k (some ⟨1, n - 1⟩), set w.hs h { w.hs h with buf := d, pos := 0 }⟩, .bool true)) := by
  by_cases hn : n = 0
  · simp [unflush, C.boxes, countDown, C.sem, C.val, hn]
  · simp only [unflush, C.boxes, if_true, countDown, C.sem, C.val, hn, if_false, lock_queue, World.setSem, set_same, Nat.one_ne_zero, set_set, C.info, C.seg]
    cases unflushSeg seg (w.hs h).buf.length with
    | ub => rfl
    | ok r => simp [unlock_queue, C.sem, World.setSem, World.setSeg, World.setH]

theorem set_register_flat {w : QueueApi.World} {h k id n : Nat} {seg : Seg} (C : Conn w h k id n seg) (off v : Nat) :
    set_register w h off v = .ok (if off < 12 then ⟨set w.segs id (some { seg with info := { seg.info with regs := seg.info.regs.set off v } }), w.sems, w.hs⟩ else w, .unit) := by
  by_cases ho : off < 12
  · simp only [set_register, ho, if_true, lock_queue, C.sem, C.val, Nat.one_ne_zero, if_false, C.info, World.setSem, C.seg, World.setSeg, unlock_queue, set_same, set_set, Nat.sub_self, Nat.zero_add]
    rw [set_self _ _ _ C.val]
  · simp [set_register, ho]

theorem get_register_flat {w : QueueApi.World} {h k id n : Nat} {seg : Seg} (C : Conn w h k id n seg) (off : Nat) :
    get_register w h off = .ok (w, .num (if off < 12 then ((seg.info.regs.getD off 0 : Nat) : Int) else 0)) := by
  by_cases ho : off < 12
  · simp only [get_register, ho, if_true, lock_queue, C.sem, C.val, Nat.one_ne_zero, if_false, C.info, World.setSem, C.seg, unlock_queue, set_same, set_set, Nat.sub_self, Nat.zero_add]
    rw [set_self _ _ _ C.val]
  · simp [get_register, ho]

/-- What connect_shm does to the segments. -/
def shmPart (segs : Nat → Option Seg) (boxes : Bool) (id bs max : Nat) (env : Env) : Res ((Nat → Option Seg) × Bool) :=
  if boxes then .ok (segs, false)
  else if !env.ftok then .ok (segs, false)
  else
    match segs id with
    | some seg =>
      if segSize bs max ≤ seg.bytes then
        if !env.shmat then .ok (segs, false)
        else if bs ≠ seg.info.box_size ∨ max ≠ seg.info.size then .ub
        else .ok (set segs id (some { seg with nattch := seg.nattch + 1 }), true)
      else .ok (segs, false)
    | none =>
      if !env.shmget then .ok (segs, false)
      else if !env.shmat then .ok (set segs id (some (blankSeg bs max)), false)
      else .ok (set segs id (some { freshSeg bs max with nattch := 1 }), true)

theorem connect_shm_eq (w : QueueApi.World) (H : Handle) (id : Nat) (env : Env) :
    connect_shm w H id env = (do
      let (g, b) ← shmPart w.segs H.boxes id H.bs H.max env
      .ok ({ w with segs := g }, if b then some { H with info := some id, boxes := true, buf := List.replicate H.bs 0, pos := 0 } else none)) := by
  unfold connect_shm shmPart
  by_cases h1 : H.boxes = true
  · simp [h1]
  by_cases h2 : (!env.ftok) = true
  · simp [h1, h2]
  simp only [h1, h2, if_false, Bool.false_eq_true]
  cases w.segs id with
  | some seg =>
    dsimp only
    by_cases h3 : segSize H.bs H.max ≤ seg.bytes <;> by_cases h4 : (!env.shmat) = true <;> by_cases h5 : H.bs ≠ seg.info.box_size ∨ H.max ≠ seg.info.size <;>
      simp [h3, h4, h5, attach, World.setSeg]
  | none =>
    dsimp only
    by_cases h3 : (!env.shmget) = true <;> by_cases h4 : (!env.shmat) = true <;> simp [h3, h4, attach, World.setSeg, freshSeg]

/-- connect of a handle without semaphores, when all system calls succeed and the lock is free. -/
theorem connect_flat {w : QueueApi.World} {h key id bs max n : Nat} {env : Env} (hv : w.sems key = some ⟨1, n⟩ ∨ w.sems key = none ∧ n = 0) (h1 : (w.hs h).sem = none)
    (h2 : env.ftok = true) (h3 : env.semget = true) (h4 : env.shmget = true) (h5 : env.shmat = true) (h6 : (w.hs h).boxes = false)
    (h7 : ∀ g, w.segs id = some g → bs = g.info.box_size ∧ max = g.info.size ∧ segSize bs max ≤ g.bytes) :
    connect w h key id bs max env = .ok (⟨set w.segs id (some (match w.segs id with | some g => { g with nattch := g.nattch + 1 } | none => { freshSeg bs max with nattch := 1 })),
      set w.sems key (some ⟨1, n⟩), set w.hs h ⟨some id, true, some key, bs, max, List.replicate bs 0, 0⟩⟩, .unit) := by
  have hcs : connect_sem w { w.hs h with bs := bs, max := max } key env =
      some (⟨w.segs, set w.sems key (some ⟨1, n⟩), w.hs⟩, { w.hs h with bs := bs, max := max, sem := some key }) := by
    unfold connect_sem
    simp only [h1, h2, h3, Option.isSome_none, Bool.false_eq_true, if_false, Bool.not_true]
    rcases hv with hv | ⟨hv, rfl⟩
    · rw [hv]; dsimp only; rw [set_self _ _ _ hv]
    · rw [hv]; rfl
  unfold connect
  dsimp only at hcs ⊢
  rw [hcs]
  simp only [lock_queue, set_same, Nat.one_ne_zero, if_false, World.setSem, set_set, connect_shm_eq, shmPart, h6, h2, h4, h5, Bool.not_true, Bool.false_eq_true]
  cases hg : w.segs id with
  | none => simp [unlock_queue, World.setSem, World.setH]
  | some g =>
    obtain ⟨a, b, c⟩ := h7 g hg
    subst a b
    simp [unlock_queue, World.setSem, World.setH, c]

theorem connect_api (w : QueueApi.World) (h id bs max : Nat) (env : Env) : QueueApi.connect w h id bs max env = connect w h id id bs max env := rfl

/-! ## the relation -/

/-- The handle of the history with renamed key files. -/
def ren (H : Handle) : Handle := { H with sem := H.info }

structure Same (gen : Nat → Nat) (w w' : QueueApi.World) : Prop where
  segs : w.segs = w'.segs
  hs : ∀ h, w'.hs h = ren (w.hs h)
  sem : ∀ h, (w.hs h).sem = (w.hs h).info.map owner
  cur : ∀ k, (∃ n, w'.sems (segId k (gen k)) = some ⟨1, n⟩ ∧ w.sems k = some ⟨1, n⟩) ∨ (w'.sems (segId k (gen k)) = none ∧ (w.sems k = none ∨ w.sems k = some ⟨1, 0⟩))
  has : ∀ h k, (w.hs h).sem = some k → ∃ n, w.sems k = some ⟨1, n⟩
  new : ∀ k g, gen k < g → w'.sems (segId k g) = none ∧ w'.segs (segId k g) = none

theorem Same.buf {gen : Nat → Nat} {w w' : QueueApi.World} (S : Same gen w w') (h : Nat) : (w'.hs h).buf = (w.hs h).buf := by rw [S.hs]; rfl
theorem Same.pos {gen : Nat → Nat} {w w' : QueueApi.World} (S : Same gen w w') (h : Nat) : (w'.hs h).pos = (w.hs h).pos := by rw [S.hs]; rfl
theorem Same.boxes {gen : Nat → Nat} {w w' : QueueApi.World} (S : Same gen w w') (h : Nat) : (w'.hs h).boxes = (w.hs h).boxes := by rw [S.hs]; rfl
theorem Same.info {gen : Nat → Nat} {w w' : QueueApi.World} (S : Same gen w w') (h : Nat) : (w'.hs h).info = (w.hs h).info := by rw [S.hs]; rfl

/-- A handle changes its box. -/
theorem Same.setBox {gen : Nat → Nat} {w w' : QueueApi.World} (S : Same gen w w') (h : Nat) (H H' : Handle) (hr : H' = ren H) (h1 : H.info = (w.hs h).info) (h2 : H.sem = (w.hs h).sem) :
    Same gen ⟨w.segs, w.sems, set w.hs h H⟩ ⟨w'.segs, w'.sems, set w'.hs h H'⟩ := by
  subst hr
  refine ⟨S.segs, ?_, ?_, S.cur, ?_, S.new⟩ <;> intro x <;> by_cases e : x = h
  · subst e; simp only [set_same]
  · simp only [set_other _ _ _ _ e]; exact S.hs x
  · subst e; simp only [set_same, h1, h2]; exact S.sem x
  · simp only [set_other _ _ _ _ e]; exact S.sem x
  · subst e; simp only [set_same, h2]; exact S.has x
  · simp only [set_other _ _ _ _ e]; exact S.has x

/-- A segment changes. -/
theorem Same.setSeg {gen : Nat → Nat} {w w' : QueueApi.World} (S : Same gen w w') (id : Nat) (g : Seg) (he : w'.segs id ≠ none) :
    Same gen ⟨set w.segs id (some g), w.sems, w.hs⟩ ⟨set w'.segs id (some g), w'.sems, w'.hs⟩ := by
  refine ⟨by rw [S.segs], S.hs, S.sem, S.cur, S.has, ?_⟩
  intro k g' hg
  have := S.new k g' hg
  have e : segId k g' ≠ id := by
    intro e
    rw [e] at this
    exact he this.2
  simp only [set_other _ _ _ _ e]
  exact this

/-- The semaphore of a queue that is there changes. -/
theorem Same.setSem {gen : Nat → Nat} {w w' : QueueApi.World} (S : Same gen w w') (k n : Nat) (he : w'.sems (segId k (gen k)) ≠ none) :
    Same gen ⟨w.segs, set w.sems k (some ⟨1, n⟩), w.hs⟩ ⟨w'.segs, set w'.sems (segId k (gen k)) (some ⟨1, n⟩), w'.hs⟩ := by
  refine ⟨S.segs, S.hs, S.sem, ?_, ?_, ?_⟩
  · intro j
    by_cases e : j = k
    · subst e
      exact Or.inl ⟨n, by simp only [set_same], by simp only [set_same]⟩
    · have e' : segId j (gen j) ≠ segId k (gen k) := fun x => e (segId_inj x).1
      simp only [set_other _ _ _ _ e, set_other _ _ _ _ e']
      exact S.cur j
  · intro h j hj
    by_cases e : j = k
    · subst e; exact ⟨n, by simp only [set_same]⟩
    · simp only [set_other _ _ _ _ e]; exact S.has h j hj
  · intro j g hg
    have e' : segId j g ≠ segId k (gen k) := by
      intro x
      obtain ⟨rfl, rfl⟩ := segId_inj x
      omega
    simp only [set_other _ _ _ _ e']
    exact S.new j g hg

/-- Both worlds give a connected handle what it needs. -/
theorem Same.conn {gen : Nat → Nat} {w w' : QueueApi.World} {s : State} (S : Same gen w w') (R : Rel w' s) {h id : Nat} (hk : (s.us h).key = some id) :
    ∃ seg q n, s.qs id = some q ∧ SegRel seg q ∧ Conn w' h id id q.items.length seg ∧ Conn w h (owner id) id n seg ∧ (id = segId (owner id) (gen (owner id)) → n = q.items.length) := by
  obtain ⟨seg, q, e1, e2, e3, Sg, hl, i1, i2, i3⟩ := R.conn hk
  have j1 : (w.hs h).info = some id := (S.info h).symm.trans i1
  have j3 : (w.hs h).sem = some (owner id) := by rw [S.sem, j1]; rfl
  obtain ⟨n, hn⟩ := S.has h _ j3
  refine ⟨seg, q, n, e3, Sg, ⟨i3, i1, i2, e2, e1⟩, ⟨j3, j1, (S.boxes h).symm.trans i2, hn, by rw [S.segs]; exact e1⟩, ?_⟩
  intro hc
  rcases S.cur (owner id) with ⟨m, a, b⟩ | ⟨a, _⟩
  · rw [← hc, e2] at a
    rw [hn] at b
    simp only [Option.some.injEq, Sem.mk.injEq, true_and] at a b
    omega
  · rw [← hc, e2] at a
    simp at a

theorem Same.none {gen : Nat → Nat} {w w' : QueueApi.World} {s : State} (S : Same gen w w') (R : Rel w' s) {h : Nat} (hk : (s.us h).key = none) :
    (w.hs h).info = none ∧ (w.hs h).boxes = false ∧ (w.hs h).sem = none ∧ (w'.hs h).info = none ∧ (w'.hs h).boxes = false ∧ (w'.hs h).sem = none := by
  have H := R.h h
  have a := H.info.trans hk
  have b : (w'.hs h).boxes = false := by rw [H.boxes, hk]; rfl
  have c := (S.info h).symm.trans a
  exact ⟨c, (S.boxes h).symm.trans b, by rw [S.sem, c]; rfl, a, b, H.sem.trans hk⟩

theorem owner_eq (id : Nat) : (Nat.unpair id).1 = owner id := rfl

theorem fresh_eq {gen : Nat → Nat} {s : State} {h id : Nat} (hk : (s.us h).key = some id) (ha : Spec.fresh gen s h = true) : id = segId (owner id) (gen (owner id)) := by
  unfold Spec.fresh at ha
  rw [hk] at ha
  exact of_decide_eq_true ha

theorem sim_flushCall {gen : Nat → Nat} {w w' w1' : QueueApi.World} {s : State} (S : Same gen w w') (R : Rel w' s) (h : Nat) (ha : Spec.fresh gen s h = true)
    (hf : flushCall w' h = .ok (some w1')) : ∃ w1, flushCall w h = .ok (some w1) ∧ Same gen w1 w1' := by
  have hcb : clearBox (w'.hs h) = ren (clearBox (w.hs h)) := by rw [S.hs]; rfl
  cases hk : (s.us h).key with
  | none =>
    obtain ⟨_, b, _, _, b', _⟩ := S.none R hk
    simp only [flushCall, b', Bool.false_eq_true, if_false, Res.ok.injEq, Option.some.injEq] at hf
    subst hf
    refine ⟨w.setH h (clearBox (w.hs h)), by simp only [flushCall, b, Bool.false_eq_true, if_false], ?_⟩
    exact S.setBox h _ _ hcb rfl rfl
  | some id =>
    obtain ⟨seg, q, n, hq, Sg, C', C, hn⟩ := S.conn R hk
    replace ha := fresh_eq hk ha
    have hn := hn ha
    subst hn
    rw [flushCall_flat C', S.buf h] at hf
    rw [flushCall_flat C]
    cases hg : flushSeg seg (w.hs h).buf with
    | ub => rw [hg] at hf; simp at hf
    | ok r =>
      rw [hg] at hf
      simp only [Res.ok_bind] at hf ⊢
      cases r with
      | none =>
        simp only [Res.ok.injEq, Option.some.injEq] at hf
        subst hf
        exact ⟨_, rfl, S.setBox h _ _ hcb rfl rfl⟩
      | some g =>
        simp only [Res.ok.injEq, Option.some.injEq] at hf
        subst hf
        refine ⟨_, rfl, ?_⟩
        have A := S.setSeg id g (by rw [C'.seg]; simp)
        by_cases hm : q.items.length + 1 ≤ SEMVMX
        · simp only [hm, if_true]
          have B := A.setSem (owner id) (q.items.length + 1) (by rw [← ha]; simp [C'.val])
          rw [← ha] at B
          exact B.setBox h _ _ hcb rfl rfl
        · simp only [hm, if_false]
          exact A.setBox h _ _ hcb rfl rfl

theorem boxPut_ren (H : Handle) (m : List UInt8) : boxPut (ren H) m = (boxPut H m).map ren := by
  unfold boxPut ren
  dsimp only
  split <;> rfl

theorem boxPut_keeps {H H1 : Handle} {m : List UInt8} (h : boxPut H m = some H1) : H1.info = H.info ∧ H1.sem = H.sem := by
  unfold boxPut at h
  split at h
  · cases h; exact ⟨rfl, rfl⟩
  · simp at h

theorem sim_call {gen : Nat → Nat} {w w' w1' : QueueApi.World} {s s' : State} {r : Reply} (S : Same gen w w') (R : Rel w' s) (op : Op) (ha : Spec.allowed gen s op = true)
    (hs : QueueApi.Spec.step s (Spec.name gen op) = some (s', r)) (h1 : QueueApi.step w' (Spec.name gen op) = .ok (w1', r)) :
    ∃ w1, call gen w op = .ok (w1, r) ∧ Same gen w1 w1' := by
  cases op with
  | connect h key bs max env =>
    simp only [Spec.name, QueueApi.Spec.step] at hs
    simp only [Spec.name, QueueApi.step, connect_api] at h1
    simp only [call]
    cases hk : (s.us h).key with
    | some id =>
      obtain ⟨seg, q, n, hq, Sg, C', C, hn⟩ := S.conn R hk
      have e' : ∀ k, connect_sem w' { w'.hs h with bs := bs, max := max } k env = none := by intro k; simp [connect_sem, C'.sem]
      have e : ∀ k, connect_sem w { w.hs h with bs := bs, max := max } k env = none := by intro k; simp [connect_sem, C.sem]
      simp only [connect, e', Res.ok.injEq, Prod.mk.injEq] at h1
      obtain ⟨rfl, rfl⟩ := h1
      refine ⟨w.setH h { w.hs h with bs := bs, max := max }, by simp only [connect, e], ?_⟩
      exact S.setBox h _ _ (by rw [S.hs]; rfl) rfl rfl
    | none =>
      obtain ⟨a, b, c, a', b', c'⟩ := S.none R hk
      by_cases hf : env.ftok = false
      · have e' : ∀ k, connect_sem w' { w'.hs h with bs := bs, max := max } k env = none := by intro k; simp [connect_sem, hf]
        have e : ∀ k, connect_sem w { w.hs h with bs := bs, max := max } k env = none := by intro k; simp [connect_sem, hf]
        simp only [connect, e', Res.ok.injEq, Prod.mk.injEq] at h1
        obtain ⟨rfl, rfl⟩ := h1
        refine ⟨w.setH h { w.hs h with bs := bs, max := max }, by simp only [connect, e], ?_⟩
        exact S.setBox h _ _ (by rw [S.hs]; rfl) rfl rfl
      · rw [hk] at hs
        simp only [hf, if_false] at hs
        by_cases he : (env.semget && env.shmget && env.shmat) = true
        · simp only [he, if_true] at hs
          simp only [Bool.and_eq_true] at he
          obtain ⟨⟨he1, he2⟩, he3⟩ := he
          simp only [Bool.not_eq_false] at hf
          generalize hid : segId key (gen key) = id at *
          have h7 : ∀ g, w'.segs id = some g → bs = g.info.box_size ∧ max = g.info.size ∧ segSize bs max ≤ g.bytes := by
            intro g hg
            have Q := R.q id
            rw [hg] at Q
            cases hq : s.qs id with
            | none => rw [hq] at Q; cases hv : w'.sems id <;> rw [hv] at Q <;> exact Q.elim
            | some q =>
              rw [hq] at Q hs
              cases hv : w'.sems id with
              | none => rw [hv] at Q; exact Q.elim
              | some v =>
                rw [hv] at Q
                obtain ⟨Sg, _⟩ := Q
                by_cases hp : bs = q.bs ∧ max = q.max
                · obtain ⟨f1, f2, f3, f4⟩ := (fit_iff _ _).mp Sg.fit
                  refine ⟨hp.1.trans Sg.bs.symm, hp.2.trans Sg.size.symm, ?_⟩
                  rw [Sg.bytes, hp.1, hp.2]
                  unfold segSize
                  rw [Nat.mod_eq_of_lt f3]
                · simp [hf, hp] at hs
          obtain ⟨n, hv, hv'⟩ : ∃ n, (w.sems key = some ⟨1, n⟩ ∨ w.sems key = none ∧ n = 0) ∧ (w'.sems id = some ⟨1, n⟩ ∨ w'.sems id = none ∧ n = 0) := by
            rcases S.cur key with ⟨n, x, y⟩ | ⟨x, y⟩
            · rw [hid] at x
              exact ⟨n, Or.inl y, Or.inl x⟩
            · rw [hid] at x
              refine ⟨0, ?_, Or.inr ⟨x, rfl⟩⟩
              rcases y with y | y
              · exact Or.inr ⟨y, rfl⟩
              · exact Or.inl y
          rw [connect_flat hv' c' hf he1 he2 he3 b' h7] at h1
          rw [connect_flat hv c hf he1 he2 he3 b (by rw [S.segs]; exact h7)]
          simp only [Res.ok.injEq, Prod.mk.injEq] at h1
          obtain ⟨rfl, rfl⟩ := h1
          refine ⟨_, rfl, ?_⟩
          rw [S.segs]
          refine ⟨rfl, ?_, ?_, ?_, ?_, ?_⟩
          · intro x
            by_cases e : x = h
            · subst e; simp only [set_same]; rfl
            · simp only [set_other _ _ _ _ e]; exact S.hs x
          · intro x
            by_cases e : x = h
            · subst e; simp only [set_same, Option.map_some, ← hid, owner_segId]
            · simp only [set_other _ _ _ _ e]; exact S.sem x
          · intro j
            by_cases e : j = key
            · subst e
              exact Or.inl ⟨n, by simp only [hid, set_same], by simp only [set_same]⟩
            · have e' : segId j (gen j) ≠ id := fun x => e (segId_inj (x.trans hid.symm)).1
              simp only [set_other _ _ _ _ e, set_other _ _ _ _ e']
              exact S.cur j
          · intro x j hj
            by_cases e : j = key
            · subst e; exact ⟨n, by simp only [set_same]⟩
            · simp only [set_other _ _ _ _ e]
              by_cases ex : x = h
              · subst ex
                simp only [set_same, Option.some.injEq] at hj
                exact absurd hj.symm e
              · simp only [set_other _ _ _ _ ex] at hj
                exact S.has x j hj
          · intro j g hg
            have e' : segId j g ≠ id := by
              intro x
              obtain ⟨rfl, rfl⟩ := segId_inj (x.trans hid.symm)
              omega
            simp only [set_other _ _ _ _ e']
            exact S.new j g hg
        · simp [he] at hs
  | disconnect h =>
    simp only [call, Spec.name, QueueApi.step, disconnect] at h1 ⊢
    rw [S.info] at h1
    cases hi : (w.hs h).info with
    | none =>
      rw [hi] at h1
      simp only [Res.ok.injEq, Prod.mk.injEq] at h1
      obtain ⟨rfl, rfl⟩ := h1
      exact ⟨w, rfl, S⟩
    | some id =>
      rw [hi] at h1
      dsimp only at h1 ⊢
      rw [S.segs]
      cases hg : w'.segs id with
      | none => rw [hg] at h1; simp at h1
      | some g =>
        rw [hg] at h1
        simp only [Res.ok.injEq, Prod.mk.injEq] at h1
        obtain ⟨rfl, rfl⟩ := h1
        refine ⟨_, rfl, ?_⟩
        have A := S.setSeg id { g with nattch := g.nattch - 1 } (by rw [hg]; simp)
        refine ⟨A.segs, ?_, ?_, A.cur, ?_, A.new⟩ <;> intro x <;> simp only [World.setH, World.setSeg] <;> by_cases e : x = h
        · subst e; simp only [set_same]; rfl
        · simp only [set_other _ _ _ _ e]; exact S.hs x
        · subst e; simp only [set_same]; rfl
        · simp only [set_other _ _ _ _ e]; exact S.sem x
        · subst e; simp [set_same, Handle.new]
        · simp only [set_other _ _ _ _ e]; exact S.has x
  | flush h =>
    simp only [call, Spec.name, QueueApi.step, flush] at h1 ⊢
    cases hf : flushCall w' h with
    | ub => rw [hf] at h1; simp at h1
    | ok o =>
      rw [hf] at h1
      cases o with
      | none =>
        obtain ⟨w2, h2, _⟩ := flush_sim R h
        rw [hf] at h2
        simp at h2
      | some w2' =>
        simp only [Res.ok_bind, Res.ok.injEq, Prod.mk.injEq] at h1
        obtain ⟨rfl, rfl⟩ := h1
        obtain ⟨w2, h2, S2⟩ := sim_flushCall S R h ha hf
        exact ⟨w2, by simp only [h2, Res.ok_bind], S2⟩
  | unflush h =>
    simp only [call, Spec.name, QueueApi.step] at h1 ⊢
    cases hk : (s.us h).key with
    | none =>
      obtain ⟨_, b, _, _, b', _⟩ := S.none R hk
      simp only [unflush, b', Bool.false_eq_true, if_false, Res.ok.injEq, Prod.mk.injEq] at h1
      obtain ⟨rfl, rfl⟩ := h1
      exact ⟨w, by simp only [unflush, b, Bool.false_eq_true, if_false], S⟩
    | some id =>
      obtain ⟨seg, q, n, hq, Sg, C', C, hn⟩ := S.conn R hk
      replace ha := fresh_eq hk ha
      have hn := hn ha
      subst hn
      rw [unflush_flat C', S.buf h] at h1
      rw [unflush_flat C]
      by_cases h0 : q.items.length = 0
      · simp only [h0, if_true, Res.ok.injEq, Prod.mk.injEq] at h1 ⊢
        obtain ⟨rfl, rfl⟩ := h1
        exact ⟨w, ⟨rfl, rfl⟩, S⟩
      · simp only [h0, if_false] at h1 ⊢
        cases hg : unflushSeg seg (w.hs h).buf.length with
        | ub => rw [hg] at h1; simp at h1
        | ok dg =>
          obtain ⟨d, g⟩ := dg
          rw [hg] at h1
          simp only [Res.ok_bind, Res.ok.injEq, Prod.mk.injEq] at h1 ⊢
          obtain ⟨rfl, rfl⟩ := h1
          refine ⟨_, ⟨rfl, rfl⟩, ?_⟩
          have A := S.setSeg id g (by rw [C'.seg]; simp)
          have B := A.setSem (owner id) (q.items.length - 1) (by rw [← ha]; simp [C'.val])
          rw [← ha] at B
          exact B.setBox h _ _ (by rw [S.hs]; rfl) rfl rfl
  | put h m =>
    simp only [call, Spec.name, QueueApi.step, put] at h1 ⊢
    rw [S.hs, boxPut_ren] at h1
    cases hb : boxPut (w.hs h) m with
    | some H =>
      rw [hb] at h1
      simp only [Option.map_some, Res.ok.injEq, Prod.mk.injEq] at h1
      obtain ⟨rfl, rfl⟩ := h1
      obtain ⟨k1, k2⟩ := boxPut_keeps hb
      exact ⟨_, rfl, S.setBox h _ _ rfl k1 k2⟩
    | none =>
      rw [hb] at h1
      simp only [Option.map_none] at h1 ⊢
      cases hf : flushCall w' h with
      | ub => rw [hf] at h1; simp at h1
      | ok o =>
        rw [hf] at h1
        cases o with
        | none =>
          obtain ⟨w2, h2, _⟩ := flush_sim R h
          rw [hf] at h2
          simp at h2
        | some w2' =>
          obtain ⟨w2, h2, S2⟩ := sim_flushCall S R h ha hf
          simp only [Res.ok_bind] at h1
          rw [S2.hs, boxPut_ren] at h1
          simp only [h2, Res.ok_bind]
          cases hb2 : boxPut (w2.hs h) m with
          | some H =>
            rw [hb2] at h1
            simp only [Option.map_some, Res.ok.injEq, Prod.mk.injEq] at h1
            obtain ⟨rfl, rfl⟩ := h1
            obtain ⟨k1, k2⟩ := boxPut_keeps hb2
            exact ⟨_, rfl, S2.setBox h _ _ rfl k1 k2⟩
          | none =>
            rw [hb2] at h1
            simp only [Option.map_none, Res.ok.injEq, Prod.mk.injEq] at h1
            obtain ⟨rfl, rfl⟩ := h1
            exact ⟨_, rfl, S2⟩
  | get h k =>
    simp only [call, Spec.name, QueueApi.step, QueueApi.get] at h1 ⊢
    rw [S.buf, S.pos] at h1
    by_cases hc : (w.hs h).pos + k ≤ (w.hs h).buf.length
    · rw [if_pos hc] at h1 ⊢
      simp only [Res.ok.injEq, Prod.mk.injEq] at h1 ⊢
      obtain ⟨rfl, rfl⟩ := h1
      exact ⟨_, ⟨rfl, rfl⟩, S.setBox h _ _ (by rw [S.hs]; rfl) rfl rfl⟩
    · rw [if_neg hc] at h1 ⊢
      simp only [Res.ok.injEq, Prod.mk.injEq] at h1 ⊢
      obtain ⟨rfl, rfl⟩ := h1
      exact ⟨_, ⟨rfl, rfl⟩, S⟩
  | count h =>
    simp only [call, Spec.name, QueueApi.step] at h1 ⊢
    cases hk : (s.us h).key with
    | none =>
      obtain ⟨_, _, c, _, _, c'⟩ := S.none R hk
      simp only [count, c', Res.ok.injEq, Prod.mk.injEq] at h1
      obtain ⟨rfl, rfl⟩ := h1
      exact ⟨w, by simp only [count, c], S⟩
    | some id =>
      obtain ⟨seg, q, n, hq, Sg, C', C, hn⟩ := S.conn R hk
      replace ha := fresh_eq hk ha
      have hn := hn ha
      subst hn
      simp only [count, C'.sem, C'.val, Res.ok.injEq, Prod.mk.injEq] at h1
      obtain ⟨rfl, rfl⟩ := h1
      exact ⟨w, by simp only [count, C.sem, C.val], S⟩
  | setReg h off v =>
    simp only [call, Spec.name, QueueApi.step] at h1 ⊢
    cases hk : (s.us h).key with
    | none =>
      simp only [Spec.name, QueueApi.Spec.step, hk] at hs
      by_cases ho : off < 12
      · simp [ho] at hs
      · simp only [set_register, ho, if_false, Res.ok.injEq, Prod.mk.injEq] at h1
        obtain ⟨rfl, rfl⟩ := h1
        exact ⟨w, by simp only [set_register, ho, if_false], S⟩
    | some id =>
      obtain ⟨seg, q, n, hq, Sg, C', C, hn⟩ := S.conn R hk
      rw [set_register_flat C'] at h1
      simp only [Res.ok.injEq, Prod.mk.injEq] at h1
      obtain ⟨rfl, rfl⟩ := h1
      refine ⟨_, set_register_flat C off v, ?_⟩
      by_cases ho : off < 12
      · simp only [ho, if_true]; exact S.setSeg id _ (by rw [C'.seg]; simp)
      · simp only [ho, if_false]; exact S
  | getReg h off =>
    simp only [call, Spec.name, QueueApi.step] at h1 ⊢
    cases hk : (s.us h).key with
    | none =>
      simp only [Spec.name, QueueApi.Spec.step, hk] at hs
      by_cases ho : off < 12
      · simp [ho] at hs
      · simp only [get_register, ho, if_false, Res.ok.injEq, Prod.mk.injEq] at h1
        obtain ⟨rfl, rfl⟩ := h1
        exact ⟨w, by simp only [get_register, ho, if_false], S⟩
    | some id =>
      obtain ⟨seg, q, n, hq, Sg, C', C, hn⟩ := S.conn R hk
      rw [get_register_flat C'] at h1
      simp only [Res.ok.injEq, Prod.mk.injEq] at h1
      obtain ⟨rfl, rfl⟩ := h1
      exact ⟨_, get_register_flat C off, S⟩

/-- A segment is removed. -/
theorem Same.rm {gen : Nat → Nat} {w w' : QueueApi.World} {s : State} (S : Same gen w w') (R : Rel w' s) (key : Nat) (he : Spec.noBoxes gen s key = true) :
    Same (set gen key (gen key + 1)) w w' := by
  refine ⟨S.segs, S.hs, S.sem, ?_, S.has, ?_⟩
  · intro j
    by_cases e : j = key
    · subst e
      simp only [set_same]
      refine Or.inr ⟨(S.new j _ (by omega)).1, ?_⟩
      rcases S.cur j with ⟨n, a, b⟩ | ⟨_, b⟩
      · right
        have Q := R.q (segId j (gen j))
        rw [a] at Q
        unfold Spec.noBoxes at he
        cases hq : s.qs (segId j (gen j)) with
        | none => rw [hq] at Q; cases hg : w'.segs (segId j (gen j)) <;> rw [hg] at Q <;> exact Q.elim
        | some q =>
          rw [hq] at Q he
          cases hg : w'.segs (segId j (gen j)) with
          | none => rw [hg] at Q; exact Q.elim
          | some g =>
            rw [hg] at Q
            have h2 := Q.2
            simp only [Sem.mk.injEq, true_and] at h2
            simp only [List.isEmpty_iff] at he
            rw [b, h2, he]
            rfl
      · exact b
    · simp only [set_other _ _ _ _ e]; exact S.cur j
  · intro j g hg
    by_cases e : j = key
    · subst e
      simp only [set_same] at hg
      exact S.new j g (by omega)
    · simp only [set_other _ _ _ _ e] at hg
      exact S.new j g hg

theorem Same.init : Same (fun _ => 0) QueueApi.World.init QueueApi.World.init :=
  ⟨rfl, fun _ => rfl, fun _ => rfl, fun _ => Or.inr ⟨rfl, Or.inl rfl⟩, fun _ _ h => by simp [QueueApi.World.init, Handle.new] at h, fun _ _ _ => ⟨rfl, rfl⟩⟩

/-- Every history of the specification. -/
theorem sim_hist : ∀ (es : List Ev) (gen gen' : Nat → Nat) (s s' : State) (w w' : QueueApi.World) (rs : List Reply), Same gen w w' → Rel w' s → Spec.run gen s es = some (gen', s', rs) →
    ∃ b b', run ⟨w, gen⟩ es = .ok (⟨b, gen'⟩, rs) ∧ Same gen' b b' ∧ Rel b' s'
  | [], gen, gen', s, s', w, w', rs, S, R, h => by
    simp only [Spec.run, Option.some.injEq, Prod.mk.injEq] at h
    obtain ⟨rfl, rfl, rfl⟩ := h
    exact ⟨w, w', rfl, S, R⟩
  | .rm key :: es, gen, gen', s, s', w, w', rs, S, R, h => by
    simp only [Spec.run] at h
    split at h
    · rename_i he
      exact sim_hist es _ gen' s s' w w' rs (S.rm R key he) R h
    · simp at h
  | .call op :: es, gen, gen', s, s', w, w', rs, S, R, h => by
    simp only [Spec.run] at h
    split at h
    · rename_i ha
      cases h1 : QueueApi.Spec.step s (Spec.name gen op) with
      | none => rw [h1] at h; simp at h
      | some sr =>
        obtain ⟨s1, r⟩ := sr
        rw [h1] at h
        dsimp only at h
        cases h2 : Spec.run gen s1 es with
        | none => rw [h2] at h; simp at h
        | some x =>
          obtain ⟨g2, s2, rs2⟩ := x
          rw [h2] at h
          simp only [Option.some.injEq, Prod.mk.injEq] at h
          obtain ⟨rfl, rfl, rfl⟩ := h
          obtain ⟨w1', hw1', R1⟩ := step_sim R _ h1
          obtain ⟨w1, hw1, S1⟩ := sim_call S R op ha h1 hw1'
          obtain ⟨b, b', hb, Sb, Rb⟩ := sim_hist es gen g2 s1 s2 w1 w1' rs2 S1 R1 h2
          exact ⟨b, b', by simp only [run, hw1, Res.ok_bind, hb], Sb, Rb⟩
    · simp at h

end Verif.QueueSegRm
