import Verif.QueueSegRm.Lemmas
/-
  Property C175: a queue whose memory segment is removed.
-/
set_option linter.unusedVariables false
set_option linter.unusedSimpArgs false

namespace Verif.QueueSegRm

open Verif.QueueApi
open Verif.QueueApi.Spec (State Queue User)
open Verif.SegRm (segId owner owner_segId segId_inj)

/-- All system calls succeed. -/
def allOk : Env := ⟨true, true, true, true⟩

/-- **C175, the part that holds.** If the segments of queues are removed only when the queue has no boxes, and the handles of a removed queue do not send, receive or count until they connect again,
the replies of all calls are those of first-in first-out queues, a new one after each removal.  Missing: removal of queues with boxes or with handles that are used, for which it is false. -/
theorem C175_empty_partial (es : List Ev) {gen : Nat → Nat} {s : State} {rs : List Reply} (h : Spec.run (fun _ => 0) State.init es = some (gen, s, rs)) : ∃ w, run World.init es = .ok (w, rs) := by
  obtain ⟨b, b', hb, _, _⟩ := sim_hist es _ _ _ _ _ _ _ Same.init init_rel h
  exact ⟨_, hb⟩

/-- A queue is used, emptied and removed; its handles read their boxes, set a register of the old queue, connect again and use the new one. -/
def demo : List Ev :=
  [.call (.connect 0 5 4 3 allOk), .call (.connect 1 5 4 3 allOk), .call (.put 0 [1, 2]), .call (.flush 0), .call (.unflush 1), .rm 5, .call (.get 1 2), .call (.setReg 1 0 9), .call (.disconnect 1),
    .call (.connect 1 5 4 3 allOk), .call (.getReg 1 0), .call (.getReg 0 0), .call (.disconnect 0), .call (.connect 0 5 4 3 allOk), .call (.put 1 [7]), .call (.flush 1), .call (.count 0),
    .call (.unflush 0), .call (.get 0 2)]

example : (Spec.run (fun _ => 0) State.init demo).map (·.2.2) =
    some [.unit, .unit, .bool true, .unit, .bool true, .data (some [1, 2]), .unit, .unit, .unit, .num 0, .num 9, .unit, .unit, .bool true, .unit, .num 1, .bool true, .data (some [7, 0])] := by
  decide +kernel

theorem run_append (a b : List Ev) : ∀ {w w1 w2 : World} {rs rs' : List Reply}, run w a = .ok (w1, rs) → run w1 b = .ok (w2, rs') → run w (a ++ b) = .ok (w2, rs ++ rs') := by
  induction a with
  | nil => intro w w1 w2 rs rs' h1 h2; simp only [run, Res.ok.injEq, Prod.mk.injEq] at h1; obtain ⟨rfl, rfl⟩ := h1; exact h2
  | cons e a ih =>
    intro w w1 w2 rs rs' h1 h2
    cases e with
    | rm k => exact ih h1 h2
    | call op =>
      simp only [List.cons_append, run] at h1 ⊢
      cases hc : call w.gen w.base op with
      | ub => rw [hc] at h1; simp at h1
      | ok x =>
        rw [hc] at h1
        simp only [Res.ok_bind] at h1 ⊢
        cases hr : run { w with base := x.1 } a with
        | ub => rw [hr] at h1; simp at h1
        | ok y =>
          rw [hr] at h1
          simp only [Res.ok_bind, Res.ok.injEq, Prod.mk.injEq] at h1
          obtain ⟨rfl, rfl⟩ := h1
          rw [ih hr h2]
          rfl

/-- A segment as connect makes it. -/
def newSeg (bs max : Nat) : Seg := { freshSeg bs max with nattch := 1 }

/-- Connecting to a key file whose queue was just removed: a fresh segment, the old semaphores. -/
theorem connect_new {gen : Nat → Nat} {w w' : QueueApi.World} {s : State} (S : Same gen w w') (R : Rel w' s) {b k : Nat} {q : Queue} (hq : s.qs (segId k (gen k)) = some q) (hb : (s.us b).key = none) :
    connect w b k (segId k (gen k + 1)) q.bs q.max allOk = .ok (⟨set w.segs (segId k (gen k + 1)) (some (newSeg q.bs q.max)), set w.sems k (some ⟨1, q.items.length⟩),
      set w.hs b ⟨some (segId k (gen k + 1)), true, some k, q.bs, q.max, List.replicate q.bs 0, 0⟩⟩, .unit) ∧ w.sems k = some ⟨1, q.items.length⟩ := by
  obtain ⟨_, b1, c1, _⟩ := S.none R hb
  have hn : w.segs (segId k (gen k + 1)) = none := by rw [S.segs]; exact (S.new k _ (by omega)).2
  have hv : w.sems k = some ⟨1, q.items.length⟩ := by
    have Q := R.q (segId k (gen k))
    rw [hq] at Q
    rcases S.cur k with ⟨n, x, y⟩ | ⟨x, _⟩
    · rw [x] at Q
      cases hg : w'.segs (segId k (gen k)) with
      | none => rw [hg] at Q; exact Q.elim
      | some g => rw [hg] at Q; rw [y, Q.2]
    · rw [x] at Q
      cases hg : w'.segs (segId k (gen k)) <;> rw [hg] at Q <;> exact Q.elim
  refine ⟨?_, hv⟩
  rw [connect_flat (Or.inl hv) c1 rfl rfl rfl rfl b1 (by intro g hg; rw [hn] at hg; simp at hg), hn]
  rfl

/-- A fresh segment gives zeros. -/
theorem unflush_fresh (bs max : Nat) (hf : QueueApi.Spec.Fit bs max = true) :
    ∃ g, unflushSeg (newSeg bs max) bs = .ok (List.replicate bs 0, g) := by
  obtain ⟨f1, f2, f3, f4⟩ := (fit_iff _ _).mp hf
  have hsz : segSize bs max - 64 = max * bs := by unfold segSize; rw [Nat.mod_eq_of_lt f3]; omega
  have hle : bs ≤ max * bs := Nat.le_mul_of_pos_left bs f1
  simp only [unflushSeg, newSeg, freshSeg, hsz, Nat.zero_mul, Nat.zero_mod, Nat.zero_add, List.length_replicate]
  rw [if_pos ⟨hle, hle, by omega⟩]
  refine ⟨_, by simp [hle]; rfl⟩

theorem fitOf {w' : QueueApi.World} {s : State} (R : Rel w' s) {id : Nat} {q : Queue} (hq : s.qs id = some q) : QueueApi.Spec.Fit q.bs q.max = true := by
  have Q := R.q id
  rw [hq] at Q
  cases hg : w'.segs id with
  | none => rw [hg] at Q; cases hv : w'.sems id <;> rw [hv] at Q <;> exact Q.elim
  | some g =>
    rw [hg] at Q
    cases hv : w'.sems id with
    | none => rw [hv] at Q; exact Q.elim
    | some v => rw [hv] at Q; exact Q.1.fit

/-- **C175 is false for queues with boxes.** After every history, for every queue with a box in it: if its segment is removed, a handle that connects then is told that there are as many boxes as
before, and receives a box of zeros that nobody sent. -/
theorem C175_refuted_boxes (es : List Ev) {gen : Nat → Nat} {s : State} {rs : List Reply} (h : Spec.run (fun _ => 0) State.init es = some (gen, s, rs)) (b k : Nat) {q : Queue}
    (hq : s.qs (segId k (gen k)) = some q) (hi : q.items ≠ []) (hb : (s.us b).key = none) :
    ∃ w, run World.init (es ++ [.rm k, .call (.connect b k q.bs q.max allOk), .call (.count b), .call (.unflush b), .call (.get b q.bs)]) =
      .ok (w, rs ++ [.unit, .num q.items.length, .bool true, .data (some (List.replicate q.bs 0))]) := by
  obtain ⟨w, w', hw, S, R⟩ := sim_hist es _ _ _ _ _ _ _ Same.init init_rel h
  obtain ⟨hc, hv⟩ := connect_new S R hq hb
  have hn : q.items.length ≠ 0 := fun e => hi (List.eq_nil_of_length_eq_zero e)
  obtain ⟨g, hg⟩ := unflush_fresh q.bs q.max (fitOf R hq)
  have C : Conn ⟨set w.segs (segId k (gen k + 1)) (some (newSeg q.bs q.max)), set w.sems k (some ⟨1, q.items.length⟩),
      set w.hs b ⟨some (segId k (gen k + 1)), true, some k, q.bs, q.max, List.replicate q.bs 0, 0⟩⟩ b k (segId k (gen k + 1)) q.items.length (newSeg q.bs q.max) :=
    ⟨by simp, by simp, by simp, by simp, by simp⟩
  have hu := unflush_flat C
  simp only [hn, if_false, set_same, List.length_replicate, hg, Res.ok_bind, set_set] at hu
  refine ⟨(⟨⟨set w.segs (segId k (gen k + 1)) (some g), set w.sems k (some ⟨1, q.items.length - 1⟩),
      set w.hs b ⟨some (segId k (gen k + 1)), true, some k, q.bs, q.max, List.replicate q.bs 0, q.bs⟩⟩, set gen k (gen k + 1)⟩ : World), run_append _ _ hw ?_⟩
  simp only [run, call, set_same, hc, Res.ok_bind, QueueApi.step, count, hu, QueueApi.get, World.setH, set_set, Nat.zero_add, List.length_replicate, Nat.le_refl, if_true, List.drop_zero,
    List.take_replicate, Nat.min_self]

/-- **C175 is false for handles in use.** After every history, for every queue without boxes that can hold one: if its segment is removed, a handle that connects then receives zeros for the box
that a handle connected before sends, and the box itself is received by no one: the sender finds the queue empty. -/
theorem C175_refuted_handles (es : List Ev) {gen : Nat → Nat} {s : State} {rs : List Reply} (h : Spec.run (fun _ => 0) State.init es = some (gen, s, rs)) (a b k : Nat) {q : Queue}
    (hq : s.qs (segId k (gen k)) = some q) (hi : q.items = []) (hm : 2 ≤ q.max) (ha : (s.us a).key = some (segId k (gen k))) (hb : (s.us b).key = none) :
    ∃ w, run World.init (es ++ [.rm k, .call (.connect b k q.bs q.max allOk), .call (.flush a), .call (.unflush b), .call (.get b q.bs), .call (.unflush a)]) =
      .ok (w, rs ++ [.unit, .unit, .bool true, .data (some (List.replicate q.bs 0)), .bool false]) := by
  obtain ⟨w, w', hw, S, R⟩ := sim_hist es _ _ _ _ _ _ _ Same.init init_rel h
  obtain ⟨hc, hv⟩ := connect_new S R hq hb
  obtain ⟨g, hg⟩ := unflush_fresh q.bs q.max (fitOf R hq)
  have hab : a ≠ b := by
    intro e
    rw [e, hb] at ha
    simp at ha
  obtain ⟨seg, q', n, hq', Sg, C', C, hn⟩ := S.conn R ha
  rw [hq] at hq'
  simp only [Option.some.injEq] at hq'
  subst hq'
  rw [owner_segId] at C hn
  have hn := hn rfl
  rw [hi] at hn hv
  simp only [List.length_nil] at hn hv
  subst hn
  have hbl : (w.hs a).buf.length = q.bs := by
    have H := R.h a
    obtain ⟨q2, e2, hl⟩ := H.some _ ha
    rw [hq] at e2
    simp only [Option.some.injEq] at e2
    subst e2
    rw [← S.buf, H.buf, hl]
  have hne : segId k (gen k) ≠ segId k (gen k + 1) := by
    intro e
    have := (segId_inj e).2
    omega
  rcases flushSeg_spec Sg (w.hs a).buf hbl with ⟨_, seg', hf, _, _⟩ | ⟨hr, _⟩
  swap
  · rw [hi] at hr
    simp only [List.length_nil] at hr
    omega
  rw [hi] at hc
  simp only [List.length_nil] at hc
  have C1 : Conn ⟨set w.segs (segId k (gen k + 1)) (some (newSeg q.bs q.max)), set w.sems k (some ⟨1, 0⟩),
      set w.hs b ⟨some (segId k (gen k + 1)), true, some k, q.bs, q.max, List.replicate q.bs 0, 0⟩⟩ a k (segId k (gen k)) 0 seg :=
    ⟨by simp only [set_other _ _ _ _ hab]; exact C.sem, by simp only [set_other _ _ _ _ hab]; exact C.info, by simp only [set_other _ _ _ _ hab]; exact C.boxes, by simp,
      by simp only [set_other _ _ _ _ hne]; exact C.seg⟩
  have hfl := flushCall_flat C1
  simp only [set_other _ _ _ _ hab, hf, Res.ok_bind, set_set, Nat.zero_add] at hfl
  rw [if_pos (by decide)] at hfl
  generalize hW1 : (⟨set w.segs (segId k (gen k + 1)) (some (newSeg q.bs q.max)), set w.sems k (some ⟨1, 0⟩),
      set w.hs b ⟨some (segId k (gen k + 1)), true, some k, q.bs, q.max, List.replicate q.bs 0, 0⟩⟩ : QueueApi.World) = W1 at hc hfl
  generalize hW2 : (⟨set (set w.segs (segId k (gen k + 1)) (some (newSeg q.bs q.max))) (segId k (gen k)) (some seg'), set w.sems k (some ⟨1, 1⟩),
      set (set w.hs b ⟨some (segId k (gen k + 1)), true, some k, q.bs, q.max, List.replicate q.bs 0, 0⟩) a (clearBox (w.hs a))⟩ : QueueApi.World) = W2 at hfl
  have C2 : Conn W2 b k (segId k (gen k + 1)) 1 (newSeg q.bs q.max) := by
    subst hW2
    exact ⟨by simp [set_other _ _ _ _ hab.symm], by simp [set_other _ _ _ _ hab.symm], by simp [set_other _ _ _ _ hab.symm], by simp, by simp [set_other _ _ _ _ hne.symm]⟩
  have hb2 : (W2.hs b).buf = List.replicate q.bs 0 := by subst hW2; simp [set_other _ _ _ _ hab.symm]
  have hu := unflush_flat C2
  rw [hb2] at hu
  simp only [Nat.one_ne_zero, if_false, List.length_replicate, hg, Res.ok_bind, Nat.sub_self] at hu
  generalize hW3 : (⟨set W2.segs (segId k (gen k + 1)) (some g), set W2.sems k (some ⟨1, 0⟩), set W2.hs b { W2.hs b with buf := List.replicate q.bs 0, pos := 0 }⟩ : QueueApi.World) = W3 at hu
  have hbuf3 : (W3.hs b).buf = List.replicate q.bs 0 ∧ (W3.hs b).pos = 0 := by subst hW3; simp
  have hget : QueueApi.get W3 b q.bs = .ok (W3.setH b { W3.hs b with pos := q.bs }, .data (some (List.replicate q.bs 0))) := by
    simp [QueueApi.get, hbuf3.1, hbuf3.2]
  have C4 : Conn (W3.setH b { W3.hs b with pos := q.bs }) a k (segId k (gen k)) 0 seg' := by
    subst hW3 hW2
    refine ⟨?_, ?_, ?_, by simp [World.setH], by simp [World.setH, set_other _ _ _ _ hne]⟩
    · simp only [World.setH, set_other _ _ _ _ hab, set_same]; exact C.sem
    · simp only [World.setH, set_other _ _ _ _ hab, set_same]; exact C.info
    · simp only [World.setH, set_other _ _ _ _ hab, set_same]; exact C.boxes
  have hu4 := unflush_flat C4
  simp only [if_true] at hu4
  refine ⟨(⟨W3.setH b { W3.hs b with pos := q.bs }, set gen k (gen k + 1)⟩ : World), run_append _ _ hw ?_⟩
  simp only [run, call, set_same, hc, Res.ok_bind, QueueApi.step, flush, hfl, hu, hget, hu4]

/-- The hypotheses are met. -/
example : (Spec.run (fun _ => 0) State.init (demo.take 4)).map (fun x => ((x.2.1.qs (segId 5 (x.1 5))).map (·.items), (x.2.1.us 2).key)) = some (some [[1, 2, 0, 0]], none) := by
  decide +kernel

example : (Spec.run (fun _ => 0) State.init (demo.take 5)).map (fun x => ((x.2.1.qs (segId 5 (x.1 5))).map (fun q => (q.items, q.max)), decide ((x.2.1.us 0).key = some (segId 5 (x.1 5))),
    (x.2.1.us 2).key)) = some (some ([], 3), true, none) := by
  decide +kernel

end Verif.QueueSegRm
