/-
  C105-C107: the queue in shared memory, as its users see it.
-/
import Verif.QueueApi.Lemmas

set_option linter.unusedSimpArgs false
set_option linter.unusedVariables false

namespace Verif.QueueApi
open Spec (Queue User State)

def allOk : Env := ⟨true, true, true, true⟩

/-- **C105.** For any number of handles and keys and any history of calls, the replies are those of first-in first-out queues with twelve registers: as long as each queue is
connected with the parameters it was created with (1 to 32768 boxes, fewer than 2^32 bytes), the system has memory, and registers are used on connected handles.  In particular
no call is undefined or waits for ever. -/
theorem C105_fifo_and_registers (ops : List Op) (s : State) (rs : List Reply) (h : Spec.run State.init ops = some (s, rs)) : ∃ w, run World.init ops = .ok (w, rs) := by
  obtain ⟨w, h1, -⟩ := run_sim ops init_rel h
  exact ⟨w, h1⟩

/-- A queue for no boxes divides by zero. -/
theorem C105_refuted_no_boxes : run World.init [.connect 0 7 4 0 allOk, .flush 0] = .ub := by rfl

/-- A queue whose first flush is undefined. -/
theorem flush_ub (bs max : Nat) (f : flushSeg { freshSeg bs max with nattch := 1 } (List.replicate bs 0) = .ub) : run World.init [.connect 0 7 bs max allOk, .flush 0] = .ub := by
  have c : step World.init (.connect 0 7 bs max allOk)
      = .ok (⟨set (fun _ => none) 7 (some { freshSeg bs max with nattch := 1 }), set (set (set (fun _ => none) 7 (some ⟨1, 0⟩)) 7 (some ⟨0, 0⟩)) 7 (some ⟨1, 0⟩),
        set (fun _ => .new) 0 ⟨some 7, true, some 7, bs, max, List.replicate bs 0, 0⟩⟩, .unit) := by
    simp [step, connect, connect_sem, World.init, Handle.new, allOk, World.setSem, lock_queue, connect_shm, attach, freshSeg, World.setSeg, unlock_queue, World.setH, set]
  simp only [run]
  rw [c]
  simp only [Res.ok_bind]
  generalize hS : ({ freshSeg bs max with nattch := 1 } : Seg) = S at f
  have g : ∀ w : World, (w.hs 0) = ⟨some 7, true, some 7, bs, max, List.replicate bs 0, 0⟩ → w.sems 7 = some ⟨1, 0⟩ → w.segs 7 = some S → step w (.flush 0) = .ub := by
    intro w a1 a2 a3
    have a4 : lock_queue w ⟨some 7, true, some 7, bs, max, List.replicate bs 0, 0⟩ = some (w.setSem 7 ⟨0, 0⟩) := by
      simp only [lock_queue, a2]; rfl
    have a5 : (w.setSem 7 ⟨0, 0⟩).segs 7 = some S := a3
    simp only [step, flush, flushCall, a1, if_true, flushBoxes, a4, a5, f]
    rfl
  rw [g _ rfl rfl rfl]
  rfl

/-- **C105 is false for all queues without boxes**, whatever the size of a message: the first flush divides by zero. -/
theorem C105_refuted_no_boxes_all (bs : Nat) : run World.init [.connect 0 7 bs 0 allOk, .flush 0] = .ub :=
  flush_ub bs 0 (by simp only [flushSeg, freshSeg, if_true])

/-- A queue whose size is a multiple of 2^32 bytes gets no memory for boxes, and flush writes behind its segment. -/
theorem C105_refuted_overflow (bs max : Nat) (h0 : 0 < bs) (h1 : 2 ≤ max) (h : (max * bs) % 2 ^ 32 = 0) : run World.init [.connect 0 7 bs max allOk, .flush 0] = .ub := by
  have e : ((1 : Nat) % 2 ^ 32) % max ≠ 0 := by
    rw [Nat.mod_eq_of_lt (by omega : 1 < 2 ^ 32), Nat.mod_eq_of_lt (by omega : 1 < max)]; omega
  have f : flushSeg { freshSeg bs max with nattch := 1 } (List.replicate bs 0) = .ub := by
    simp only [flushSeg, freshSeg, Nat.zero_add, segSize, h, Nat.zero_mul, Nat.zero_mod, List.length_replicate]
    rw [if_neg (by omega), if_pos e, if_neg (by omega)]
  exact flush_ub bs max f

example : 0 < 2 ^ 31 ∧ 2 ≤ 2 ∧ (2 * 2 ^ 31) % 2 ^ 32 = 0 := by decide

/-- Two handles: messages come out in order, packed into boxes; registers are shared; the ring of three boxes holds two; what is left is read after reconnecting. -/
example : (run World.init [.connect 0 7 4 3 allOk, .connect 1 7 4 3 allOk, .put 0 [1, 2], .put 0 [3, 4], .put 0 [5], .flush 0, .flush 0, .count 1, .unflush 1, .get 1 2, .get 1 2, .get 1 1,
      .setReg 0 11 42, .disconnect 0, .connect 0 7 4 3 allOk, .getReg 0 11, .getReg 0 12, .unflush 0, .get 0 1, .unflush 0, .connect 0 8 4 3 allOk, .connect 2 9 1 1 ⟨false, true, true, true⟩]).map (·.2)
    = .ok [.unit, .unit, .bool true, .bool true, .bool true, .unit, .unit, .num 2, .bool true, .data (some [1, 2]), .data (some [3, 4]), .data none,
      .unit, .unit, .unit, .num 42, .num 0, .bool true, .data (some [5]), .bool false, .threw, .threw] := by
  decide +kernel

example : (Spec.run State.init [.connect 0 7 4 3 allOk, .connect 1 7 4 3 allOk, .put 0 [1, 2], .put 0 [3, 4], .put 0 [5], .flush 0, .flush 0, .count 1, .unflush 1, .get 1 2,
      .setReg 0 11 42, .disconnect 0, .connect 0 7 4 3 allOk, .getReg 0 11, .unflush 0, .get 0 1]).isSome = true := by
  decide +kernel

/-! ## C106: connects that fail -/

theorem run_append (ops ops' : List Op) (w : World) : run w (ops ++ ops') = (do let (w, rs) ← run w ops; let (w, rs') ← run w ops'; .ok (w, rs ++ rs')) := by
  induction ops generalizing w with
  | nil =>
    simp only [List.nil_append, run, Res.ok_bind]
    cases run w ops' with
    | ub => rfl
    | ok x => rfl
  | cons op ops ih =>
    simp only [List.cons_append, run]
    cases step w op with
    | ub => rfl
    | ok x =>
      obtain ⟨w1, r⟩ := x
      simp only [Res.ok_bind, ih]
      cases run w1 ops with
      | ub => rfl
      | ok y =>
        obtain ⟨w2, rs⟩ := y
        simp only [Res.ok_bind]
        cases run w2 ops' with
        | ub => rfl
        | ok z => rfl

theorem spec_append (ops ops' : List Op) (s s1 : State) (rs1 : List Reply) (h : Spec.run s ops = some (s1, rs1)) (s2 : State) (rs2 : List Reply)
    (h' : Spec.run s1 ops' = some (s2, rs2)) : Spec.run s (ops ++ ops') = some (s2, rs1 ++ rs2) := by
  induction ops generalizing s rs1 with
  | nil => cases h; exact h'
  | cons op ops ih =>
    simp only [List.cons_append, Spec.run] at h ⊢
    cases h1 : Spec.step s op with
    | none => rw [h1] at h; cases h
    | some x =>
      obtain ⟨t, r⟩ := x
      rw [h1] at h
      simp only at h ⊢
      cases h2 : Spec.run t ops with
      | none => rw [h2] at h; cases h
      | some y =>
        obtain ⟨t', rs'⟩ := y
        rw [h2] at h
        cases h
        rw [ih t rs' h2]
        rfl

/-- **C106, partial.** A connect that fails because the handle is connected already, or because the key file does not exist, throws and has no other effect: all other calls
reply as if it had not been made.  Missing: the other reasons for a failure, for which it is false. -/
theorem C106_failed_connect_partial (ops ops' : List Op) (s s' : State) (rs rs' : List Reply) (h1 : Spec.run State.init ops = some (s, rs)) (h2 : Spec.run s ops' = some (s', rs'))
    (h key bs max : Nat) (env : Env) (hf : env.ftok = false ∨ (s.us h).key ≠ none) :
    ∃ w, run World.init (ops ++ (.connect h key bs max env :: ops')) = .ok (w, rs ++ (.threw :: rs')) := by
  refine C105_fifo_and_registers _ s' _ (spec_append ops _ _ _ _ h1 _ _ ?_)
  have hc : Spec.step s (.connect h key bs max env) = some (s, .threw) := by
    simp only [Spec.step]
    cases hk : (s.us h).key with
    | some k => rfl
    | none =>
      rcases hf with hf | hf
      · simp only [hf, if_true]
      · exact absurd hk hf
  simp only [Spec.run, hc, h2]

/-- After a connect that failed for lack of memory the lock is held: every connect of another handle to that key waits (until the process ends). -/
theorem C106_refuted_lock_kept (ops : List Op) (s : State) (rs : List Reply) (h1 : Spec.run State.init ops = some (s, rs)) (h h' key bs max bs' max' : Nat) (env' : Env)
    (hne : h' ≠ h) (hu : (s.us h).key = none) (hu' : (s.us h').key = none) (hq : s.qs key = none) (he : env'.ftok = true) :
    ∃ w, run World.init (ops ++ [.connect h key bs max ⟨true, true, false, true⟩, .connect h' key bs' max' env']) = .ok (w, rs ++ [.threw, .blocked]) := by
  obtain ⟨w, e1, R⟩ := run_sim ops init_rel h1
  have Q := R.q key
  rw [hq] at Q
  have hsegs : w.segs key = none := by
    cases a : w.segs key with
    | none => rfl
    | some seg => rw [a] at Q; cases b : w.sems key <;> rw [b] at Q <;> exact Q.elim
  have hsems : w.sems key = none := by
    cases b : w.sems key with
    | none => rfl
    | some sem => rw [b, hsegs] at Q; exact Q.elim
  have H := R.h h
  have H' := R.h h'
  have i1 : (w.hs h).sem = none := H.sem.trans hu
  have i2 : (w.hs h).boxes = false := by rw [H.boxes, hu]; rfl
  have i1' : (w.hs h').sem = none := H'.sem.trans hu'
  rw [run_append, e1]
  simp only [Res.ok_bind, run, step]
  have c1 : connect w h key bs max ⟨true, true, false, true⟩ =
      .ok (World.setH ⟨w.segs, set w.sems key (some ⟨0, 0⟩), w.hs⟩ h { w.hs h with bs := bs, max := max, sem := some key }, .threw) := by
    simp [connect, connect_sem, i1, hsems, lock_queue, World.setSem, connect_shm, i2, hsegs, World.setH]
  rw [c1]
  simp only [Res.ok_bind]
  refine ⟨World.setH (World.setH ⟨w.segs, set w.sems key (some ⟨0, 0⟩), w.hs⟩ h { w.hs h with bs := bs, max := max, sem := some key }) h'
    { w.hs h' with bs := bs', max := max', sem := some key }, ?_⟩
  simp [connect, connect_sem, World.setH, set_other _ _ _ _ hne, i1', he, lock_queue]

/-- And the handle itself can never be connected again. -/
theorem C106_refuted_handle_dead (h key bs max bs' max' key' : Nat) (env' : Env) :
    ∃ w, run World.init [.connect h key bs max ⟨true, true, false, true⟩, .disconnect h, .connect h key' bs' max' env'] = .ok (w, [.threw, .unit, .threw]) := by
  simp [run, step, connect, connect_sem, World.init, Handle.new, lock_queue, World.setSem, connect_shm, World.setH, disconnect]

/-- A connect with other parameters than those of the queue is undefined, if the segment is large enough for them. -/
theorem C106_refuted_mismatch (ops : List Op) (s : State) (rs : List Reply) (h1 : Spec.run State.init ops = some (s, rs)) (h key bs max : Nat) (q : Queue)
    (hu : (s.us h).key = none) (hq : s.qs key = some q) (hp : bs ≠ q.bs ∨ max ≠ q.max) (hsz : max * bs ≤ q.max * q.bs) :
    run World.init (ops ++ [.connect h key bs max allOk]) = .ub := by
  obtain ⟨w, e1, R⟩ := run_sim ops init_rel h1
  have Q := R.q key
  rw [hq] at Q
  cases a : w.segs key with
  | none => rw [a] at Q; cases b : w.sems key <;> rw [b] at Q <;> exact Q.elim
  | some seg =>
    cases b : w.sems key with
    | none => rw [a, b] at Q; exact Q.elim
    | some sem =>
      rw [a, b] at Q
      obtain ⟨S, rfl⟩ := Q
      have H := R.h h
      have i1 : (w.hs h).sem = none := H.sem.trans hu
      have i2 : (w.hs h).boxes = false := by rw [H.boxes, hu]; rfl
      obtain ⟨f1, f2, f3, f4⟩ := (fit_iff _ _).mp S.fit
      have hs : segSize bs max ≤ seg.bytes := by
        rw [S.bytes]; unfold segSize; rw [Nat.mod_eq_of_lt (by omega)]; omega
      have hat : ∀ w' : World, attach w' ⟨(w.hs h).info, false, some key, bs, max, (w.hs h).buf, (w.hs h).pos⟩ key seg = .ub := by
        intro w'
        simp only [attach, S.bs, S.size]
        rw [if_pos hp]
      rw [run_append, e1]
      simp only [Res.ok_bind, run, step]
      simp [connect, connect_sem, i1, b, lock_queue, World.setSem, connect_shm, i2, a, hs, allOk, hat]

/-- Two queues whose parameters disagree. -/
example : run World.init [.connect 0 7 4 3 allOk, .connect 1 7 4 2 allOk] = .ub := by rfl
/-- A failed connect in the middle of a history. -/
example : (run World.init [.connect 0 7 4 3 allOk, .put 0 [1], .connect 0 8 4 3 allOk, .flush 0, .unflush 0, .get 0 1]).map (·.2)
    = .ok [.unit, .bool true, .threw, .unit, .bool true, .data (some [1])] := by decide +kernel

/-! ## C107: handles that are not connected -/

/-- **C107, partial.** On a handle that is not connected (yet, or any more) put, get, unflush, flush, the number of boxes and registers above 11 are defined, and nothing is stored.
Missing: registers 0 to 11, for which it is false. -/
theorem C107_unconnected_partial (ops : List Op) (s : State) (rs : List Reply) (h1 : Spec.run State.init ops = some (s, rs)) (h : Nat) (hu : (s.us h).key = none)
    (m : List UInt8) (hm : m ≠ []) (k off v : Nat) (hk : 0 < k) (ho : 12 ≤ off) :
    ∃ w, run World.init (ops ++ [.put h m, .get h k, .unflush h, .flush h, .count h, .getReg h off, .setReg h off v, .disconnect h])
      = .ok (w, rs ++ [.bool false, .data none, .bool false, .unit, .num (-1), .num 0, .unit, .unit]) := by
  obtain ⟨w, -, R⟩ := run_sim ops init_rel h1
  obtain ⟨hb, hp⟩ := (R.h h).none hu
  have hl : ¬ m.length = 0 := fun h0 => hm (List.eq_nil_of_length_eq_zero h0)
  have hself : ∀ t : State, (t.us h) = ⟨none, [], 0⟩ → Spec.flush t h = t := by
    intro t ht
    have hset : set t.us h ⟨none, [], 0⟩ = t.us := by
      funext j
      simp only [set]
      split
      · rename_i hj; rw [hj, ht]
      · rfl
    simp only [Spec.flush, ht, List.length_nil]
    show (⟨t.qs, set t.us h ⟨none, [], 0⟩⟩ : State) = t
    rw [hset]
  have hsu : s.us h = ⟨none, [], 0⟩ := by
    have : s.us h = ⟨(s.us h).key, (s.us h).buf, (s.us h).pos⟩ := rfl
    rw [this, hu, hb, hp]
  have hset : set s.us h ⟨none, [], 0⟩ = s.us := by
    funext j
    simp only [set]
    split
    · rename_i hj; rw [hj, hsu]
    · rfl
  have ht : Spec.tryPut s h m = none := by
    simp only [Spec.tryPut, hsu, List.length_nil, Nat.zero_add]
    rw [if_neg (by omega)]
  refine C105_fifo_and_registers _ s _ (spec_append ops _ _ _ _ h1 _ _ ?_)
  have s1 : Spec.step s (.put h m) = some (s, .bool false) := by simp only [Spec.step, ht, hself s hsu]
  have s2 : Spec.step s (.get h k) = some (s, .data none) := by
    simp only [Spec.step, hsu, List.length_nil, Nat.zero_add]
    rw [if_neg (by omega)]
  have s3 : Spec.step s (.unflush h) = some (s, .bool false) := by simp only [Spec.step, hsu]
  have s4 : Spec.step s (.flush h) = some (s, .unit) := by simp only [Spec.step, hself s hsu]
  have s5 : Spec.step s (.count h) = some (s, .num (-1)) := by simp only [Spec.step, hsu]
  have s6 : Spec.step s (.getReg h off) = some (s, .num 0) := by simp only [Spec.step]; rw [if_neg (by omega)]
  have s7 : Spec.step s (.setReg h off v) = some (s, .unit) := by simp only [Spec.step]; rw [if_neg (by omega)]
  have s8 : Spec.step s (.disconnect h) = some (s, .unit) := by simp only [Spec.step, hset]
  simp only [Spec.run, s1, s2, s3, s4, s5, s6, s7, s8]

/-- A register of a handle that is not connected: `info` is NULL. -/
theorem C107_refuted_register (ops : List Op) (s : State) (rs : List Reply) (h1 : Spec.run State.init ops = some (s, rs)) (h : Nat) (hu : (s.us h).key = none) (off v : Nat) (ho : off < 12) :
    run World.init (ops ++ [.getReg h off]) = .ub ∧ run World.init (ops ++ [.setReg h off v]) = .ub := by
  obtain ⟨w, e1, R⟩ := run_sim ops init_rel h1
  have H := R.h h
  have i1 : (w.hs h).sem = none := H.sem.trans hu
  have i2 : (w.hs h).info = none := H.info.trans hu
  constructor
  · rw [run_append, e1]
    simp [run, step, get_register, ho, lock_queue, i1, i2]
  · rw [run_append, e1]
    simp [run, step, set_register, ho, lock_queue, i1, i2]

example : Spec.run State.init [.connect 0 7 4 3 allOk, .disconnect 0] ≠ none ∧ ∀ s rs, Spec.run State.init [.connect 0 7 4 3 allOk, .disconnect 0] = some (s, rs) → (s.us 0).key = none := by
  refine ⟨by simp [Spec.run, Spec.step, State.init, allOk, Spec.Fit], ?_⟩
  intro s rs h
  cases h
  rfl

end Verif.QueueApi
