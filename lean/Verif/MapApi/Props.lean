import Verif.MapApi.Sim
/-
  Properties C110–C115: the life of hash maps.
-/
set_option linter.unusedVariables false
set_option linter.unusedSimpArgs false

namespace Verif.MapApi

open Verif.ShmPool Verif.ShmMap

variable {V : Type}

/-- All system calls succeed. -/
def allOk : Env := ⟨true, true, true, true, true⟩

/-! ## C110: the layout of the segment -/

/-- **C110, the part that holds.** If the stack of free nodes and the nodes take less than 2 GiB, the header words, the stack, the nodes and the buckets lie behind each other, each at a
multiple of 1024, inside the space that is asked for. Missing: larger maps, for which it is false. -/
theorem C110_layout_partial (p : Params) (hH : p.H < 2 ^ 31) (h : 4 * p.N + p.nsz * p.N + 3070 < 2 ^ 31) :
    ∃ sz, required_space p = .ok sz ∧ (9 * 4 : Int) ≤ (layout p).stack ∧ (layout p).stack + 4 * p.N ≤ (layout p).nodes ∧ (layout p).nodes + (p.nsz * p.N : Nat) ≤ (layout p).hash ∧
      (layout p).hash + 4 * p.H ≤ sz ∧ (layout p).stack % 1024 = 0 ∧ (layout p).nodes % 1024 = 0 ∧ (layout p).hash % 1024 = 0 := by
  have e1 := stacksSize_eq (p := p) (by omega)
  have e2 := dataSize_eq (p := p) (by omega)
  have a := up_le (p.nsz * p.N)
  have b := up_le (4 * p.N)
  refine ⟨_, required_eq hH h, ?_⟩
  unfold layout Spec.bytes
  dsimp only
  rw [headerSize_eq, e1, e2]
  clear e1 e2 h
  refine ⟨by decide, ?_, ?_, ?_, by decide, ?_, ?_⟩
  · omega
  · omega
  · omega
  · omega
  · omega

example : (4 * 1000 + 32 * 1000 + 3070 < 2 ^ 31) ∧ layout ⟨1000, 77, 16, 32⟩ = ⟨1024, 1024 + 4096, 1024 + 4096 + 32768⟩ ∧
    required_space ⟨1000, 77, 16, 32⟩ = .ok (1024 + 4096 + 32768 + 308) := by
  refine ⟨by decide, rfl, rfl⟩

/-- With 4 GiB of nodes the buckets lie on the nodes, and the space that is asked for does not contain the nodes. -/
theorem C110_refuted (p : Params) (hH : p.H < 2 ^ 31) (hw : (p.nsz * p.N) % 2 ^ 32 = 0) (h : 4 * p.N + 3070 < 2 ^ 31) :
    (layout p).hash = (layout p).nodes ∧ ∃ sz : Nat, required_space p = .ok sz ∧ (sz : Int) = (layout p).nodes + 4 * p.H := by
  have e1 := stacksSize_eq (p := p) (by omega)
  have e2 : dataSize p = 0 := by
    unfold dataSize floor1024
    rw [hw]
    rfl
  have a := up_lt (4 * p.N)
  unfold layout required_space
  dsimp only
  rw [headerSize_eq, e1, e2]
  refine ⟨by omega, 1024 + (4 * p.N + 1023) / 1024 * 1024 + 0 + 4 * p.H, ?_, ?_⟩
  · have := required_aux 0 ((4 * p.N + 1023) / 1024 * 1024) p.H hH (by omega)
    exact this
  · omega

/-- 64 million nodes of 64 bytes. -/
example : ((⟨2 ^ 26, 1000, 48, 64⟩ : Params).nsz * (⟨2 ^ 26, 1000, 48, 64⟩ : Params).N) % 2 ^ 32 = 0 ∧ 4 * 2 ^ 26 + 3070 < 2 ^ 31 := by decide

/-! ## C111: finite maps shared by key -/

/-- **C111.** For any number of handles, key files and classes and any history of calls, the replies are those of one finite map for each key file, of the capacity of the class that made
it: handles connected to the same file see the same map, it outlives them, and handles that are not connected get exceptions.  This holds as long as no system call fails other than for want
of the key file, no connected handle is connected again, and no class needs a larger segment than there is (C112). -/
theorem C111_shared_finite_maps (par : Nat → Params) (v0 : V) (cs : List (Call V)) (s : Spec.State V) (rs : List (Reply V)) (h : Spec.run par Spec.State.init cs = some (s, rs)) :
    ∃ w, run par v0 World.init cs = .ok (w, rs) := by
  obtain ⟨w, e, _⟩ := sim_run v0 cs (Rel.init par) h
  exact ⟨w, e⟩

/-- The class used in the examples: two entries, two buckets; handle 9 is of another class. -/
def par0 : Nat → Params := fun h => if h = 9 then ⟨2, 1, 8, 24⟩ else ⟨2, 2, 8, 24⟩

/-- Two handles of one map, a second map, a handle of another class, disconnecting and coming back. -/
def hist : List (Call Nat) := [.connect 0 7 allOk, .connect 1 7 allOk, .connect 2 8 allOk, .op 0 (.insert 4 40), .op 1 (.read 4), .op 2 (.read 4), .nonEmpty 2, .nonEmpty 1,
  .connect 9 7 allOk, .disconnect 0, .op 0 (.read 4), .insertMany 1 [(6, 60), (8, 80)], .op 1 .size, .disconnect 1, .connect 0 7 allOk, .op 0 (.read 6), .eraseMany 0 [4, 6],
  .isConnected 1, .isConnected 0, .capacity 1]

example : (Spec.run par0 Spec.State.init hist).map (·.2) = some [.unit, .unit, .unit, .ret (.bool true), .ret (.val (some 40)), .ret (.val none), .bool false, .bool true,
  .threw, .unit, .threw, .bool false, .ret (.num 2), .unit, .unit, .ret (.val (some 60)), .bool true, .bool false, .bool true, .num 2] := by decide +kernel

/-! ## C112: a connect that fails -/

theorem spec_append (par : Nat → Params) (cs cs' : List (Call V)) (s s' s'' : Spec.State V) (rs rs' : List (Reply V)) (h1 : Spec.run par s cs = some (s', rs)) (h2 : Spec.run par s' cs' = some (s'', rs')) :
    Spec.run par s (cs ++ cs') = some (s'', rs ++ rs') := by
  induction cs generalizing s rs with
  | nil => simp only [Spec.run] at h1; cases h1; exact h2
  | cons c cs ih =>
    simp only [Spec.run, List.cons_append] at h1 ⊢
    cases e : Spec.step par s c with
    | none => rw [e] at h1; cases h1
    | some p =>
      rw [e] at h1
      simp only at h1 ⊢
      cases e2 : Spec.run par p.1 cs with
      | none => rw [e2] at h1; cases h1
      | some q =>
        rw [e2] at h1
        cases h1
        rw [ih p.1 q.2 e2]
        rfl

/-- **C112, the part that holds.** A connect of a handle that is not connected, which fails because there is no key file, or because the map is of another class that needs no less space, throws and
has no other effect: all other calls reply as if it had not been made.  Missing: the other reasons for a failure, for which it is false. -/
theorem C112_failed_connect_partial (par : Nat → Params) (v0 : V) (cs cs' : List (Call V)) (s s' : Spec.State V) (rs rs' : List (Reply V)) (h1 : Spec.run par Spec.State.init cs = some (s, rs))
    (h2 : Spec.run par s cs' = some (s', rs')) (h key : Nat) (env : Env) (hu : s.us h = none)
    (hf : env.ftok = false ∨ (env = allOk ∧ Spec.Fit (par h) ∧ ∃ t, s.ts key = some t ∧ par h ≠ t.par ∧ Spec.bytes (par h) ≤ Spec.bytes t.par)) :
    ∃ w, run par v0 World.init (cs ++ .connect h key env :: cs') = .ok (w, rs ++ .threw :: rs') := by
  refine C111_shared_finite_maps par v0 _ s' _ (spec_append par cs _ _ _ _ _ _ h1 ?_)
  have hc : Spec.step par s (.connect h key env) = some (s, .threw) := by
    simp only [Spec.step, hu]
    rcases hf with hf | ⟨rfl, hfit, t, ht, hne, hle⟩
    · simp [hf]
    · simp [allOk, hfit, ht, hne, hle]
  simp only [Spec.run, hc, h2]

/-- A connect of a connected handle throws and disconnects it: every operation after it throws. -/
theorem C112_refuted_connected (par : Nat → Params) (v0 : V) (cs : List (Call V)) (s : Spec.State V) (rs : List (Reply V)) (h1 : Spec.run par Spec.State.init cs = some (s, rs)) (h k key : Nat) (env : Env)
    (hu : s.us h = some k) (o : ShmMap.Op V) :
    ∃ w, run par v0 World.init (cs ++ [.isConnected h, .connect h key env, .isConnected h, .op h o]) = .ok (w, rs ++ [.bool true, .threw, .bool false, .threw]) := by
  obtain ⟨w, e, R⟩ := sim_run v0 cs (Rel.init par) h1
  obtain ⟨hw, _⟩ := R.inn h k hu
  have c : connect (par h) v0 w h key env = .ok (w.setH h ⟨none, none⟩, .threw) := by simp [connect, connect_sem, hw, disconnect]
  rw [run_append, e]
  simp only [Res.ok_bind, run, step, hw, c]
  rw [locked_threw _ _ _ _ (by simp [World.setH, set_same])]
  simp [World.setH, set_same]

example : (run par0 5 World.init [.connect 0 7 allOk, .op 0 (.insert 4 40), .connect 0 7 allOk, .op 0 (.read 4)]).map (·.2) = .ok [.unit, .ret (.bool true), .threw, .threw] := by decide +kernel

/-- A connect of an unconnected handle fails after it has got the semaphores: the file is gone, there is no memory, or the segment is too small. -/
def FailsLate (par : Nat → Params) (s : Spec.State V) (h key : Nat) (env : Env) : Prop :=
  env.ftok = true ∧ (env.semget = true ∨ s.ts key ≠ none) ∧ (env.ftok2 = false ∨ (Spec.Fit (par h) ∧
    ((s.ts key = none ∧ env.shmget = false) ∨ env.shmat = false ∨ ∃ t, s.ts key = some t ∧ Spec.bytes t.par < Spec.bytes (par h))))

theorem fails_late {par : Nat → Params} (v0 : V) {s : Spec.State V} {w : World V} (R : Rel par s w) {h key : Nat} {env : Env} (hu : s.us h = none) (hf : FailsLate par s h key env) :
    ∃ w' : World V, connect (par h) v0 w h key env = .ok (w'.setH h ⟨some key, none⟩, .threw) ∧ w'.sems key = some ⟨0, 0⟩ := by
  obtain ⟨f1, f2, f3⟩ := hf
  have hw := R.out h hu
  have hs : w.sems key = some ⟨0, 0⟩ ∨ (w.sems key = none ∧ env.semget = true) := by
    have K := R.key key
    cases ht : s.ts key with
    | none =>
      rw [ht] at K f2
      exact Or.inr ⟨(KRel.none K).2, by simpa using f2⟩
    | some t =>
      rw [ht] at K
      obtain ⟨_, _, hv, _⟩ := KRel.some K
      exact Or.inl hv
  have hc : ∃ sg, connect_shm (par h) v0 { w with sems := set w.sems key (some ⟨0, 1⟩) } ⟨some key, none⟩ key env =
      .ok ({ w with sems := set w.sems key (some ⟨0, 1⟩), segs := sg }, none) := by
    by_cases e2 : env.ftok2 = true
    · rcases f3 with f3 | ⟨hfit, f3⟩
      · rw [f3] at e2; cases e2
      · have hreq := required_eq hfit.2.1 hfit.2.2.2.2
        have K := R.key key
        cases ht : s.ts key with
        | none =>
          rw [ht] at K f3
          have k1 := (KRel.none K).1
          by_cases e4 : env.shmget = false
          · exact ⟨w.segs, by simp [connect_shm, e2, hreq, k1, e4]⟩
          · have e5 : env.shmat = false := by
              rcases f3 with ⟨_, f⟩ | f | ⟨t, ht, _⟩
              · exact absurd f e4
              · exact f
              · cases ht
            exact ⟨set w.segs key (some ⟨Spec.bytes (par h), zeroSeg v0, 0⟩), by simp [connect_shm, e2, hreq, k1, e4, e5]⟩
        | some t =>
          rw [ht] at K f3
          obtain ⟨sg, k1, _, S⟩ := KRel.some K
          by_cases hle : Spec.bytes (par h) ≤ sg.bytes
          · have e5 : env.shmat = false := by
              rcases f3 with ⟨f, _⟩ | f | ⟨t', ht, hlt⟩
              · cases f
              · exact f
              · cases ht; rw [S.bytes] at hle; omega
            exact ⟨w.segs, by simp [connect_shm, e2, hreq, k1, hle, e5]⟩
          · exact ⟨w.segs, by simp [connect_shm, e2, hreq, k1, hle]⟩
    · exact ⟨w.segs, by simp [connect_shm, e2]⟩
  obtain ⟨sg, hc⟩ := hc
  refine ⟨{ w with sems := set w.sems key (some ⟨0, 0⟩), segs := sg }, ?_, set_same _ _ _⟩
  rw [connect_eq hw f1 hs hc rfl]

/-- After such a failure the handle says that it is not connected, but can never be connected again. -/
theorem C112_refuted_dead (par : Nat → Params) (v0 : V) (cs : List (Call V)) (s : Spec.State V) (rs : List (Reply V)) (h1 : Spec.run par Spec.State.init cs = some (s, rs)) (h key key' : Nat) (env env' : Env)
    (hu : s.us h = none) (hf : FailsLate par s h key env) :
    ∃ w, run par v0 World.init (cs ++ [.connect h key env, .isConnected h, .disconnect h, .connect h key' env', .isConnected h]) = .ok (w, rs ++ [.threw, .bool false, .unit, .threw, .bool false]) := by
  obtain ⟨w, e, R⟩ := sim_run v0 cs (Rel.init par) h1
  obtain ⟨w', e', _⟩ := fails_late v0 R hu hf
  rw [run_append, e]
  have c : ∀ w : World V, w.hs h = ⟨some key, none⟩ → connect (par h) v0 w h key' env' = .ok (w.setH h ⟨some key, none⟩, .threw) := by
    intro w hw
    simp [connect, connect_sem, hw, disconnect]
  simp only [Res.ok_bind, run, step, e']
  rw [c _ (by simp [World.setH, set_same, disconnect])]
  simp only [Res.ok_bind, World.setH, set_same]
  exact ⟨_, rfl⟩

/-- And operations on it do not throw but use a NULL pointer. -/
theorem C112_refuted_null (par : Nat → Params) (v0 : V) (cs : List (Call V)) (s : Spec.State V) (rs : List (Reply V)) (h1 : Spec.run par Spec.State.init cs = some (s, rs)) (h key : Nat) (env : Env)
    (hu : s.us h = none) (hf : FailsLate par s h key env) (o : ShmMap.Op V) : run par v0 World.init (cs ++ [.connect h key env, .op h o]) = .ub := by
  obtain ⟨w, e, R⟩ := sim_run v0 cs (Rel.init par) h1
  obtain ⟨w', e', hv⟩ := fails_late v0 R hu hf
  rw [run_append, e]
  simp only [Res.ok_bind, run, step, e']
  rw [locked_null (lockOf_pair o) _ _ (k := key) (by simp [World.setH, set_same]) (by exact hv) (by simp [World.setH, set_same])]
  rfl

/-- The memory is exhausted; a map of a larger class. -/
example : FailsLate (V := Nat) par0 Spec.State.init 0 7 ⟨true, true, true, false, true⟩ := ⟨rfl, Or.inl rfl, Or.inr ⟨by decide, Or.inl ⟨rfl, rfl⟩⟩⟩
example : (run (fun h => if h = 0 then ⟨2, 2, 8, 24⟩ else ⟨2, 3, 8, 24⟩) 5 World.init [.connect 0 7 allOk, .connect 1 7 allOk, .connect 1 8 allOk]).map (·.2) = .ok [.unit, .threw, .threw] := by decide +kernel

/-! ## C113: disconnect -/

/-- How often the segment of `key` is mapped. -/
def mappings (w : World V) (key : Nat) : Nat := match w.segs key with
  | none => 0
  | some s => s.nattch

theorem semop_segs {w w' : World V} {H : Handle} {ops : List RwLock.SemBuf} (h : semop w H ops = .done w') : w'.segs = w.segs := by
  unfold semop at h
  split at h
  · cases h
  · split at h
    · cases h
    · split at h
      · cases h
      · cases h; rfl

theorem mappings_congr {w w' : World V} (h : w'.segs = w.segs) (key : Nat) : mappings w' key = mappings w key := by unfold mappings; rw [h]

theorem mappings_seg {w w' : World V} {k : Nat} {s s' : MSeg V} (h0 : w.segs k = some s) (h : w'.segs = set w.segs k (some s')) (hn : s.nattch ≤ s'.nattch) (key : Nat) : mappings w key ≤ mappings w' key := by
  unfold mappings
  rw [h]
  by_cases e : key = k
  · subst e; rw [set_same, h0]; exact hn
  · rw [set_other _ _ _ _ e]; exact Nat.le_refl _

theorem mappings_new {w w' : World V} {k : Nat} {s' : MSeg V} (h0 : w.segs k = none) (h : w'.segs = set w.segs k (some s')) (key : Nat) : mappings w key ≤ mappings w' key := by
  unfold mappings
  rw [h]
  by_cases e : key = k
  · subst e; rw [set_same, h0]; exact Nat.zero_le _
  · rw [set_other _ _ _ _ e]; exact Nat.le_refl _

theorem mappings_locked {α : Type} {w w' : World V} {h : Nat} {l u : List RwLock.SemBuf} {body : Map V → Res (Map V × α)} {mk : α → Reply V} {r : Reply V} (e : locked w h l u body mk = .ok (w', r)) (key : Nat) :
    mappings w key ≤ mappings w' key := by
  simp only [locked] at e
  cases h1 : semop w (w.hs h) l with
  | threw => rw [h1] at e; cases e; exact Nat.le_refl _
  | blocked => rw [h1] at e; cases e; exact Nat.le_refl _
  | done w1 =>
    have hs1 := semop_segs h1
    rw [h1] at e
    dsimp only at e
    split at e
    · cases e
    · split at e
      · cases e
      · rename_i k _ s hk
        cases hb : body s.seg.map with
        | ub => rw [hb] at e; cases e
        | ok p =>
          rw [hb] at e
          simp only [Res.ok_bind] at e
          split at e
          · rename_i w2 h2
            cases e
            rw [hs1] at hk
            have := semop_segs h2
            simp only [hs1] at this
            exact mappings_seg hk this (Nat.le_refl _) key
          · cases e

theorem mappings_attach {p : Params} {w w' : World V} {h k : Nat} {H : Handle} {r : Reply V} (e : connect_attach p w h H k = .ok (w', r)) (key : Nat) : mappings w key ≤ mappings w' key := by
  simp only [connect_attach] at e
  cases h1 : semop w H RwLock.lock_write_rw with
  | threw => rw [h1] at e; cases e
  | blocked => rw [h1] at e; cases e; exact Nat.le_refl _
  | done w1 =>
    have hs1 := semop_segs h1
    rw [h1] at e
    dsimp only at e
    split at e
    · cases e
    · rename_i s hk
      split at e
      · rename_i w2 h2
        have hs2 := semop_segs h2
        rw [hs1] at hk
        simp only [hs1] at hs2
        have := mappings_seg hk hs2 (Nat.le_refl _) key
        split at e <;> cases e <;> exact this
      · cases e

theorem mappings_shm {p : Params} {v0 : V} {w w' : World V} {k : Nat} {H : Handle} {H' : Option Handle} {env : Env} (e : connect_shm p v0 w H k env = .ok (w', H')) (key : Nat) : mappings w key ≤ mappings w' key := by
  unfold connect_shm at e
  split at e
  · cases e; exact Nat.le_refl _
  · split at e
    · cases e; exact Nat.le_refl _
    · cases hr : required_space p with
      | ub => rw [hr] at e; cases e
      | ok sz =>
        rw [hr, Res.ok_bind] at e
        split at e
        · rename_i s hk
          split at e
          · split at e
            · cases e; exact Nat.le_refl _
            · cases e; exact mappings_seg hk rfl (Nat.le_succ _) key
          · cases e; exact Nat.le_refl _
        · rename_i hk
          split at e
          · cases e; exact Nat.le_refl _
          · split at e
            · cases e; exact mappings_new hk rfl key
            · cases e; exact mappings_new hk rfl key

theorem mappings_sem {w w' : World V} {H H' : Handle} {k : Nat} {env : Env} (e : connect_sem w H k env = some (w', H')) : w'.segs = w.segs := by
  unfold connect_sem at e
  split at e
  · cases e
  · split at e
    · cases e
    · split at e
      · cases e; rfl
      · split at e
        · cases e
        · cases e; rfl

/-- **C113 is false.** No call, in particular no disconnect, of any handle in any state ever unmaps a segment. -/
theorem C113_refuted_never_unmapped (par : Nat → Params) (v0 : V) (w w' : World V) (c : Call V) (r : Reply V) (h : step par v0 w c = .ok (w', r)) (key : Nat) : mappings w key ≤ mappings w' key := by
  cases c with
  | disconnect h' => simp only [step] at h; cases h; exact Nat.le_refl _
  | isConnected h' => simp only [step] at h; cases h; exact Nat.le_refl _
  | capacity h' => simp only [step] at h; cases h; exact Nat.le_refl _
  | op h' o => simp only [step] at h; exact mappings_locked h key
  | insertMany h' ps => simp only [step] at h; exact mappings_locked h key
  | eraseMany h' ks => simp only [step] at h; exact mappings_locked h key
  | nonEmpty h' =>
    simp only [step, nonEmpty] at h
    split at h
    · cases h
    · split at h
      · cases h
      · cases h; exact Nat.le_refl _
  | connect h' k env =>
    simp only [step, connect] at h
    cases h0 : connect_sem w (w.hs h') k env with
    | none => rw [h0] at h; cases h; exact Nat.le_refl _
    | some q =>
      obtain ⟨w1, H1⟩ := q
      have s1 := mappings_sem h0
      rw [h0] at h
      simp only at h
      rw [← mappings_congr s1 key]
      cases h2 : semop w1 H1 RwLock.lock_write_rw with
      | threw => rw [h2] at h; cases h; exact Nat.le_refl _
      | blocked => rw [h2] at h; cases h; exact Nat.le_refl _
      | done w2 =>
        have s2 := semop_segs h2
        rw [h2] at h
        simp only at h
        rw [← mappings_congr s2 key]
        cases h3 : connect_shm (par h') v0 w2 H1 k env with
        | ub => rw [h3] at h; cases h
        | ok q =>
          obtain ⟨w3, H3⟩ := q
          refine Nat.le_trans (mappings_shm h3 key) ?_
          rw [h3] at h
          simp only [Res.ok_bind] at h
          split at h
          · rename_i w4 h4
            have s4 := semop_segs h4
            rw [← mappings_congr s4 key]
            split at h
            · cases h; exact Nat.le_refl _
            · exact mappings_attach h key
          · cases h

/-- Connecting and disconnecting `n` times. -/
def cycles (h key : Nat) : Nat → List (Call V)
  | 0 => []
  | n + 1 => .connect h key allOk :: .disconnect h :: cycles h key n

/-- A handle that is connected and disconnected `n` times leaves the segment mapped `n` times, with no handle connected. -/
theorem C113_refuted (p : Params) (hp : Spec.Fit p) (v0 : V) (h key n : Nat) :
    ∃ w, run (fun _ => p) v0 World.init (cycles h key n) = .ok (w, (List.replicate n [.unit, .unit]).flatten) ∧ mappings w key = n ∧ ∀ h', w.hs h' = ⟨none, none⟩ := by
  have hreq := required_eq hp.2.1 hp.2.2.2.2
  have key1 : ∀ n (w : World V) (sg : MSeg V), w.segs key = some sg → w.sems key = some ⟨0, 0⟩ → sg.bytes = Spec.bytes p → Initialised p.N p.H p.tsz p.nsz sg.seg → (∀ h', w.hs h' = ⟨none, none⟩) →
      ∃ w', run (fun _ => p) v0 w (cycles h key n) = .ok (w', (List.replicate n [.unit, .unit]).flatten) ∧ mappings w' key = sg.nattch + n ∧ ∀ h', w'.hs h' = ⟨none, none⟩ := by
    intro n
    induction n with
    | zero => intro w sg h1 h2 h3 h4 h5; exact ⟨w, rfl, by simp [mappings, h1], h5⟩
    | succ n ih =>
      intro w sg h1 h2 h3 h4 h5
      have hc : connect_shm p v0 { w with sems := set w.sems key (some ⟨0, 1⟩) } ⟨some key, none⟩ key allOk =
          .ok ({ w with sems := set w.sems key (some ⟨0, 1⟩), segs := set w.segs key (some { sg with nattch := sg.nattch + 1 }) }, some ⟨some key, some key⟩) := by
        simp [connect_shm, allOk, hreq, h1, h3]
      have e : connect p v0 w h key allOk = .ok (({ w with segs := set w.segs key (some { sg with nattch := sg.nattch + 1 }) } : World V).setH h ⟨some key, some key⟩, .unit) := by
        rw [connect_eq (h5 h) rfl (Or.inl h2) hc rfl]
        dsimp only
        rw [connect_attach_eq (s := { sg with nattch := sg.nattch + 1 }) rfl (by exact set_same _ _ _) (by exact set_same _ _ _)]
        obtain ⟨a1, a2⟩ := attach_init p p hp sg.seg h4
        simp only [a1, a2, set_set, decide_true, Bool.not_true, Bool.false_eq_true, if_false]
        rw [set_self _ _ _ h2]
      obtain ⟨w', e', m', n'⟩ := ih (({ w with segs := set w.segs key (some { sg with nattch := sg.nattch + 1 }) } : World V).setH h ⟨none, none⟩) { sg with nattch := sg.nattch + 1 }
        (set_same _ _ _) h2 h3 h4 (by intro h'; simp only [World.setH, set]; split; rfl; exact h5 h')
      refine ⟨w', ?_, by rw [m']; simp only; omega, n'⟩
      simp only [cycles, run, step, e, Res.ok_bind, disconnect]
      have hd : (World.setH (V := V) (({ w with segs := set w.segs key (some { sg with nattch := sg.nattch + 1 }) } : World V).setH h ⟨some key, some key⟩) h ⟨none, none⟩) =
          (({ w with segs := set w.segs key (some { sg with nattch := sg.nattch + 1 }) } : World V).setH h ⟨none, none⟩) := by
        simp [World.setH, set_set]
      simp only [World.setH, set_same, Option.isSome_some, if_true] at hd e' ⊢
      rw [hd, e']
      simp [List.replicate_succ]
  cases n with
  | zero => exact ⟨World.init, rfl, rfl, fun _ => rfl⟩
  | succ n =>
    have hc : connect_shm p v0 { (World.init : World V) with sems := set (World.init : World V).sems key (some ⟨0, 1⟩) } ⟨some key, none⟩ key allOk =
        .ok ({ (World.init : World V) with sems := set (World.init : World V).sems key (some ⟨0, 1⟩), segs := set (World.init : World V).segs key (some ⟨Spec.bytes p, zeroSeg v0, 1⟩) }, some ⟨some key, some key⟩) := by
      simp [connect_shm, allOk, hreq, World.init]
    obtain ⟨a1, a2, a3⟩ := attach_zero p v0
    have e : connect p v0 World.init h key allOk = .ok (({ (World.init : World V) with sems := set (World.init : World V).sems key (some ⟨0, 0⟩), segs := set (World.init : World V).segs key (some ⟨Spec.bytes p, applyA (zeroSeg v0) (attachWrites p (zeroSeg v0)).1, 1⟩) } : World V).setH h ⟨some key, some key⟩, .unit) := by
      rw [connect_eq rfl rfl (Or.inr ⟨rfl, rfl⟩) hc rfl]
      dsimp only
      rw [connect_attach_eq (s := ⟨Spec.bytes p, zeroSeg v0, 1⟩) rfl (by exact set_same _ _ _) (by exact set_same _ _ _)]
      simp only [a1, Bool.false_eq_true, if_false, set_set]
    obtain ⟨w', e', m', n'⟩ := key1 n (({ (World.init : World V) with sems := set (World.init : World V).sems key (some ⟨0, 0⟩), segs := set (World.init : World V).segs key (some ⟨Spec.bytes p, applyA (zeroSeg v0) (attachWrites p (zeroSeg v0)).1, 1⟩) } : World V).setH h ⟨none, none⟩) _ (set_same _ _ _) (set_same _ _ _) rfl a3
        (by intro h'; simp only [World.setH, set]; split <;> rfl)
    refine ⟨w', ?_, by rw [m']; simp only; omega, n'⟩
    simp only [cycles, run, step, e, Res.ok_bind]
    simp only [World.setH, set_same, disconnect, Option.isSome_some, if_true, set_set] at e' ⊢
    rw [e']
    simp [List.replicate_succ]

example : Spec.Fit ⟨2, 2, 8, 24⟩ := by decide

/-- Either no handle becomes connected, or one does and its segment gets a mapping. -/
def Grows (w w' : World V) : Prop :=
  (∀ h key, (w'.hs h).shm = some key → (w.hs h).shm = some key) ∨
  ∃ h key, (∀ h', h' ≠ h → w'.hs h' = w.hs h') ∧ (w.hs h).shm = none ∧ (w'.hs h).shm = some key ∧ mappings w key + 1 ≤ mappings w' key

theorem semop_hs {w w' : World V} {H : Handle} {ops : List RwLock.SemBuf} (h : semop w H ops = .done w') : w'.hs = w.hs := by
  unfold semop at h
  split at h
  · cases h
  · split at h
    · cases h
    · split at h
      · cases h
      · cases h; rfl

theorem hs_locked {α : Type} {w w' : World V} {h : Nat} {l u : List RwLock.SemBuf} {body : Map V → Res (Map V × α)} {mk : α → Reply V} {r : Reply V} (e : locked w h l u body mk = .ok (w', r)) :
    w'.hs = w.hs := by
  simp only [locked] at e
  cases h1 : semop w (w.hs h) l with
  | threw => rw [h1] at e; cases e; rfl
  | blocked => rw [h1] at e; cases e; rfl
  | done w1 =>
    have hs1 := semop_hs h1
    rw [h1] at e
    dsimp only at e
    split at e
    · cases e
    · split at e
      · cases e
      · rename_i k _ s hk
        cases hb : body s.seg.map with
        | ub => rw [hb] at e; cases e
        | ok p =>
          rw [hb] at e
          simp only [Res.ok_bind] at e
          split at e
          · rename_i w2 h2
            cases e
            have := semop_hs h2
            simp only at this
            rw [this, hs1]
          · cases e

theorem grows_setH {w w0 : World V} (h : Nat) {H : Handle} (h0 : w0.hs = w.hs) (hn : ∀ k, H.shm = some k → (w.hs h).shm = some k) : Grows w (w0.setH h H) := by
  left
  intro h' key e
  simp only [World.setH, h0] at e
  by_cases c : h' = h
  · subst c; rw [set_same] at e; exact hn key e
  · rw [set_other _ _ _ _ c] at e; exact e

theorem disc_shm (H : Handle) : (disconnect H).shm = none := by
  unfold disconnect
  split
  · rfl
  · rename_i h; simpa using h

theorem shm_some {p : Params} {v0 : V} {w w' : World V} {k : Nat} {H H' : Handle} {env : Env} (e : connect_shm p v0 w H k env = .ok (w', some H')) :
    H.shm = none ∧ H'.shm = some k ∧ w'.hs = w.hs ∧ mappings w k + 1 ≤ mappings w' k := by
  unfold connect_shm at e
  split at e
  · cases e
  · rename_i hn
    split at e
    · cases e
    · cases hr : required_space p with
      | ub => rw [hr] at e; cases e
      | ok sz =>
        rw [hr, Res.ok_bind] at e
        split at e
        · rename_i s hk
          split at e
          · split at e
            · cases e
            · cases e
              refine ⟨by simpa using hn, rfl, rfl, ?_⟩
              simp only [mappings, hk, set_same]
              exact Nat.le_refl _
          · cases e
        · rename_i hk
          split at e
          · cases e
          · split at e
            · cases e
            · cases e
              refine ⟨by simpa using hn, rfl, rfl, ?_⟩
              simp only [mappings, hk, set_same]
              exact Nat.le_refl _

theorem shm_hs {p : Params} {v0 : V} {w w' : World V} {k : Nat} {H : Handle} {H' : Option Handle} {env : Env} (e : connect_shm p v0 w H k env = .ok (w', H')) : w'.hs = w.hs := by
  unfold connect_shm at e
  split at e
  · cases e; rfl
  · split at e
    · cases e; rfl
    · cases hr : required_space p with
      | ub => rw [hr] at e; cases e
      | ok sz =>
        rw [hr, Res.ok_bind] at e
        split at e
        · split at e
          · split at e <;> cases e <;> rfl
          · cases e; rfl
        · split at e
          · cases e; rfl
          · split at e <;> cases e <;> rfl

theorem attach_hs {p : Params} {w w' : World V} {h k : Nat} {H : Handle} {r : Reply V} (e : connect_attach p w h H k = .ok (w', r)) : w'.hs = set w.hs h H ∨ w'.hs = set w.hs h (disconnect H) := by
  simp only [connect_attach] at e
  cases h1 : semop w H RwLock.lock_write_rw with
  | threw => rw [h1] at e; cases e
  | blocked => rw [h1] at e; cases e; left; rfl
  | done w1 =>
    have hs1 := semop_hs h1
    rw [h1] at e
    dsimp only at e
    split at e
    · cases e
    · rename_i s hk
      split at e
      · rename_i w2 h2
        have hs2 := semop_hs h2
        simp only [hs1] at hs2
        split at e
        · cases e; right; simp only [World.setH, hs2]
        · cases e; left; simp only [World.setH, hs2]
      · cases e

theorem sem_hs {w w' : World V} {H H' : Handle} {k : Nat} {env : Env} (e : connect_sem w H k env = some (w', H')) : w'.hs = w.hs ∧ H'.shm = H.shm := by
  unfold connect_sem at e
  split at e
  · cases e
  · split at e
    · cases e
    · split at e
      · cases e; exact ⟨rfl, rfl⟩
      · split at e
        · cases e
        · cases e; exact ⟨rfl, rfl⟩

theorem step_grows (par : Nat → Params) (v0 : V) (w w' : World V) (c : Call V) (r : Reply V) (h : step par v0 w c = .ok (w', r)) : Grows w w' := by
  have same : ∀ w0 : World V, w0.hs = w.hs → Grows w w0 := fun w0 h0 => by left; intro h' key e; rw [h0] at e; exact e
  cases c with
  | disconnect h' => simp only [step] at h; cases h; exact grows_setH h' rfl (by intro k e; rw [disc_shm] at e; cases e)
  | isConnected h' => simp only [step] at h; cases h; exact same _ rfl
  | capacity h' => simp only [step] at h; cases h; exact same _ rfl
  | op h' o => simp only [step] at h; exact same _ (hs_locked h)
  | insertMany h' ps => simp only [step] at h; exact same _ (hs_locked h)
  | eraseMany h' ks => simp only [step] at h; exact same _ (hs_locked h)
  | nonEmpty h' =>
    simp only [step, nonEmpty] at h
    split at h
    · cases h
    · split at h
      · cases h
      · cases h; exact same _ rfl
  | connect h' k env =>
    simp only [step, connect] at h
    cases h0 : connect_sem w (w.hs h') k env with
    | none => rw [h0] at h; cases h; exact grows_setH h' rfl (by intro k e; rw [disc_shm] at e; cases e)
    | some q =>
      obtain ⟨w1, H1⟩ := q
      obtain ⟨s1, t1⟩ := sem_hs h0
      have m1 := mappings_sem h0
      rw [h0] at h
      simp only at h
      cases h2 : semop w1 H1 RwLock.lock_write_rw with
      | threw => rw [h2] at h; cases h; exact grows_setH h' s1 (by intro k e; rw [disc_shm] at e; cases e)
      | blocked => rw [h2] at h; cases h; exact grows_setH h' s1 (by intro k e; rw [t1] at e; exact e)
      | done w2 =>
        have s2 := semop_hs h2
        have m2 := semop_segs h2
        rw [h2] at h
        simp only at h
        cases h3 : connect_shm (par h') v0 w2 H1 k env with
        | ub => rw [h3] at h; cases h
        | ok q =>
          obtain ⟨w3, H3⟩ := q
          have s3 := shm_hs h3
          rw [h3] at h
          simp only [Res.ok_bind] at h
          split at h
          · rename_i w4 h4
            have s4 := semop_hs h4
            have m4 := semop_segs h4
            have s5 : w4.hs = w.hs := by rw [s4, s3, s2, s1]
            split at h
            · cases h; exact grows_setH h' s5 (by intro k e; rw [disc_shm] at e; cases e)
            · rename_i H3
              obtain ⟨a, b, _, d⟩ := shm_some h3
              have hm := mappings_attach h k
              rw [mappings_congr m4, ] at hm
              rw [mappings_congr m2, mappings_congr m1] at d
              rcases attach_hs h with e | e
              · right
                refine ⟨h', k, ?_, by rw [← t1]; exact a, ?_, by omega⟩
                · intro h'' c; rw [e, set_other _ _ _ _ c, s5]
                · rw [e, set_same]; exact b
              · have : Grows w (w4.setH h' (disconnect H3)) := grows_setH h' s5 (by intro k e; rw [disc_shm] at e; cases e)
                rcases this with t | ⟨h1, k1, _, _, t, _⟩
                · left
                  intro x y z
                  refine t x y ?_
                  simp only [World.setH]
                  rw [← e]; exact z
                · simp only [World.setH] at t
                  by_cases c : h1 = h'
                  · subst c; rw [set_same, disc_shm] at t; cases t
                  · left
                    intro x y z
                    by_cases c : x = h'
                    · subst c; rw [e, set_same, disc_shm] at z; cases z
                    · rw [e, set_other _ _ _ _ c, s5] at z; exact z
          · cases h

/-- **C113, the part that holds.** After any calls with any outcomes of the system calls, a segment is mapped at least once for each connected handle: no handle uses memory that is not mapped.
Missing: that there are no more mappings than connected handles, which is false. -/
theorem C113_mapped_while_connected_partial (par : Nat → Params) (v0 : V) (cs : List (Call V)) (w : World V) (rs : List (Reply V)) (h : run par v0 World.init cs = .ok (w, rs)) (key : Nat) (L : List Nat) (hL : L.Nodup)
    (hc : ∀ h ∈ L, (w.hs h).shm = some key) : L.length ≤ mappings w key := by
  have gen : ∀ (cs : List (Call V)) (w0 w : World V) (rs : List (Reply V)), (∀ (key : Nat) (L : List Nat), L.Nodup → (∀ h ∈ L, (w0.hs h).shm = some key) → L.length ≤ mappings w0 key) →
      run par v0 w0 cs = .ok (w, rs) → ∀ (key : Nat) (L : List Nat), L.Nodup → (∀ h ∈ L, (w.hs h).shm = some key) → L.length ≤ mappings w key := by
    intro cs
    induction cs with
    | nil => intro w0 w rs I e; simp only [run] at e; cases e; exact I
    | cons c cs ih =>
      intro w0 w rs I e
      simp only [run] at e
      cases e1 : step par v0 w0 c with
      | ub => rw [e1] at e; cases e
      | ok q =>
        obtain ⟨w1, r1⟩ := q
        rw [e1, Res.ok_bind] at e
        simp only at e
        cases e2 : run par v0 w1 cs with
        | ub => rw [e2] at e; cases e
        | ok q2 =>
          obtain ⟨w2, rs2⟩ := q2
          rw [e2] at e
          simp only [Res.ok_bind] at e
          cases e
          refine ih w1 w rs2 ?_ e2
          intro key L hL hc
          have mono := C113_refuted_never_unmapped par v0 w0 w1 c r1 e1 key
          rcases step_grows par v0 w0 w1 c r1 e1 with g | ⟨h, k, g1, g2, g3, g4⟩
          · exact Nat.le_trans (I key L hL (fun h hh => g h key (hc h hh))) mono
          · by_cases hm : h ∈ L
            · have hk : k = key := by have := hc h hm; rw [g3] at this; injection this
              subst hk
              have := I k (L.erase h) (hL.erase h) (fun h'' hh => by
                have ne : h'' ≠ h := by intro c; subst c; exact absurd hh (List.Nodup.not_mem_erase hL)
                rw [← g1 h'' ne]; exact hc h'' (List.mem_of_mem_erase hh))
              rw [List.length_erase_of_mem hm] at this
              omega
            · refine Nat.le_trans (I key L hL (fun h'' hh => ?_)) mono
              have ne : h'' ≠ h := by intro c; subst c; exact hm hh
              rw [← g1 h'' ne]; exact hc h'' hh
  refine gen cs World.init w rs ?_ h key L hL hc
  intro key L _ hc
  cases L with
  | nil => exact Nat.zero_le _
  | cons x L => have := hc x (by simp); cases this

/-- Three handles are connected, one is disconnected; the segment is mapped three times. -/
example : (run par0 5 World.init [.connect 0 7 allOk, .connect 1 7 allOk, .connect 2 7 allOk, .disconnect 1]).map (fun p => (mappings p.1 7, (p.1.hs 0).shm, (p.1.hs 1).shm, (p.1.hs 2).shm)) =
    .ok (3, some 7, none, some 7) := by decide +kernel

/-! ## C114: handles that are not connected -/

/-- **C114, the part that holds.** On a handle that has not been connected, or has been disconnected, every operation throws and nothing else happens, `is_connected` is false, and `disconnect` does
nothing; all this in any order.  Missing: iterating and handles for which a connect failed late, for which it is false. -/
theorem C114_unconnected_partial (par : Nat → Params) (v0 : V) (cs cs' : List (Call V)) (s s' : Spec.State V) (rs rs' : List (Reply V)) (h1 : Spec.run par Spec.State.init cs = some (s, rs))
    (h2 : Spec.run par s cs' = some (s', rs')) (h : Nat) (hu : s.us h = none) (o : ShmMap.Op V) (ps : List (UInt64 × V)) (ks : List UInt64) :
    ∃ w, run par v0 World.init (cs ++ ([.op h o, .insertMany h ps, .eraseMany h ks, .isConnected h, .disconnect h, .op h o] ++ cs')) =
      .ok (w, rs ++ ([.threw, .threw, .threw, .bool false, .unit, .threw] ++ rs')) := by
  refine C111_shared_finite_maps par v0 _ s' _ (spec_append par cs _ _ _ _ _ _ h1 (spec_append par _ cs' _ s _ _ _ ?_ h2))
  have hd : (⟨s.ts, set s.us h none⟩ : Spec.State V) = s := by rw [set_self _ _ _ hu]
  simp [Spec.run, Spec.step, Spec.onTable, hu, hd, set_same]

example : (Spec.run par0 (Spec.State.init : Spec.State Nat) hist).map (fun p => (p.1.us 1, p.1.us 0)) = some (none, some 7) := by decide +kernel

/-- Iterating over a handle that is not connected is undefined: `hash` is NULL. -/
theorem C114_refuted (par : Nat → Params) (v0 : V) (cs : List (Call V)) (s : Spec.State V) (rs : List (Reply V)) (h1 : Spec.run par Spec.State.init cs = some (s, rs)) (h : Nat) (hu : s.us h = none) :
    run par v0 World.init (cs ++ [.nonEmpty h]) = .ub := by
  obtain ⟨w, e, R⟩ := sim_run v0 cs (Rel.init par) h1
  have hw := R.out h hu
  rw [run_append, e]
  simp only [Res.ok_bind, run, step, nonEmpty, hw]
  rfl

end Verif.MapApi
