import Verif.SegRm.Spec
import Verif.MapApi.Sim
/-
  Helper lemmas for C174.
-/
set_option linter.unusedVariables false
set_option linter.unusedSimpArgs false

namespace Verif.SegRm

open Verif.ShmPool Verif.ShmMap Verif.MapApi

variable {V : Type}

/-- The key file of a segment. -/
def owner (id : Nat) : Nat := (Nat.unpair id).1

theorem owner_segId (k g : Nat) : owner (segId k g) = k := by simp [owner, segId]

theorem segId_inj {k g k' g' : Nat} (h : segId k g = segId k' g') : k = k' ∧ g = g' := by
  have := congrArg Nat.unpair h
  simpa [segId] using this

structure Same (w w' : MapApi.World V) : Prop where
  segs : w.segs = w'.segs
  shm : ∀ h, (w.hs h).shm = (w'.hs h).shm
  sem : ∀ h, (w.hs h).sem = (w'.hs h).sem.map owner
  free : ∀ k v, w.sems k = some v → v = ⟨0, 0⟩
  free' : ∀ k v, w'.sems k = some v → v = ⟨0, 0⟩
  has : ∀ h k, (w.hs h).sem = some k → (w.sems k).isSome
  has' : ∀ h k, (w'.hs h).sem = some k → (w'.sems k).isSome

/-- The two outcomes correspond. -/
def Sim (a b : Res (MapApi.World V × Reply V)) : Prop :=
  match a, b with
  | .ok (w, r), .ok (w', r') => r = r' ∧ Same w w'
  | .ub, .ub => True
  | _, _ => False

/-- What connect_shm does to the segments. -/
def shmPart (p : Params) (v0 : V) (segs : Nat → Option (MSeg V)) (shm : Option Nat) (id : Nat) (env : Env) : Res ((Nat → Option (MSeg V)) × Bool) :=
  if shm.isSome then .ok (segs, false)
  else if !env.ftok2 then .ok (segs, false)
  else do
    let sz ← required_space p
    match segs id with
    | some s =>
      if sz ≤ s.bytes then
        if !env.shmat then .ok (segs, false)
        else .ok (set segs id (some { s with nattch := s.nattch + 1 }), true)
      else .ok (segs, false)
    | none =>
      if !env.shmget then .ok (segs, false)
      else if !env.shmat then .ok (set segs id (some ⟨sz, zeroSeg v0, 0⟩), false)
      else .ok (set segs id (some ⟨sz, zeroSeg v0, 1⟩), true)

theorem connect_shm_eq (p : Params) (v0 : V) (w : MapApi.World V) (H : Handle) (id : Nat) (env : Env) :
    connect_shm p v0 w H id env = (do
      let (g, b) ← shmPart p v0 w.segs H.shm id env
      .ok ({ w with segs := g }, if b then some { H with shm := some id } else none)) := by
  unfold connect_shm shmPart
  by_cases h1 : H.shm.isSome = true
  · simp [h1]
  by_cases h2 : (!env.ftok2) = true
  · simp [h1, h2]
  simp only [h1, h2, if_false, Bool.false_eq_true]
  cases required_space p with
  | ub => rfl
  | ok sz =>
    simp only [Res.ok_bind]
    cases w.segs id with
    | some s =>
      dsimp only
      by_cases h3 : sz ≤ s.bytes <;> by_cases h4 : (!env.shmat) = true <;> simp [h3, h4]
    | none =>
      dsimp only
      by_cases h3 : (!env.shmget) = true <;> by_cases h4 : (!env.shmat) = true <;> simp [h3, h4]

theorem connect_sem_eq {w : MapApi.World V} {H : Handle} {key : Nat} {env : Env} (hf : ∀ v, w.sems key = some v → v = ⟨0, 0⟩) (h1 : H.sem = none) (h2 : env.ftok = true)
    (h3 : env.semget = true) : connect_sem w H key env = some ({ w with sems := set w.sems key (some ⟨0, 0⟩) }, { H with sem := some key }) := by
  unfold connect_sem
  simp only [h1, h2, h3, Option.isSome_none, Bool.false_eq_true, if_false, Bool.not_true]
  cases e : w.sems key with
  | none => rfl
  | some v =>
    have := hf v e
    subst this
    simp only [Option.some.injEq, Prod.mk.injEq, and_true]
    rw [set_self _ _ _ e]

/-- connect with free semaphores, in one piece. -/
theorem connect_flat {p : Params} {v0 : V} {w : MapApi.World V} {h key id : Nat} {env : Env} (hf : ∀ v, w.sems key = some v → v = ⟨0, 0⟩) (h1 : (w.hs h).sem = none)
    (h2 : env.ftok = true) (h3 : env.semget = true) :
    connect p v0 w h key id env = (do
      let (g, b) ← shmPart p v0 w.segs (w.hs h).shm id env
      if b then
        match g id with
        | none => .ub
        | some s => .ok (⟨set g id (some { s with seg := applyA s.seg (attachWrites p s.seg).1 }), set w.sems key (some ⟨0, 0⟩),
            set w.hs h (if (attachWrites p s.seg).2 then ⟨none, none⟩ else ⟨some key, some id⟩)⟩, if (attachWrites p s.seg).2 then .threw else .unit)
      else .ok (⟨g, set w.sems key (some ⟨0, 0⟩), set w.hs h (disconnect ⟨some key, (w.hs h).shm⟩)⟩, .threw)) := by
  unfold connect
  rw [connect_sem_eq hf h1 h2 h3]
  dsimp only
  rw [semop_lockW (k := key) rfl (by exact set_same _ _ _)]
  dsimp only
  rw [connect_shm_eq]
  dsimp only
  cases shmPart p v0 w.segs (w.hs h).shm id env with
  | ub => rfl
  | ok gb =>
    obtain ⟨g, b⟩ := gb
    simp only [Res.ok_bind]
    rw [semop_unlockW (k := key) rfl (by exact set_same _ _ _)]
    cases b with
    | false =>
      simp only [set_set, Bool.false_eq_true, if_false, World.setH]
    | true =>
      simp only [set_set, if_true]
      unfold connect_attach
      rw [semop_lockW (k := key) rfl (by exact set_same _ _ _)]
      dsimp only
      cases e : g id with
      | none => rfl
      | some s =>
        dsimp only
        rw [semop_unlockW (k := key) rfl (by exact set_same _ _ _)]
        cases ht : (attachWrites p s.seg).2 <;> simp [set_set, World.setH, disconnect]

theorem connect_api (p : Params) (v0 : V) (w : MapApi.World V) (h id : Nat) (env : Env) : MapApi.connect p v0 w h id env = connect p v0 w h id id env := rfl

theorem Same.setBoth {w w' : MapApi.World V} (S : Same w w') (h key id : Nat) (ho : owner id = key) (g : Nat → Option (MSeg V)) {H H' : Handle} (hs : H.shm = H'.shm)
    (hm : H.sem = H'.sem.map owner) (hk : ∀ i, H'.sem = some i → i = id) :
    Same ⟨g, set w.sems key (some ⟨0, 0⟩), set w.hs h H⟩ ⟨g, set w'.sems id (some ⟨0, 0⟩), set w'.hs h H'⟩ := by
  refine ⟨rfl, ?_, ?_, ?_, ?_, ?_, ?_⟩
  · intro x
    by_cases e : x = h
    · subst e; simpa only [set_same] using hs
    · simpa only [set_other _ _ _ _ e] using S.shm x
  · intro x
    by_cases e : x = h
    · subst e; simpa only [set_same] using hm
    · simpa only [set_other _ _ _ _ e] using S.sem x
  · intro k v hv
    by_cases e : k = key
    · subst e; simp only [set_same, Option.some.injEq] at hv; exact hv.symm
    · simp only [set_other _ _ _ _ e] at hv; exact S.free k v hv
  · intro k v hv
    by_cases e : k = id
    · subst e; simp only [set_same, Option.some.injEq] at hv; exact hv.symm
    · simp only [set_other _ _ _ _ e] at hv; exact S.free' k v hv
  · intro x k hx
    by_cases ek : k = key
    · subst ek; simp [set_same]
    · simp only [set_other _ _ _ _ ek]
      by_cases e : x = h
      · subst e
        simp only [set_same] at hx
        rw [hm] at hx
        cases hi : H'.sem with
        | none => rw [hi] at hx; simp at hx
        | some i =>
          rw [hi, hk i hi] at hx
          simp only [Option.map_some, Option.some.injEq] at hx
          exact absurd (hx.symm.trans ho) ek
      · simp only [set_other _ _ _ _ e] at hx; exact S.has x k hx
  · intro x k hx
    by_cases ek : k = id
    · subst ek; simp [set_same]
    · simp only [set_other _ _ _ _ ek]
      by_cases e : x = h
      · subst e
        simp only [set_same] at hx
        exact absurd (hk k hx) ek
      · simp only [set_other _ _ _ _ e] at hx; exact S.has' x k hx

theorem Same.setH {w w' : MapApi.World V} (S : Same w w') (h : Nat) {H H' : Handle} (hs : H.shm = H'.shm) (hm : H.sem = H'.sem.map owner)
    (ha : ∀ k, H.sem = some k → (w.sems k).isSome) (ha' : ∀ k, H'.sem = some k → (w'.sems k).isSome) : Same (w.setH h H) (w'.setH h H') := by
  refine ⟨S.segs, ?_, ?_, S.free, S.free', ?_, ?_⟩ <;> intro x <;> simp only [World.setH] <;> by_cases e : x = h
  · subst e; simpa only [set_same] using hs
  · simpa only [set_other _ _ _ _ e] using S.shm x
  · subst e; simpa only [set_same] using hm
  · simpa only [set_other _ _ _ _ e] using S.sem x
  · subst e; simpa only [set_same] using ha
  · simpa only [set_other _ _ _ _ e] using S.has x
  · subst e; simpa only [set_same] using ha'
  · simpa only [set_other _ _ _ _ e] using S.has' x

theorem Same.disc {w w' : MapApi.World V} (S : Same w w') (h : Nat) : Same (w.setH h (disconnect (w.hs h))) (w'.setH h (disconnect (w'.hs h))) := by
  have a := S.shm h
  unfold disconnect
  rw [a]
  cases (w'.hs h).shm.isSome with
  | true => exact S.setH h rfl rfl (by simp) (by simp)
  | false => exact S.setH h a (S.sem h) (S.has h) (S.has' h)

theorem sim_connect {p : Params} {v0 : V} {w w' : MapApi.World V} (S : Same w w') (h key id : Nat) (ho : owner id = key) (env : Env) (he : env.ftok = false ∨ env.semget = true) :
    Sim (connect p v0 w h key id env) (MapApi.connect p v0 w' h id env) := by
  rw [connect_api]
  by_cases hc : (w.hs h).sem.isSome = true ∨ env.ftok = false
  · have hc' : (w'.hs h).sem.isSome = true ∨ env.ftok = false := by
      rw [S.sem h] at hc
      simpa using hc
    have e : connect_sem w (w.hs h) key env = none := by
      unfold connect_sem
      rcases hc with hc | hc <;> simp [hc]
    have e' : connect_sem w' (w'.hs h) id env = none := by
      unfold connect_sem
      rcases hc' with hc | hc <;> simp [hc]
    unfold connect
    simp only [e, e']
    exact ⟨rfl, S.disc h⟩
  · have h1 : (w.hs h).sem = none := by
      cases e : (w.hs h).sem with
      | none => rfl
      | some k => exact absurd (Or.inl (by rw [e]; rfl)) hc
    have h1' : (w'.hs h).sem = none := by
      have := S.sem h
      rw [h1] at this
      cases e : (w'.hs h).sem with
      | none => rfl
      | some k => rw [e] at this; simp at this
    have h2 : env.ftok = true := by
      cases e : env.ftok with
      | true => rfl
      | false => exact absurd (Or.inr e) hc
    have h3 : env.semget = true := by
      rcases he with he | he
      · rw [h2] at he; simp at he
      · exact he
    rw [connect_flat (S.free key) h1 h2 h3, connect_flat (S.free' id) h1' h2 h3, S.segs, S.shm h]
    cases shmPart p v0 w'.segs (w'.hs h).shm id env with
    | ub => trivial
    | ok gb =>
      obtain ⟨g, b⟩ := gb
      simp only [Res.ok_bind]
      cases b with
      | false =>
        simp only [Bool.false_eq_true, if_false]
        refine ⟨rfl, ?_⟩
        unfold disconnect
        dsimp only
        cases (w'.hs h).shm.isSome with
        | true => exact S.setBoth h key id ho g rfl rfl (by simp)
        | false => exact S.setBoth h key id ho g rfl (by simp [ho]) (by intro i hi; simpa using hi.symm)
      | true =>
        simp only [if_true]
        cases g id with
        | none => trivial
        | some s =>
          dsimp only
          refine ⟨rfl, ?_⟩
          cases (attachWrites p s.seg).2 with
          | true => exact S.setBoth h key id ho _ rfl rfl (by simp)
          | false => exact S.setBoth h key id ho _ rfl (by simp [ho]) (by intro i hi; simpa using hi.symm)

theorem semop_zero {w : MapApi.World V} {H : Handle} {k : Nat} (h1 : H.sem = some k) (h2 : w.sems k = some ⟨0, 0⟩) {l u : List RwLock.SemBuf} (hp : Pair l u) :
    ∃ v, semop w H l = .done { w with sems := set w.sems k (some v) } ∧
      ∀ g : Nat → Option (MSeg V), semop ⟨g, set w.sems k (some v), w.hs⟩ H u = .done ⟨g, w.sems, w.hs⟩ := by
  rcases hp with ⟨rfl, rfl⟩ | ⟨rfl, rfl⟩
  · refine ⟨_, semop_lockW h1 h2, fun g => ?_⟩
    rw [semop_unlockW h1 (by exact set_same _ _ _)]
    simp only [set_set]
    rw [set_self _ _ _ h2]
  · refine ⟨_, semop_lockR h1 h2, fun g => ?_⟩
    rw [semop_unlockR h1 (by exact set_same _ _ _)]
    simp only [set_set]
    rw [set_self _ _ _ h2]

theorem Same.setSegs {w w' : MapApi.World V} (S : Same w w') (g : Nat → Option (MSeg V)) : Same ⟨g, w.sems, w.hs⟩ ⟨g, w'.sems, w'.hs⟩ :=
  ⟨rfl, S.shm, S.sem, S.free, S.free', S.has, S.has'⟩

theorem sim_locked {α : Type} {w w' : MapApi.World V} (S : Same w w') (h : Nat) {l u : List RwLock.SemBuf} (hp : Pair l u) (body : Map V → Res (Map V × α)) (mk : α → Reply V) :
    Sim (locked w h l u body mk) (locked w' h l u body mk) := by
  cases e' : (w'.hs h).sem with
  | none =>
    have e := S.sem h
    rw [e'] at e
    rw [locked_threw l u body mk e', locked_threw l u body mk e]
    exact ⟨rfl, S⟩
  | some id =>
    have e := S.sem h
    rw [e'] at e
    simp only [Option.map_some] at e
    have z : w.sems (owner id) = some ⟨0, 0⟩ := by
      have := S.has h _ e
      obtain ⟨v, hv⟩ := Option.isSome_iff_exists.mp this
      rw [hv, S.free _ _ hv]
    have z' : w'.sems id = some ⟨0, 0⟩ := by
      have := S.has' h _ e'
      obtain ⟨v, hv⟩ := Option.isSome_iff_exists.mp this
      rw [hv, S.free' _ _ hv]
    obtain ⟨v, a, b⟩ := semop_zero e z hp
    obtain ⟨v', a', b'⟩ := semop_zero e' z' hp
    simp only [locked, a, a', S.shm h, S.segs]
    cases (w'.hs h).shm with
    | none => trivial
    | some key =>
      dsimp only
      cases w'.segs key with
      | none => trivial
      | some s =>
        dsimp only
        cases body s.seg.map with
        | ub => trivial
        | ok mr =>
          obtain ⟨m, r⟩ := mr
          simp only [Res.ok_bind]
          rw [b, b']
          exact ⟨rfl, S.setSegs _⟩

/-- A call that the specification covers does not fail to get semaphores. -/
def okEnv : Call V → Prop
  | .connect _ _ env => env.ftok = false ∨ env.semget = true
  | _ => True

theorem sim_call {par : Nat → Params} {v0 : V} {w w' : MapApi.World V} (S : Same w w') (gen : Nat → Nat) (c : Call V) (hc : okEnv c) :
    Sim (call par v0 gen w c) (MapApi.step par v0 w' (Spec.name gen c)) := by
  cases c with
  | connect h key env => exact sim_connect S h key _ (owner_segId _ _) env hc
  | disconnect h => exact ⟨rfl, S.disc h⟩
  | isConnected h => simp only [call, MapApi.step, Spec.name, S.shm h]; exact ⟨rfl, S⟩
  | capacity h => exact ⟨rfl, S⟩
  | op h o => exact sim_locked S h (lockOf_pair o) (fun m => ShmMap.step (par h).N (par h).H m o) .ret
  | insertMany h ps => exact sim_locked S h (Or.inl ⟨rfl, rfl⟩) (fun m => insertMany (par h).N (par h).H m ps) .bool
  | eraseMany h ks => exact sim_locked S h (Or.inl ⟨rfl, rfl⟩) (fun m => eraseMany (par h).N (par h).H m ks) .bool
  | nonEmpty h =>
    simp only [call, MapApi.step, Spec.name, MapApi.nonEmpty, S.shm h, S.segs]
    cases (w'.hs h).shm with
    | none => trivial
    | some k =>
      dsimp only
      cases w'.segs k with
      | none => trivial
      | some s => exact ⟨rfl, S⟩

theorem Same.init : Same (MapApi.World.init : MapApi.World V) MapApi.World.init :=
  ⟨rfl, fun _ => rfl, fun _ => rfl, fun _ _ h => by simp [MapApi.World.init] at h, fun _ _ h => by simp [MapApi.World.init] at h, fun _ _ h => by simp [MapApi.World.init] at h,
    fun _ _ h => by simp [MapApi.World.init] at h⟩

theorem step_okEnv {par : Nat → Params} {s s' : MapApi.Spec.State V} {gen : Nat → Nat} {c : Call V} {r : Reply V} (h : MapApi.Spec.step par s (Spec.name gen c) = some (s', r)) : okEnv c := by
  cases c with
  | connect x key env =>
    simp only [Spec.name, MapApi.Spec.step] at h
    unfold okEnv
    dsimp only
    cases e : s.us x with
    | some k => rw [e] at h; simp at h
    | none =>
      rw [e] at h
      dsimp only at h
      by_cases hf : env.ftok = false
      · exact Or.inl hf
      · right
        rw [if_neg hf] at h
        split at h
        · rename_i ha
          simp only [Bool.and_eq_true] at ha
          exact ha.1.1.1.2
        · simp at h
  | _ => trivial

/-- Every history with removals follows its renamed history. -/
theorem sim_hist (par : Nat → Params) (v0 : V) : ∀ (es : List (Ev V)) (gen : Nat → Nat) (s s' : MapApi.Spec.State V) (w w' : MapApi.World V) (rs : List (Reply V)), Same w w' → Rel par s w' →
    MapApi.Spec.run par s (Spec.rename gen es) = some (s', rs) → ∃ b b', run par v0 ⟨w, gen⟩ es = .ok (⟨b, Spec.gens gen es⟩, rs) ∧ Same b b' ∧ Rel par s' b'
  | [], gen, s, s', w, w', rs, S, R, h => by
    simp only [Spec.rename, MapApi.Spec.run, Option.some.injEq, Prod.mk.injEq] at h
    obtain ⟨rfl, rfl⟩ := h
    exact ⟨w, w', rfl, S, R⟩
  | .rm key :: es, gen, s, s', w, w', rs, S, R, h => sim_hist par v0 es _ s s' w w' rs S R h
  | .call c :: es, gen, s, s', w, w', rs, S, R, h => by
    simp only [Spec.rename, MapApi.Spec.run] at h
    cases h1 : MapApi.Spec.step par s (Spec.name gen c) with
    | none => rw [h1] at h; simp at h
    | some sr =>
      obtain ⟨s1, r⟩ := sr
      rw [h1] at h
      dsimp only at h
      cases h2 : MapApi.Spec.run par s1 (Spec.rename gen es) with
      | none => rw [h2] at h; simp at h
      | some sr2 =>
        obtain ⟨s2, rs2⟩ := sr2
        rw [h2] at h
        simp only [Option.some.injEq, Prod.mk.injEq] at h
        obtain ⟨rfl, rfl⟩ := h
        obtain ⟨w1', hw1', R1⟩ := sim_step v0 R _ h1
        have A := sim_call (par := par) (v0 := v0) S gen c (step_okEnv h1)
        rw [hw1'] at A
        cases hA : call par v0 gen w c with
        | ub => rw [hA] at A; exact absurd A (by simp [Sim])
        | ok x =>
          obtain ⟨w1, r1⟩ := x
          rw [hA] at A
          obtain ⟨rfl, S1⟩ := A
          obtain ⟨b, b', hb, Sb, Rb⟩ := sim_hist par v0 es gen s1 s2 w1 w1' rs2 S1 R1 h2
          refine ⟨b, b', ?_, Sb, Rb⟩
          simp only [run, hA, Res.ok_bind, hb, Spec.gens]

end Verif.SegRm
