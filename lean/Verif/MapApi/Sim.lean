import Verif.MapApi.Lemmas
/-
  The implementation follows the specification, call by call (C111).
-/
set_option linter.unusedVariables false
set_option linter.unusedSimpArgs false

namespace Verif.MapApi

open Verif.ShmPool Verif.ShmMap

variable {V : Type}

theorem set_same {α : Type} (f : Nat → α) (i : Nat) (x : α) : set f i x i = x := by simp [set]
theorem set_other {α : Type} (f : Nat → α) (i j : Nat) (x : α) (h : j ≠ i) : set f i x j = f j := by simp [set, h]
theorem set_set {α : Type} (f : Nat → α) (i : Nat) (x y : α) : set (set f i x) i y = set f i y := by
  funext j; simp only [set]; split <;> rfl
theorem set_self {α : Type} (f : Nat → α) (i : Nat) (x : α) (h : f i = x) : set f i x = f := by
  funext j; simp only [set]; split
  · subst_vars; rfl
  · rfl

/-! ## semaphores -/

theorem semop_lockW {w : World V} {H : Handle} {k : Nat} (h1 : H.sem = some k) (h2 : w.sems k = some ⟨0, 0⟩) :
    semop w H RwLock.lock_write_rw = .done { w with sems := set w.sems k (some ⟨0, 1⟩) } := by
  simp only [semop, h1, h2]
  rfl

theorem semop_unlockW {w : World V} {H : Handle} {k : Nat} (h1 : H.sem = some k) (h2 : w.sems k = some ⟨0, 1⟩) :
    semop w H RwLock.unlock_write_rw = .done { w with sems := set w.sems k (some ⟨0, 0⟩) } := by
  simp only [semop, h1, h2]
  rfl

theorem semop_lockR {w : World V} {H : Handle} {k : Nat} (h1 : H.sem = some k) (h2 : w.sems k = some ⟨0, 0⟩) :
    semop w H RwLock.lock_read_rw = .done { w with sems := set w.sems k (some ⟨1, 0⟩) } := by
  simp only [semop, h1, h2]
  rfl

theorem semop_unlockR {w : World V} {H : Handle} {k : Nat} (h1 : H.sem = some k) (h2 : w.sems k = some ⟨1, 0⟩) :
    semop w H RwLock.unlock_read_rw = .done { w with sems := set w.sems k (some ⟨0, 0⟩) } := by
  simp only [semop, h1, h2]
  rfl

/-- A pair of lock and unlock. -/
def Pair (l u : List RwLock.SemBuf) : Prop := (l = RwLock.lock_write_rw ∧ u = RwLock.unlock_write_rw) ∨ (l = RwLock.lock_read_rw ∧ u = RwLock.unlock_read_rw)

theorem lockOf_pair (o : ShmMap.Op V) : Pair (lockOf o).1 (lockOf o).2 := by
  cases o <;> simp [lockOf, Pair]

theorem locked_threw {α : Type} {w : World V} {h : Nat} (l u : List RwLock.SemBuf) (body : Map V → Res (Map V × α)) (mk : α → Reply V) (h1 : (w.hs h).sem = none) :
    locked w h l u body mk = .ok (w, .threw) := by
  simp [locked, semop, h1]

theorem locked_null {α : Type} {w : World V} {h k : Nat} {l u : List RwLock.SemBuf} (hp : Pair l u) (body : Map V → Res (Map V × α)) (mk : α → Reply V) (h1 : (w.hs h).sem = some k)
    (h2 : w.sems k = some ⟨0, 0⟩) (h3 : (w.hs h).shm = none) : locked w h l u body mk = .ub := by
  rcases hp with ⟨rfl, rfl⟩ | ⟨rfl, rfl⟩
  · simp [locked, semop_lockW h1 h2, h3]
  · simp [locked, semop_lockR h1 h2, h3]

theorem locked_ok {α : Type} {w : World V} {h k : Nat} {l u : List RwLock.SemBuf} (hp : Pair l u) (body : Map V → Res (Map V × α)) (mk : α → Reply V)
    (h1 : w.hs h = ⟨some k, some k⟩) (h2 : w.sems k = some ⟨0, 0⟩) {s : MSeg V} (h3 : w.segs k = some s) {m : Map V} {r : α} (hb : body s.seg.map = .ok (m, r)) :
    locked w h l u body mk = .ok ({ w with segs := set w.segs k (some { s with seg := setMap s.seg m }) }, mk r) := by
  have a : (w.hs h).sem = some k := by rw [h1]
  have b : (w.hs h).shm = some k := by rw [h1]
  rcases hp with ⟨rfl, rfl⟩ | ⟨rfl, rfl⟩
  · simp only [locked, semop_lockW a h2, b, h3, hb, Res.ok_bind]
    rw [semop_unlockW a (by exact set_same _ _ _)]
    simp only [set_set]
    rw [set_self _ _ _ h2]
  · simp only [locked, semop_lockR a h2, b, h3, hb, Res.ok_bind]
    rw [semop_unlockR a (by exact set_same _ _ _)]
    simp only [set_set]
    rw [set_self _ _ _ h2]

/-! ## the relation -/

/-- A segment that holds a map. -/
structure SRel (s : MSeg V) (t : Spec.Table V) : Prop where
  fit : Spec.Fit t.par
  bytes : s.bytes = Spec.bytes t.par
  init : Initialised t.par.N t.par.H t.par.tsz t.par.nsz s.seg
  rep : ∃ f fr, Rep t.par.N t.par.H s.seg.map f fr 0 t.items

def KRel (t : Option (Spec.Table V)) (s : Option (MSeg V)) (v : Option RwLock.Vals) : Prop :=
  match t, s, v with
  | none, none, none => True
  | some t, some s, some v => v = ⟨0, 0⟩ ∧ SRel s t
  | _, _, _ => False

structure Rel (par : Nat → Params) (s : Spec.State V) (w : World V) : Prop where
  key : ∀ k, KRel (s.ts k) (w.segs k) (w.sems k)
  out : ∀ h, s.us h = none → w.hs h = ⟨none, none⟩
  inn : ∀ h k, s.us h = some k → w.hs h = ⟨some k, some k⟩ ∧ ∃ t, s.ts k = some t ∧ par h = t.par

theorem Rel.init (par : Nat → Params) : Rel par (Spec.State.init : Spec.State V) World.init :=
  ⟨fun _ => trivial, fun _ _ => rfl, fun h k hk => by simp [Spec.State.init] at hk⟩

theorem KRel.none {s : Option (MSeg V)} {v : Option RwLock.Vals} (h : KRel (none : Option (Spec.Table V)) s v) : s = none ∧ v = none := by
  cases s <;> cases v <;> simp_all [KRel]

theorem KRel.some {t : Spec.Table V} {s : Option (MSeg V)} {v : Option RwLock.Vals} (h : KRel (some t) s v) : ∃ s', s = some s' ∧ v = some ⟨0, 0⟩ ∧ SRel s' t := by
  cases s <;> cases v <;> simp_all [KRel]

theorem setMap_map (s : Seg V) (m : Map V) : (setMap s m).map = m := rfl

theorem setMap_init {N H tsz nsz : Nat} {s : Seg V} (m : Map V) (h : Initialised N H tsz nsz s) : Initialised N H tsz nsz (setMap s m) := h

/-- A changed map in place. -/
theorem Rel.setTable {par : Nat → Params} {s : Spec.State V} {w : World V} (R : Rel par s w) {k : Nat} {t : Spec.Table V} {sg : MSeg V} (ht : s.ts k = some t) (hs : w.segs k = some sg)
    (S : SRel sg t) {m : Map V} {l : List (UInt64 × V)} {f : Nat → List Nat} {fr : List Nat} (hr : Rep t.par.N t.par.H m f fr 0 l) :
    Rel par { s with ts := set s.ts k (some { t with items := l }) } { w with segs := set w.segs k (some { sg with seg := setMap sg.seg m }) } := by
  refine ⟨?_, R.out, ?_⟩
  · intro k'
    by_cases e : k' = k
    · subst e
      have K := R.key k'
      rw [ht, hs] at K
      obtain ⟨_, _, hv, _⟩ := KRel.some K
      simp only [set_same, hv]
      exact ⟨rfl, S.fit, S.bytes, S.init, f, fr, hr⟩
    · simp only [set_other _ _ _ _ e]
      exact R.key k'
  · intro h k' hk
    obtain ⟨e, t', ht', hp⟩ := R.inn h k' hk
    refine ⟨e, ?_⟩
    by_cases e' : k' = k
    · subst e'
      simp only [set_same]
      rw [ht] at ht'
      cases ht'
      exact ⟨_, rfl, hp⟩
    · simp only [set_other _ _ _ _ e']
      exact ⟨t', ht', hp⟩

/-- An operation under its lock follows `onTable`. -/
theorem sim_locked {α : Type} {par : Nat → Params} {s : Spec.State V} {w : World V} (R : Rel par s w) {h : Nat} {l u : List RwLock.SemBuf} (hp : Pair l u) (body : Map V → Res (Map V × α)) (mk : α → Reply V)
    (g : Spec.Table V → List (UInt64 × V) × Reply V)
    (hb : ∀ (t : Spec.Table V) (m : Map V) f fr, Spec.Fit t.par → par h = t.par → Rep t.par.N t.par.H m f fr 0 t.items →
      ∃ m' r f' fr', body m = .ok (m', r) ∧ mk r = (g t).2 ∧ Rep t.par.N t.par.H m' f' fr' 0 (g t).1)
    {s' : Spec.State V} {r : Reply V} (hs : Spec.onTable s h g = some (s', r)) : ∃ w', locked w h l u body mk = .ok (w', r) ∧ Rel par s' w' := by
  unfold Spec.onTable at hs
  cases hu : s.us h with
  | none =>
    rw [hu] at hs
    cases hs
    exact ⟨w, locked_threw _ _ _ _ (by rw [R.out h hu]), R⟩
  | some k =>
    rw [hu] at hs
    obtain ⟨e, t, ht, hpar⟩ := R.inn h k hu
    simp only [ht] at hs
    cases hs
    have K := R.key k
    rw [ht] at K
    obtain ⟨sg, hsg, hv, S⟩ := KRel.some K
    obtain ⟨f, fr, hrep⟩ := S.rep
    obtain ⟨m', r, f', fr', e1, e2, e3⟩ := hb t sg.seg.map f fr S.fit hpar hrep
    rw [locked_ok hp body mk e hv hsg e1, e2]
    exact ⟨_, rfl, R.setTable ht hsg S e3⟩

/-! ## batches -/

theorem insertLoop_rep {N H : Nat} (hN : N < NONE) (hH : 0 < H) : ∀ (ps : List (UInt64 × V)) {m : Map V} {f : Nat → List Nat} {fr : List Nat} {l : List (UInt64 × V)}, Rep N H m f fr 0 l →
    ∃ m' n f' fr', insertLoop N H m ps = .ok (m', n) ∧ n ≤ ps.length ∧ (n == ps.length) = (Spec.insertAll N l ps).2 ∧ Rep N H m' f' fr' 0 (Spec.insertAll N l ps).1 := by
  intro ps
  induction ps with
  | nil => intro m f fr l h; exact ⟨m, 0, f, fr, rfl, by simp, rfl, h⟩
  | cons p ps ih =>
    intro m f fr l h
    obtain ⟨k, v⟩ := p
    obtain ⟨m1, r, f1, fr1, e, hr⟩ := insert_done hN hH h k v
    simp only [insertLoop, e, Res.ok_bind, Spec.insertAll]
    rcases hr with ⟨rfl, hh, h'⟩ | ⟨rfl, h1, h2, rfl, h'⟩
    · obtain ⟨m2, n, f2, fr2, e2, hn, hb, h2⟩ := ih h'
      simp only [Nat.add_zero] at hh
      simp only [e2, Res.ok_bind, hh, decide_true, if_true, Bool.true_and]
      refine ⟨m2, 1 + n, f2, fr2, rfl, by simp only [List.length_cons]; omega, ?_, h2⟩
      rw [← hb, List.length_cons, Nat.add_comm]
      simp
    · have hh : ¬ (ShmMap.Spec.has l k ∨ l.length < N) := by rintro (a | a); exact h1 a; omega
      obtain ⟨m2, n, f2, fr2, e2, hn, hb, h2⟩ := ih h'
      simp only [e2, Res.ok_bind, hh, decide_false, Bool.false_eq_true, if_false, Bool.false_and]
      refine ⟨m2, 0 + n, f2, fr2, rfl, by simp only [List.length_cons]; omega, ?_, h2⟩
      simp only [List.length_cons, beq_eq_false_iff_ne]
      omega

theorem eraseLoop_rep {N H : Nat} (hN : N < NONE) (hH : 0 < H) : ∀ (ks : List UInt64) {m : Map V} {f : Nat → List Nat} {fr : List Nat} {l : List (UInt64 × V)}, Rep N H m f fr 0 l →
    ∃ m' n f' fr', eraseLoop N H m ks = .ok (m', n) ∧ n ≤ ks.length ∧ (n == ks.length) = (Spec.eraseAll l ks).2 ∧ Rep N H m' f' fr' 0 (Spec.eraseAll l ks).1 := by
  intro ks
  induction ks with
  | nil => intro m f fr l h; exact ⟨m, 0, f, fr, rfl, by simp, rfl, h⟩
  | cons k ks ih =>
    intro m f fr l h
    obtain ⟨m1, f1, fr1, e, h1⟩ := erase_done hN hH h k
    obtain ⟨m2, n, f2, fr2, e2, hn, hb, h2⟩ := ih h1
    simp only [eraseLoop, e, Res.ok_bind, Spec.eraseAll, e2]
    by_cases hk : ShmMap.Spec.has l k
    · simp only [hk, decide_true, if_true, Bool.true_and]
      refine ⟨m2, 1 + n, f2, fr2, rfl, by simp only [List.length_cons]; omega, ?_, h2⟩
      rw [← hb, List.length_cons, Nat.add_comm]
      simp
    · simp only [hk, decide_false, Bool.false_eq_true, if_false, Bool.false_and]
      refine ⟨m2, 0 + n, f2, fr2, rfl, by simp only [List.length_cons]; omega, ?_, h2⟩
      simp only [List.length_cons, beq_eq_false_iff_ne]
      omega

theorem fit_N {p : Params} (h : Spec.Fit p) : p.N < NONE := by
  obtain ⟨_, _, _, _, h⟩ := h
  unfold NONE
  omega

/-! ## connect -/

theorem attach_zero (p : Params) (v0 : V) : (attachWrites p (zeroSeg v0)).2 = false ∧ Init p.H (applyA (zeroSeg v0) (attachWrites p (zeroSeg v0)).1).map ∧
    Initialised p.N p.H p.tsz p.nsz (applyA (zeroSeg v0) (attachWrites p (zeroSeg v0)).1) := by
  have e := attachWrites_all p (zeroSeg v0)
  have c := (C53_map_attach p.N p.H p.tsz p.nsz (zeroSeg v0)).1 ⟨rfl, rfl, rfl, rfl, rfl, rfl, rfl⟩
  rw [← e] at c
  exact c

theorem attach_init (p q : Params) (hq : Spec.Fit q) (s : Seg V) (hs : Initialised q.N q.H q.tsz q.nsz s) :
    (attachWrites p s).2 = !(decide (p = q)) ∧ applyA s (attachWrites p s).1 = s := by
  have e := attachWrites_all p s
  have c := (C53_map_attach p.N p.H p.tsz p.nsz s).2 q.N q.H q.tsz q.nsz hq.2.2.1 hq.2.2.2.1 hs
  rw [← e, Prod.mk.injEq] at c
  refine ⟨?_, c.1⟩
  rw [c.2]
  congr 1
  rcases p with ⟨a, b, c, d⟩
  rcases q with ⟨a', b', c', d'⟩
  simp

/-- attach after connect_shm. -/
theorem connect_attach_eq {p : Params} {w : World V} {h key : Nat} {H : Handle} {s : MSeg V} (h1 : H = ⟨some key, some key⟩) (h2 : w.sems key = some ⟨0, 0⟩) (h3 : w.segs key = some s) :
    connect_attach p w h H key = .ok (({ w with segs := set w.segs key (some { s with seg := applyA s.seg (attachWrites p s.seg).1 }) } : World V).setH h
      (if (attachWrites p s.seg).2 then ⟨none, none⟩ else ⟨some key, some key⟩), if (attachWrites p s.seg).2 then .threw else .unit) := by
  subst h1
  simp only [connect_attach]
  rw [semop_lockW rfl h2]
  simp only [h3]
  rw [semop_unlockW rfl (by exact set_same _ _ _)]
  simp only [set_set]
  rw [set_self _ _ _ h2]
  cases (attachWrites p s.seg).2 <;> simp [disconnect]

/-- The call up to connect_shm. -/
theorem connect_eq {p : Params} {v0 : V} {w : World V} {h key : Nat} {env : Env} (h1 : w.hs h = ⟨none, none⟩) (hf : env.ftok = true)
    (hs : w.sems key = some ⟨0, 0⟩ ∨ (w.sems key = none ∧ env.semget = true)) {w' : World V} {H' : Option Handle}
    (hc : connect_shm p v0 { w with sems := set w.sems key (some ⟨0, 1⟩) } ⟨some key, none⟩ key env = .ok (w', H')) (hsem : w'.sems = set w.sems key (some ⟨0, 1⟩)) :
    connect p v0 w h key env = match H' with
      | none => .ok (({ w' with sems := set w.sems key (some ⟨0, 0⟩) } : World V).setH h ⟨some key, none⟩, .threw)
      | some H => connect_attach p { w' with sems := set w.sems key (some ⟨0, 0⟩) } h H key := by
  have hu : ∀ H : Handle, H.sem = some key → semop w' H RwLock.unlock_write_rw = .done { w' with sems := set w.sems key (some ⟨0, 0⟩) } := by
    intro H hH
    rw [semop_unlockW hH (by rw [hsem]; exact set_same _ _ _), hsem, set_set]
  rcases hs with hs | ⟨hs, hg⟩
  · have e : connect_sem w (w.hs h) key env = some (w, ⟨some key, none⟩) := by simp [connect_sem, h1, hf, hs]
    simp only [connect, e]
    rw [semop_lockW rfl hs]
    simp only [hc, Res.ok_bind]
    rw [hu _ rfl]
    cases H' <;> simp [disconnect]
  · have e : connect_sem w (w.hs h) key env = some ({ w with sems := set w.sems key (some ⟨0, 0⟩) }, ⟨some key, none⟩) := by simp [connect_sem, h1, hf, hs, hg]
    simp only [connect, e]
    rw [semop_lockW rfl (by exact set_same _ _ _)]
    simp only [set_set, hc, Res.ok_bind]
    rw [hu _ rfl]
    cases H' <;> simp [disconnect]

theorem Rel.setUser {par : Nat → Params} {s : Spec.State V} {w : World V} (R : Rel par s w) (h k : Nat) {t : Spec.Table V} (ht : s.ts k = some t) (hp : par h = t.par) :
    Rel par ⟨s.ts, set s.us h (some k)⟩ (w.setH h ⟨some k, some k⟩) := by
  refine ⟨R.key, ?_, ?_⟩
  · intro h' hu
    by_cases e : h' = h
    · subst e; simp [set_same] at hu
    · simp only [World.setH, set_other _ _ _ _ e] at hu ⊢
      exact R.out h' hu
  · intro h' k' hu
    by_cases e : h' = h
    · subst e
      simp only [set_same, Option.some.injEq] at hu
      subst hu
      exact ⟨set_same _ _ _, t, ht, hp⟩
    · simp only [World.setH, set_other _ _ _ _ e] at hu ⊢
      exact R.inn h' k' hu

theorem Rel.dropUser {par : Nat → Params} {s : Spec.State V} {w : World V} (R : Rel par s w) (h : Nat) : Rel par ⟨s.ts, set s.us h none⟩ (w.setH h ⟨none, none⟩) := by
  refine ⟨R.key, ?_, ?_⟩
  · intro h' hu
    by_cases e : h' = h
    · subst e; exact set_same _ _ _
    · simp only [World.setH, set_other _ _ _ _ e] at hu ⊢
      exact R.out h' hu
  · intro h' k' hu
    by_cases e : h' = h
    · subst e
      simp [set_same] at hu
    · simp only [World.setH, set_other _ _ _ _ e] at hu ⊢
      exact R.inn h' k' hu

/-- A table whose segment has been mapped again. -/
theorem Rel.mapped {par : Nat → Params} {s : Spec.State V} {w : World V} (R : Rel par s w) {k : Nat} {t : Spec.Table V} {sg : MSeg V} (ht : s.ts k = some t) (hs : w.segs k = some sg) (n : Nat)
    (v : RwLock.Vals) (hv : v = ⟨0, 0⟩) :
    Rel par s { w with segs := set w.segs k (some { sg with nattch := n }), sems := set w.sems k (some v) } := by
  refine ⟨?_, R.out, R.inn⟩
  intro k'
  by_cases e : k' = k
  · subst e
    have K := R.key k'
    rw [ht, hs] at K
    obtain ⟨_, rfl', _, S⟩ := KRel.some K
    cases rfl'
    simp only [set_same, ht]
    exact ⟨hv, S.fit, S.bytes, S.init, S.rep⟩
  · simp only [set_other _ _ _ _ e]
    exact R.key k'

/-- A new table. -/
theorem Rel.newTable {par : Nat → Params} {s : Spec.State V} {w : World V} (R : Rel par s w) {k : Nat} (ht : s.ts k = none) {t : Spec.Table V} {sg : MSeg V} (S : SRel sg t) :
    Rel par ⟨set s.ts k (some t), s.us⟩ { w with segs := set w.segs k (some sg), sems := set w.sems k (some ⟨0, 0⟩) } := by
  refine ⟨?_, R.out, ?_⟩
  · intro k'
    by_cases e : k' = k
    · subst e
      simp only [set_same]
      exact ⟨rfl, S⟩
    · simp only [set_other _ _ _ _ e]
      exact R.key k'
  · intro h k' hu
    obtain ⟨e, t', ht', hp⟩ := R.inn h k' hu
    have : k' ≠ k := by rintro rfl; rw [ht] at ht'; cases ht'
    exact ⟨e, t', by simp only [set_other _ _ _ _ this]; exact ht', hp⟩

theorem sim_connect {par : Nat → Params} (v0 : V) {s : Spec.State V} {w : World V} (R : Rel par s w) (h key : Nat) (env : Env) {s' : Spec.State V} {r : Reply V}
    (hs : Spec.step par s (.connect h key env) = some (s', r)) : ∃ w', connect (par h) v0 w h key env = .ok (w', r) ∧ Rel par s' w' := by
  simp only [Spec.step] at hs
  cases hu : s.us h with
  | some k => rw [hu] at hs; cases hs
  | none =>
    rw [hu] at hs
    have hw := R.out h hu
    by_cases hf : env.ftok = false
    · simp only [hf, if_true] at hs
      cases hs
      refine ⟨w.setH h ⟨none, none⟩, by simp [connect, connect_sem, hw, hf, disconnect], ?_⟩
      have := R.dropUser h
      rw [set_self _ _ _ hu] at this
      exact this
    · simp only [hf, if_false] at hs
      have hf' : env.ftok = true := by cases h : env.ftok <;> simp_all
      by_cases hall : (env.ftok2 && env.semget && env.shmget && env.shmat && decide (Spec.Fit (par h))) = true
      · simp only [hall, if_true] at hs
        simp only [Bool.and_eq_true, decide_eq_true_eq] at hall
        obtain ⟨⟨⟨⟨e2, e3⟩, e4⟩, e5⟩, hfit⟩ := hall
        have hreq := required_eq hfit.2.1 hfit.2.2.2.2
        cases ht : s.ts key with
        | none =>
          rw [ht] at hs
          cases hs
          have K := R.key key
          rw [ht] at K
          obtain ⟨k1, k2⟩ := KRel.none K
          have hc : connect_shm (par h) v0 { w with sems := set w.sems key (some ⟨0, 1⟩) } ⟨some key, none⟩ key env =
              .ok ({ w with sems := set w.sems key (some ⟨0, 1⟩), segs := set w.segs key (some ⟨Spec.bytes (par h), zeroSeg v0, 1⟩) }, some ⟨some key, some key⟩) := by
            simp [connect_shm, e2, e4, e5, hreq, k1]
          rw [connect_eq hw hf' (Or.inr ⟨k2, e3⟩) hc rfl]
          dsimp only
          rw [connect_attach_eq (s := ⟨Spec.bytes (par h), zeroSeg v0, 1⟩) rfl (by exact set_same _ _ _) (by exact set_same _ _ _)]
          obtain ⟨a1, a2, a3⟩ := attach_zero (par h) v0
          simp only [a1, Bool.false_eq_true, if_false, set_set]
          refine ⟨_, rfl, ?_⟩
          have S : SRel (V := V) ⟨Spec.bytes (par h), applyA (zeroSeg v0) (attachWrites (par h) (zeroSeg v0)).1, 1⟩ ⟨par h, []⟩ :=
            ⟨hfit, rfl, a3, _, _, rep_init _ a2.1 a2.2.1 a2.2.2⟩
          exact (R.newTable ht S).setUser h key (set_same _ _ _) rfl
        | some t =>
          rw [ht] at hs
          have K := R.key key
          rw [ht] at K
          obtain ⟨sg, k1, k2, S⟩ := KRel.some K
          have hb : Spec.bytes (par h) ≤ sg.bytes → connect (par h) v0 w h key env = .ok (({ w with sems := w.sems, segs := set w.segs key (some { sg with nattch := sg.nattch + 1 }) } : World V).setH h
              (if par h = t.par then ⟨some key, some key⟩ else ⟨none, none⟩), if par h = t.par then .unit else .threw) := by
            intro hb
            have hc : connect_shm (par h) v0 { w with sems := set w.sems key (some ⟨0, 1⟩) } ⟨some key, none⟩ key env =
                .ok ({ w with sems := set w.sems key (some ⟨0, 1⟩), segs := set w.segs key (some { sg with nattch := sg.nattch + 1 }) }, some ⟨some key, some key⟩) := by
              simp [connect_shm, e2, e4, e5, hreq, k1, hb]
            rw [connect_eq hw hf' (Or.inl k2) hc rfl]
            dsimp only
            rw [connect_attach_eq (s := { sg with nattch := sg.nattch + 1 }) rfl (by exact set_same _ _ _) (by exact set_same _ _ _)]
            obtain ⟨a1, a2⟩ := attach_init (par h) t.par S.fit sg.seg S.init
            simp only [a1, a2, set_set]
            rw [set_self _ _ _ k2]
            by_cases hpt : par h = t.par <;> simp [hpt]
          have M := R.mapped ht k1 (sg.nattch + 1) _ rfl
          rw [set_self _ _ _ k2] at M
          by_cases hpt : par h = t.par
          · simp only [hpt, if_true] at hs
            cases hs
            rw [hb (by rw [S.bytes, hpt]; exact Nat.le_refl _)]
            simp only [hpt, if_true]
            exact ⟨_, rfl, M.setUser h key ht hpt⟩
          · simp only [hpt, if_false] at hs
            by_cases hle : Spec.bytes (par h) ≤ Spec.bytes t.par
            · simp only [hle, if_true] at hs
              cases hs
              rw [hb (by rw [S.bytes]; exact hle)]
              simp only [hpt, if_false]
              refine ⟨_, rfl, ?_⟩
              have := M.dropUser h
              rw [set_self _ _ _ hu] at this
              exact this
            · simp only [hle, if_false] at hs
              cases hs
      · simp only [hall, if_false] at hs
        cases hs

theorem iterate_nil {N H : Nat} {m : Map V} {it : Iter} {F : Nat} {l : List (UInt64 × V)} (b : iterate N H m F it = .ok l) : it = end_ ↔ l = [] := by
  by_cases hx : it = end_
  · have : iterate N H m F it = .ok [] := by cases F <;> simp [iterate, hx]
    rw [this] at b
    cases b
    simp [hx]
  · refine ⟨fun h => absurd h hx, fun h => ?_⟩
    subst h
    exfalso
    cases F with
    | zero => simp [iterate, hx] at b
    | succ c =>
      simp only [iterate, hx, if_false] at b
      split at b
      · cases h1 : incr N H m it with
        | ub => rw [h1] at b; cases b
        | ok it' =>
          rw [h1, Res.ok_bind] at b
          cases h2 : iterate N H m c it' with
          | ub => rw [h2] at b; cases b
          | ok l => rw [h2, Res.ok_bind] at b; cases b
      · cases b

theorem sim_step {par : Nat → Params} (v0 : V) {s : Spec.State V} {w : World V} (R : Rel par s w) (c : Call V) {s' : Spec.State V} {r : Reply V} (hs : Spec.step par s c = some (s', r)) :
    ∃ w', step par v0 w c = .ok (w', r) ∧ Rel par s' w' := by
  cases c with
  | connect h key env => exact sim_connect v0 R h key env hs
  | disconnect h =>
    simp only [Spec.step] at hs
    cases hs
    refine ⟨_, rfl, ?_⟩
    have : disconnect (w.hs h) = ⟨none, none⟩ := by
      cases hu : s.us h with
      | none => rw [R.out h hu]; rfl
      | some k => rw [(R.inn h k hu).1]; rfl
    rw [this]
    exact R.dropUser h
  | isConnected h =>
    simp only [Spec.step] at hs
    cases hs
    refine ⟨w, ?_, R⟩
    simp only [step]
    cases hu : s.us h with
    | none => simp [R.out h hu]
    | some k => simp [(R.inn h k hu).1]
  | capacity h =>
    simp only [Spec.step] at hs
    cases hs
    exact ⟨w, rfl, R⟩
  | op h o =>
    simp only [step]
    simp only [Spec.step] at hs
    refine sim_locked R (lockOf_pair o) _ _ _ ?_ hs
    intro t m f fr hfit hp hrep
    rw [hp]
    obtain ⟨m1, f1, fr1, e1, h1⟩ := step_spec (fit_N hfit) hfit.1 hrep o
    have hL : ShmMap.Spec.stepL t.par.N 0 t.items o = ((ShmMap.Spec.step t.par.N t.items o).1, 0, (ShmMap.Spec.step t.par.N t.items o).2) := by cases o <;> rfl
    rw [hL] at e1 h1
    exact ⟨m1, _, f1, fr1, e1, rfl, h1⟩
  | insertMany h ps =>
    simp only [step]
    simp only [Spec.step] at hs
    refine sim_locked R (Or.inl ⟨rfl, rfl⟩) _ _ _ ?_ hs
    intro t m f fr hfit hp hrep
    rw [hp]
    obtain ⟨m', n, f', fr', e, _, hb, hr⟩ := insertLoop_rep (fit_N hfit) hfit.1 ps hrep
    refine ⟨m', n == ps.length, f', fr', ?_, ?_, hr⟩
    · simp only [insertMany, e, Res.ok_bind]
    · rw [hb]
  | eraseMany h ks =>
    simp only [step]
    simp only [Spec.step] at hs
    refine sim_locked R (Or.inl ⟨rfl, rfl⟩) _ _ _ ?_ hs
    intro t m f fr hfit hp hrep
    rw [hp]
    obtain ⟨m', n, f', fr', e, _, hb, hr⟩ := eraseLoop_rep (fit_N hfit) hfit.1 ks hrep
    refine ⟨m', n == ks.length, f', fr', ?_, ?_, hr⟩
    · simp only [eraseMany, e, Res.ok_bind]
    · rw [hb]
  | nonEmpty h =>
    simp only [Spec.step] at hs
    simp only [step, nonEmpty]
    cases hu : s.us h with
    | none => rw [hu] at hs; cases hs
    | some k =>
      rw [hu] at hs
      obtain ⟨e, t, ht, hpar⟩ := R.inn h k hu
      simp only [ht] at hs
      cases hs
      have K := R.key k
      rw [ht] at K
      obtain ⟨sg, hsg, hv, S⟩ := KRel.some K
      obtain ⟨f, fr, hrep⟩ := S.rep
      simp only [e, hsg]
      refine ⟨w, ?_, R⟩
      have b := begin_spec (fit_N S.fit) hrep
      have hl := hrep.abs.length_eq
      rw [List.length_map] at hl
      rw [hpar]
      have hne : begin_ t.par.H sg.seg.map = end_ ↔ t.items = [] := by
        rw [iterate_nil b, List.map_eq_nil_iff]
        constructor
        · intro h0
          rw [h0, List.length_nil] at hl
          exact List.eq_nil_of_length_eq_zero hl
        · intro h0
          rw [h0, List.length_nil] at hl
          exact List.eq_nil_of_length_eq_zero hl.symm
      congr 3
      by_cases hx : t.items = []
      · simp [hx, hne.mpr hx]
      · have : ¬ begin_ t.par.H sg.seg.map = end_ := fun hb => hx (hne.mp hb)
        simp [this, hx]

theorem sim_run {par : Nat → Params} (v0 : V) (cs : List (Call V)) {s : Spec.State V} {w : World V} (R : Rel par s w) {s' : Spec.State V} {rs : List (Reply V)}
    (hs : Spec.run par s cs = some (s', rs)) : ∃ w', run par v0 w cs = .ok (w', rs) ∧ Rel par s' w' := by
  induction cs generalizing s w rs with
  | nil => simp only [Spec.run] at hs; cases hs; exact ⟨w, rfl, R⟩
  | cons c cs ih =>
    simp only [Spec.run] at hs
    cases h1 : Spec.step par s c with
    | none => rw [h1] at hs; cases hs
    | some p =>
      obtain ⟨s1, r⟩ := p
      rw [h1] at hs
      simp only at hs
      cases h2 : Spec.run par s1 cs with
      | none => rw [h2] at hs; cases hs
      | some q =>
        obtain ⟨s2, rs'⟩ := q
        rw [h2] at hs
        cases hs
        obtain ⟨w1, e1, R1⟩ := sim_step v0 R c h1
        obtain ⟨w2, e2, R2⟩ := ih R1 h2
        exact ⟨w2, by simp only [run, e1, e2, Res.ok_bind], R2⟩

theorem run_append (par : Nat → Params) (v0 : V) (cs cs' : List (Call V)) (w : World V) :
    run par v0 w (cs ++ cs') = run par v0 w cs >>= fun p => run par v0 p.1 cs' >>= fun q => .ok (q.1, p.2 ++ q.2) := by
  induction cs generalizing w with
  | nil => simp only [List.nil_append, run, Res.ok_bind]; cases run par v0 w cs' <;> rfl
  | cons c cs ih =>
    simp only [List.cons_append, run]
    cases step par v0 w c with
    | ub => rfl
    | ok p =>
      simp only [Res.ok_bind, ih]
      cases run par v0 p.1 cs with
      | ub => rfl
      | ok q =>
        simp only [Res.ok_bind]
        cases run par v0 q.1 cs' <;> rfl

end Verif.MapApi
