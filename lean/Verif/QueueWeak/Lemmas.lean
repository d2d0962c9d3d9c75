import Verif.QueueWeak.Spec
import Verif.ShmQueue.Lemmas

set_option linter.unusedVariables false
set_option linter.unusedSimpArgs false

namespace Verif.QueueWeak

open Verif.ShmQueue
open RwLock (Vals SemBuf semop semop1 undo undo1 SEMVMX)

variable {size bs : Nat}

/-! ### Stores -/

theorem store_comm (m : Shm) (a b : Wr) (h : cell a ≠ cell b) : store (store m a) b = store (store m b) a := by
  cases a <;> cases b <;> simp only [store]
  · exact absurd rfl h
  · exact absurd rfl h
  · rename_i x v y w
    have hxy : x ≠ y := by rintro rfl; exact h rfl
    congr 1
    funext z
    by_cases h1 : z = x <;> by_cases h2 : z = y <;> simp [h1, h2]
    · exact absurd (h1.symm.trans h2) hxy
    · intro e; exact absurd e hxy
    · intro e; exact absurd e.symm hxy

def storeAll (m : Shm) (ws : List Wr) : Shm := ws.foldl store m

theorem storeAll_append (m : Shm) (ws : List Wr) (w : Wr) : storeAll m (ws ++ [w]) = store (storeAll m ws) w := by simp [storeAll]

theorem storeAll_early (ws : List Wr) : ∀ (m : Shm) (k : Nat) (w : Wr), ws[k]? = some w → (∀ u ∈ ws.take k, cell u ≠ cell w) →
    storeAll (store m w) (ws.eraseIdx k) = storeAll m ws := by
  induction ws with
  | nil => intro m k w h; simp at h
  | cons x ws ih =>
    intro m k w h hc
    cases k with
    | zero => simp only [List.getElem?_cons_zero, Option.some.injEq] at h; subst h; simp [storeAll]
    | succ k =>
      simp only [List.getElem?_cons_succ] at h
      have hx : cell x ≠ cell w := hc x (by simp)
      have := ih (store m x) k w h (fun u hu => hc u (by simp [hu]))
      simp only [List.eraseIdx_cons_succ, storeAll, List.foldl_cons] at this ⊢
      rw [← this, store_comm m x w hx]

/-! ### The shared part -/

def shm (s : State) : Shm := ⟨s.start, s.end_, s.mem⟩

def put (s : State) (m : Shm) : State := { s with start := m.start, end_ := m.end_, mem := m.mem }

theorem put_shm (s : State) : put s (shm s) = s := rfl

theorem doSem_put (s : State) (m : Shm) (i : Nat) (p : Proc) (ops : List SemBuf) (md : Mode) :
    (put s m).doSem i p ops md = (s.doSem i p ops md).map (put · m) := by
  simp only [State.doSem, put]
  split <;> rfl

/-- Steps outside of the sections do not look at the shared part. -/
theorem step_put (s : State) (m : Shm) (l : Label) (hl : ∀ i, l = .adv i → ∀ p : Proc, s.procs[i]? = some p → p.mode.inCS = false) :
    ShmQueue.step size bs (put s m) l = (ShmQueue.step size bs s l).map (put · m) := by
  have hp : (put s m).procs = s.procs := rfl
  cases l with
  | adv i =>
    simp only [ShmQueue.step, hp]
    cases hpi : s.procs[i]? with
    | none => rfl
    | some p =>
      have hc := hl i rfl p hpi
      simp only
      obtain ⟨md, cb, adj⟩ := p
      cases md <;> simp only [Mode.inCS] at hc <;> first | cases hc | skip
      all_goals simp only [adv]
      all_goals first | rfl | exact doSem_put ..
  | flush i b =>
    simp only [ShmQueue.step, hp]
    cases s.procs[i]? with
    | none => rfl
    | some p => simp only; split <;> rfl
  | unflush i =>
    simp only [ShmQueue.step, hp]
    cases s.procs[i]? with
    | none => rfl
    | some p => simp only; split <;> rfl
  | timeout i =>
    simp only [ShmQueue.step, hp]
    cases s.procs[i]? with
    | none => rfl
    | some p => simp only; split <;> rfl
  | intr i =>
    simp only [ShmQueue.step, hp]
    cases s.procs[i]? with
    | none => rfl
    | some p =>
      simp only
      split
      · rfl
      · split <;> rfl
  | kill i =>
    simp only [ShmQueue.step, hp]
    cases s.procs[i]? with
    | none => rfl
    | some p => simp only; split <;> rfl

theorem upd_shm (s : State) (i : Nat) (p : Proc) : shm (s.upd i p) = shm s := rfl

theorem doSem_shm {s s' : State} {i : Nat} {p : Proc} {ops : List SemBuf} {md : Mode} (e : s.doSem i p ops md = some s') : shm s' = shm s := by
  simp only [State.doSem] at e
  split at e
  · cases e; rfl
  · cases e

def applyW (m : Shm) : Option Wr → Shm
  | none => m
  | some w => store m w

/-- What an access does to the shared part. -/
theorem adv_store {s s' : State} {i : Nat} {p : Proc} (e : adv size bs s i p = some s') :
    shm s' = applyW (shm s) (storeOf size bs (shm s) p) := by
  obtain ⟨md, cb, aj⟩ := p
  cases md <;> simp only [adv, storeOf] at e ⊢
  case idle => cases e
  case dead => cases e
  case f0 => exact doSem_shm e
  case f1 =>
    split at e
    · cases e; rfl
    · split at e <;> cases e <;> rfl
  case f2 k =>
    by_cases hk : k < bs
    · rw [if_pos hk] at e ⊢
      cases e
      simp only [upd_shm, State.store]
      by_cases ha : addr bs s.end_ k < size * bs
      · have hb : addr bs (shm s).end_ k < size * bs := ha
        rw [if_pos ha, if_pos hb]; rfl
      · have hb : ¬ addr bs (shm s).end_ k < size * bs := ha
        rw [if_neg ha, if_neg hb]; rfl
    · rw [if_neg hk] at e ⊢
      cases e; rfl
  case f4 =>
    split at e
    · rename_i h; cases e; rw [if_pos h]; rfl
    · rename_i h; cases e; rw [if_neg h]; rfl
  case f5 =>
    split at e <;> cases e <;> rfl
  case f6 => exact doSem_shm e
  case u0 => exact doSem_shm e
  case u1 => exact doSem_shm e
  case u2 k =>
    split at e
    · split at e <;> cases e <;> rfl
    · cases e; rfl
  case u3 k =>
    by_cases hk : k < bs
    · rw [if_pos hk] at e ⊢
      cases e
      simp only [upd_shm, State.store]
      by_cases ha : addr bs s.start k < size * bs
      · have hb : addr bs (shm s).start k < size * bs := ha
        rw [if_pos ha, if_pos hb]; rfl
      · have hb : ¬ addr bs (shm s).start k < size * bs := ha
        rw [if_neg ha, if_neg hb]; rfl
    · rw [if_neg hk] at e ⊢
      cases e; rfl
  case u5 =>
    split at e
    · rename_i h; cases e; rw [if_pos h]; rfl
    · rename_i h; cases e; rw [if_neg h]; rfl
  case u6 => exact doSem_shm e

/-! ### The lock -/

/-- The lock is free and nobody is inside, or one process is. -/
structure Lock (s : State) : Prop where
  adj : ∀ (i : Nat) (p : Proc), s.procs[i]? = some p → p.adj.r = if p.mode.inCS = true then 1 else 0
  one : (s.sem.r = 1 ∧ ∀ (i : Nat) (p : Proc), s.procs[i]? = some p → p.mode.inCS = false) ∨
    (s.sem.r = 0 ∧ ∃ (i : Nat) (p : Proc), s.procs[i]? = some p ∧ p.mode.inCS = true ∧ ∀ (j : Nat) (q : Proc), j ≠ i → s.procs[j]? = some q → q.mode.inCS = false)

theorem get_set {l : List Proc} {i j : Nat} {p q x : Proc} (hp : l[i]? = some p) (h : (l.set i q)[j]? = some x) : (j = i ∧ x = q) ∨ (j ≠ i ∧ l[j]? = some x) := by
  rw [List.getElem?_set] at h
  split at h
  · rename_i hij
    subst hij
    rw [if_pos (List.getElem?_eq_some_iff.mp hp).1] at h
    left; exact ⟨rfl, (Option.some.inj h).symm⟩
  · rename_i hij
    right; exact ⟨fun e => hij e.symm, h⟩

theorem set_self {l : List Proc} {i : Nat} {p q : Proc} (hp : l[i]? = some p) : (l.set i q)[i]? = some q := by
  rw [List.getElem?_set_self (List.getElem?_eq_some_iff.mp hp).1]

theorem set_ne {l : List Proc} {i j : Nat} {q : Proc} (h : j ≠ i) : (l.set i q)[j]? = l[j]? := List.getElem?_set_ne (fun e => h e.symm)

theorem lock_keep {s s' : State} {i : Nat} {p q : Proc} (h : Lock s) (hp : s.procs[i]? = some p) (hs : s'.procs = s.procs.set i q) (hr : s'.sem.r = s.sem.r)
    (hm : q.mode.inCS = p.mode.inCS) (ha : q.adj.r = p.adj.r) : Lock s' := by
  refine ⟨?_, ?_⟩
  · intro j x hx
    rw [hs] at hx
    rcases get_set hp hx with ⟨rfl, rfl⟩ | ⟨hj, hx⟩
    · rw [ha, hm]; exact h.adj _ _ hp
    · exact h.adj _ _ hx
  · rcases h.one with ⟨h1, h2⟩ | ⟨h1, i', p', hp', hc', ho⟩
    · left
      refine ⟨by rw [hr, h1], fun j x hx => ?_⟩
      rw [hs] at hx
      rcases get_set hp hx with ⟨rfl, rfl⟩ | ⟨hj, hx⟩
      · rw [hm]; exact h2 _ _ hp
      · exact h2 _ _ hx
    · right
      refine ⟨by rw [hr, h1], i', ?_⟩
      by_cases hi : i' = i
      · subst hi
        rw [hp] at hp'
        cases hp'
        refine ⟨q, by rw [hs]; exact set_self hp, by rw [hm]; exact hc', fun j x hj hx => ?_⟩
        rw [hs, set_ne hj] at hx
        exact ho _ _ hj hx
      · refine ⟨p', by rw [hs, set_ne hi]; exact hp', hc', fun j x hj hx => ?_⟩
        rw [hs] at hx
        rcases get_set hp hx with ⟨rfl, rfl⟩ | ⟨_, hx⟩
        · rw [hm]; exact ho _ _ hj hp
        · exact ho _ _ hj hx

theorem lock_enter {s s' : State} {i : Nat} {p q : Proc} (h : Lock s) (hp : s.procs[i]? = some p) (hs : s'.procs = s.procs.set i q) (hr : s.sem.r = 1) (hr' : s'.sem.r = 0)
    (hm : q.mode.inCS = true) (ha : q.adj.r = 1) : Lock s' := by
  rcases h.one with ⟨h1, h2⟩ | ⟨h1, -⟩
  · refine ⟨?_, Or.inr ⟨hr', i, q, by rw [hs]; exact set_self hp, hm, fun j x hj hx => ?_⟩⟩
    · intro j x hx
      rw [hs] at hx
      rcases get_set hp hx with ⟨rfl, rfl⟩ | ⟨hj, hx⟩
      · rw [ha, if_pos hm]
      · exact h.adj _ _ hx
    · rw [hs, set_ne hj] at hx
      exact h2 _ _ hx
  · omega

theorem lock_leave {s s' : State} {i : Nat} {p q : Proc} (h : Lock s) (hp : s.procs[i]? = some p) (hc : p.mode.inCS = true) (hs : s'.procs = s.procs.set i q) (hr' : s'.sem.r = 1)
    (hm : q.mode.inCS = false) (ha : q.adj.r = 0) : Lock s' := by
  rcases h.one with ⟨h1, h2⟩ | ⟨h1, i', p', hp', hc', ho⟩
  · rw [h2 _ _ hp] at hc; cases hc
  · have hi : i = i' := by
      by_cases e : i = i'
      · exact e
      · rw [ho _ _ e hp] at hc; cases hc
    subst hi
    refine ⟨?_, Or.inl ⟨hr', fun j x hx => ?_⟩⟩
    · intro j x hx
      rw [hs] at hx
      rcases get_set hp hx with ⟨rfl, rfl⟩ | ⟨hj, hx⟩
      · rw [ha, hm]; rfl
      · exact h.adj _ _ hx
    · rw [hs] at hx
      rcases get_set hp hx with ⟨rfl, rfl⟩ | ⟨hj, hx⟩
      · exact hm
      · exact ho _ _ hj hx

theorem lock_r {s : State} (h : Lock s) : s.sem.r = 0 ∨ s.sem.r = 1 := by
  rcases h.one with ⟨h1, -⟩ | ⟨h1, -⟩
  · right; exact h1
  · left; exact h1

theorem lock_one {s : State} (h : Lock s) {i j : Nat} {p q : Proc} (hp : s.procs[i]? = some p) (hq : s.procs[j]? = some q) (hc : p.mode.inCS = true) (hd : q.mode.inCS = true) : i = j := by
  rcases h.one with ⟨-, h2⟩ | ⟨-, i', p', hp', hc', ho⟩
  · rw [h2 _ _ hp] at hc; cases hc
  · have h1 : i = i' := by
      by_cases e : i = i'
      · exact e
      · rw [ho _ _ e hp] at hc; cases hc
    have h2 : j = i' := by
      by_cases e : j = i'
      · exact e
      · rw [ho _ _ e hq] at hd; cases hd
    rw [h1, h2]

theorem count_r {v a v' a' : Vals} {op : Int} (e : semop v a [⟨.W, op, false⟩] = some (v', a')) : v'.r = v.r ∧ a' = a := by
  simp only [semop] at e
  split at e
  · cases e
  · cases e; exact ⟨rfl, rfl⟩

theorem r_eq {v a v' a' : Vals} {op : Int} (hop : op ≠ 0) (e : semop v a [⟨.R, op, true⟩] = some (v', a')) : v'.r = v.r + op ∧ a'.r = a.r - op ∧ 0 ≤ v.r + op := by
  have e' : (match semop1 v.r op with | none => none | some x => semop (v.set .R x) (a.set .R (a.r - op)) []) = some (v', a') := e
  cases hx : semop1 v.r op with
  | none => rw [hx] at e'; cases e'
  | some x =>
    rw [hx] at e'
    cases e'
    rw [semop1, if_neg hop] at hx
    by_cases hb : 0 ≤ v.r + op ∧ v.r + op ≤ SEMVMX
    · rw [if_pos hb] at hx
      cases hx
      exact ⟨rfl, rfl, hb.1⟩
    · rw [if_neg hb] at hx
      cases hx

/-- What a semop does to the lock. -/
theorem doSem_eq {s s' : State} {i : Nat} {p : Proc} {ops : List SemBuf} {md : Mode} (e : s.doSem i p ops md = some s') :
    ∃ v a, semop s.sem p.adj ops = some (v, a) ∧ s' = { s with sem := v }.upd i { p with mode := md, adj := a } := by
  simp only [State.doSem] at e
  split at e
  · rename_i v a h; cases e; exact ⟨v, a, h, rfl⟩
  · cases e

theorem store_procs (s : State) (a : Nat) (v : UInt8) : (s.store size bs a v).procs = s.procs ∧ (s.store size bs a v).sem = s.sem := by
  simp only [State.store]; split <;> exact ⟨rfl, rfl⟩

/-- What an access does to the processes and the lock. -/
theorem adv_lock {s s' : State} {i : Nat} {p : Proc} (h : Lock s) (hp : s.procs[i]? = some p) (e : adv size bs s i p = some s') :
    Lock s' ∧ (∀ (j : Nat) (q : Proc), j ≠ i → s'.procs[j]? = some q → s.procs[j]? = some q) ∧
      (∀ q : Proc, s'.procs[i]? = some q → q.mode.inCS = true → p.mode.inCS = true ∨ atLock p.mode = true) := by
  have other : ∀ {u : State} {q : Proc} {j : Nat} {x : Proc}, u.procs = s.procs.set i q → j ≠ i → u.procs[j]? = some x → s.procs[j]? = some x := by
    intro u q j x hu hj hx; rw [hu, set_ne hj] at hx; exact hx
  have ha := h.adj i p hp
  have hr := lock_r h
  have keep : ∀ {u : State} {q : Proc}, u.procs = s.procs.set i q → u.sem.r = s.sem.r → q.mode.inCS = p.mode.inCS → q.adj.r = p.adj.r →
      Lock u ∧ (∀ (j : Nat) (q : Proc), j ≠ i → u.procs[j]? = some q → s.procs[j]? = some q) ∧
      (∀ q : Proc, u.procs[i]? = some q → q.mode.inCS = true → p.mode.inCS = true ∨ atLock p.mode = true) := by
    intro u q h1 h2 h3 h4
    refine ⟨lock_keep h hp h1 h2 h3 h4, fun j x hj hx => other h1 hj hx, fun x hx hc => ?_⟩
    rw [h1, set_self hp] at hx
    cases hx
    left; rw [← h3]; exact hc
  have bad : ∀ {u : State}, u = { s with ub := true } → Lock u ∧ (∀ (j : Nat) (q : Proc), j ≠ i → u.procs[j]? = some q → s.procs[j]? = some q) ∧
      (∀ q : Proc, u.procs[i]? = some q → q.mode.inCS = true → p.mode.inCS = true ∨ atLock p.mode = true) := by
    intro u hu
    subst hu
    refine ⟨⟨h.adj, h.one⟩, fun j x hj hx => hx, fun x hx hc => ?_⟩
    have hx' : s.procs[i]? = some x := hx
    rw [hp] at hx'
    cases hx'
    left; exact hc
  have enter : ∀ {v a : Vals} {u : State} {md : Mode}, semop s.sem p.adj lock_queue = some (v, a) → md.inCS = true → p.mode.inCS = false → atLock p.mode = true →
      u = { s with sem := v }.upd i { p with mode := md, adj := a } → Lock u ∧ (∀ (j : Nat) (q : Proc), j ≠ i → u.procs[j]? = some q → s.procs[j]? = some q) ∧
      (∀ q : Proc, u.procs[i]? = some q → q.mode.inCS = true → p.mode.inCS = true ∨ atLock p.mode = true) := by
    intro v a u md hv hm hn hl hu
    subst hu
    obtain ⟨e1, e2, e3⟩ := r_eq (by decide) hv
    rw [hn] at ha
    have hz : p.adj.r = 0 := ha
    refine ⟨lock_enter h hp rfl (by omega) (by show v.r = 0; omega) hm (by show a.r = 1; omega), fun j x hj hx => other rfl hj hx, fun x hx hc => Or.inr hl⟩
  have leave : ∀ {v a : Vals} {u : State} {c : List UInt8}, semop s.sem p.adj unlock_queue = some (v, a) → p.mode.inCS = true →
      u = { s with sem := v }.upd i { p with cb := c, mode := .idle, adj := a } → Lock u ∧ (∀ (j : Nat) (q : Proc), j ≠ i → u.procs[j]? = some q → s.procs[j]? = some q) ∧
      (∀ q : Proc, u.procs[i]? = some q → q.mode.inCS = true → p.mode.inCS = true ∨ atLock p.mode = true) := by
    intro v a u c hv hn hu
    subst hu
    obtain ⟨e1, e2, e3⟩ := r_eq (by decide) hv
    rw [hn] at ha
    have hz : p.adj.r = 1 := ha
    have h0 : s.sem.r = 0 := by
      rcases h.one with ⟨h1, h2⟩ | ⟨h1, -⟩
      · rw [h2 _ _ hp] at hn; cases hn
      · exact h1
    refine ⟨lock_leave h hp hn rfl (by show v.r = 1; omega) rfl (by show a.r = 0; omega), fun j x hj hx => other rfl hj hx, fun x hx hc => Or.inl hn⟩
  obtain ⟨md, cb, aj⟩ := p
  cases md <;> simp only [adv] at e
  case idle => cases e
  case dead => cases e
  case f0 => obtain ⟨v, a, hv, rfl⟩ := doSem_eq e; exact enter hv rfl rfl rfl rfl
  case f1 =>
    split at e
    · cases e; exact bad rfl
    · split at e <;> cases e <;> exact keep rfl rfl rfl rfl
  case f2 k =>
    split at e
    · cases e
      have := store_procs (size := size) (bs := bs) s (addr bs s.end_ k) (cb.getD k 0)
      exact keep (q := ⟨.f2 (k + 1), cb, aj⟩) (by simp only [State.upd, this.1]) (by simp only [State.upd, this.2]) rfl rfl
    · cases e; exact keep rfl rfl rfl rfl
  case f4 =>
    split at e
    · cases e; exact bad rfl
    · cases e; exact keep rfl rfl rfl rfl
  case f5 =>
    split at e
    · rename_i v a hv
      cases e
      obtain ⟨e1, e2⟩ := count_r hv
      exact keep rfl e1 rfl (by rw [e2])
    · cases e; exact keep rfl rfl rfl rfl
  case f6 => obtain ⟨v, a, hv, rfl⟩ := doSem_eq e; exact leave hv rfl rfl
  case u0 =>
    obtain ⟨v, a, hv, rfl⟩ := doSem_eq e
    obtain ⟨e1, e2⟩ := count_r hv
    exact keep rfl e1 rfl (by rw [e2])
  case u1 => obtain ⟨v, a, hv, rfl⟩ := doSem_eq e; exact enter hv rfl rfl rfl rfl
  case u2 k =>
    split at e
    · split at e
      · cases e; exact keep rfl rfl rfl rfl
      · cases e; exact bad rfl
    · cases e; exact keep rfl rfl rfl rfl
  case u3 k =>
    split at e
    · cases e
      have := store_procs (size := size) (bs := bs) s (addr bs s.start k) 0
      exact keep (q := ⟨.u3 (k + 1), cb, aj⟩) (by simp only [State.upd, this.1]) (by simp only [State.upd, this.2]) rfl rfl
    · cases e; exact keep rfl rfl rfl rfl
  case u5 =>
    split at e
    · cases e; exact bad rfl
    · cases e; exact keep rfl rfl rfl rfl
  case u6 => obtain ⟨v, a, hv, rfl⟩ := doSem_eq e; exact leave hv rfl rfl

/-- The other steps, without interrupted locks. -/
theorem other_lock {s s' : State} {l : Label} (h : Lock s) (hl : ∀ i, l ≠ .adv i) (hi : ∀ i, l ≠ .intr i) (e : ShmQueue.step size bs s l = some s') :
    Lock s' ∧ (∀ (j : Nat) (q : Proc), s'.procs[j]? = some q → q.mode.inCS = true → s.procs[j]? = some q) ∧ shm s' = shm s := by
  have gen : ∀ {i : Nat} {p q : Proc} {u : State}, s.procs[i]? = some p → u.procs = s.procs.set i q → q.mode.inCS = false → Lock u → shm u = shm s →
      Lock u ∧ (∀ (j : Nat) (q : Proc), u.procs[j]? = some q → q.mode.inCS = true → s.procs[j]? = some q) ∧ shm u = shm s := by
    intro i p q u hp hu hq hl hs
    refine ⟨hl, fun j x hx hc => ?_, hs⟩
    rw [hu] at hx
    rcases get_set hp hx with ⟨rfl, rfl⟩ | ⟨_, hx⟩
    · rw [hq] at hc; cases hc
    · exact hx
  cases l with
  | adv i => exact absurd rfl (hl i)
  | intr i => exact absurd rfl (hi i)
  | flush i b =>
    simp only [ShmQueue.step] at e
    split at e
    · rename_i p hp
      split at e
      · rename_i hm
        cases e
        have hc : p.mode.inCS = false := by rw [hm.1]; rfl
        exact gen hp rfl rfl (lock_keep h hp rfl rfl (by rw [hc]; rfl) rfl) rfl
      · cases e
    · cases e
  | unflush i =>
    simp only [ShmQueue.step] at e
    split at e
    · rename_i p hp
      split at e
      · rename_i hm
        cases e
        have hc : p.mode.inCS = false := by rw [hm]; rfl
        exact gen hp rfl rfl (lock_keep h hp rfl rfl (by rw [hc]; rfl) rfl) rfl
      · cases e
    · cases e
  | timeout i =>
    simp only [ShmQueue.step] at e
    split at e
    · rename_i p hp
      split at e
      · rename_i hm
        cases e
        have hc : p.mode.inCS = false := by rw [hm]; rfl
        exact gen hp rfl rfl (lock_keep h hp rfl rfl (by rw [hc]; rfl) rfl) rfl
      · cases e
    · cases e
  | kill i =>
    simp only [ShmQueue.step] at e
    split at e
    · rename_i p hp
      split at e
      · cases e
      · cases e
        have ha := h.adj i p hp
        have hr := lock_r h
        cases hc : p.mode.inCS with
        | true =>
          rw [hc] at ha
          have h0 : s.sem.r = 0 := by
            rcases h.one with ⟨h1, h2⟩ | ⟨h1, -⟩
            · rw [h2 _ _ hp] at hc; cases hc
            · exact h1
          have ha' : p.adj.r = 1 := ha
          refine gen hp rfl rfl (lock_leave h hp hc rfl ?_ rfl rfl) rfl
          show undo1 s.sem.r p.adj.r = 1
          rw [h0, ha']; rfl
        | false =>
          rw [hc] at ha
          have ha' : p.adj.r = 0 := ha
          refine gen hp rfl rfl (lock_keep h hp rfl ?_ (by rw [hc]; rfl) (by rw [ha'])) rfl
          show undo1 s.sem.r p.adj.r = s.sem.r
          rw [ha', undo1]; rcases hr with h1 | h1 <;> rw [h1] <;> rfl
    · cases e

/-! ### The simulation -/

structure Sim (s : Sys) (t : State) : Prop where
  st : t = put s.st (shm t)
  view : ∀ j, storeAll (s.view j) (s.inc j) = shm t
  none : ∀ (j : Nat) (p : Proc), t.procs[j]? = some p → p.mode.inCS = true → s.inc j = []
  lock : Lock t

theorem send_view {s : Sys} {st : State} {i : Nat} {w : Option Wr} {T : Shm} (h : ∀ j, storeAll (s.view j) (s.inc j) = T) (hi : w ≠ none → s.inc i = []) (j : Nat) :
    storeAll (({ s with st := st }.send i w).view j) (({ s with st := st }.send i w).inc j) = applyW T w := by
  cases w with
  | none => exact h j
  | some w =>
    simp only [Sys.send]
    by_cases hj : j = i
    · subst hj
      rw [if_pos rfl, if_pos rfl]
      have := h j
      rw [hi (by simp)] at this ⊢
      rw [← this]; rfl
    · rw [if_neg hj, if_neg hj, storeAll_append, h j]; rfl

theorem storeOf_out {m : Shm} {p : Proc} (h : p.mode.inCS = false) : storeOf size bs m p = none := by
  obtain ⟨md, cb, aj⟩ := p
  cases md <;> first | rfl | cases h

theorem send_inc {s : Sys} {i j : Nat} {w : Option Wr} (h : w = none ∨ j = i) : (s.send i w).inc j = s.inc j := by
  cases w with
  | none => rfl
  | some w =>
    rcases h with h | h
    · cases h
    · simp only [Sys.send]; rw [if_pos h]

theorem send_st {s : Sys} {i : Nat} {w : Option Wr} : (s.send i w).st = s.st := by cases w <;> rfl

theorem sim_adv {s s' : Sys} {t : State} {i : Nat} (h : Sim s t) (e : step size bs s (.act (.adv i)) = some s') :
    ∃ t', ShmQueue.step size bs t (.adv i) = some t' ∧ Sim s' t' := by
  have hps : s.st.procs = t.procs := by rw [h.st]; rfl
  simp only [step] at e
  cases hp : s.st.procs[i]? with
  | none => rw [hp] at e; cases e
  | some p =>
    rw [hp] at e
    simp only at e
    split at e
    · cases e
    · rename_i hbar
      rw [Option.map_eq_some_iff] at e
      obtain ⟨u, hu, rfl⟩ := e
      have hpt : t.procs[i]? = some p := by rw [← hps]; exact hp
      have hseen : s.seen i = put t (s.view i) := by rw [h.st]; rfl
      cases hc : p.mode.inCS with
      | true =>
        have hi := h.none i p hpt hc
        have hv : s.view i = shm t := by have := h.view i; rw [hi] at this; exact this
        rw [hseen, hv, put_shm] at hu
        have hst : ShmQueue.step size bs t (.adv i) = some u := by simp only [ShmQueue.step, hpt]; exact hu
        obtain ⟨l1, l2, l3⟩ := adv_lock h.lock hpt hu
        refine ⟨u, hst, ?_, ?_, ?_, l1⟩
        · rw [send_st, put_shm]
        · intro j
          rw [send_view h.view (fun _ => hi) j, adv_store hu, hv]
        · intro j q hq hd
          by_cases hj : j = i
          · subst hj
            rw [send_inc (Or.inr rfl)]; exact hi
          · have := lock_one h.lock hpt (l2 j q hj hq) hc hd
            exact absurd this.symm hj
      | false =>
        have hw : storeOf size bs (s.view i) p = none := storeOf_out hc
        have hfr := step_put (size := size) (bs := bs) t (s.view i) (.adv i) (by intro i' e' p' hp'; cases e'; rw [hpt] at hp'; cases hp'; exact hc)
        have hpp : (put t (s.view i)).procs[i]? = some p := hpt
        have hus : ShmQueue.step size bs (put t (s.view i)) (.adv i) = some u := by simp only [ShmQueue.step, hpp]; rw [← hseen]; exact hu
        rw [hfr, Option.map_eq_some_iff] at hus
        obtain ⟨t', ht', rfl⟩ := hus
        have hta : adv size bs t i p = some t' := by simp only [ShmQueue.step, hpt] at ht'; exact ht'
        obtain ⟨l1, l2, l3⟩ := adv_lock h.lock hpt hta
        have hsame : shm t' = shm t := by rw [adv_store hta, storeOf_out hc]; rfl
        refine ⟨t', ht', ?_, ?_, ?_, l1⟩
        · rw [send_st]; rfl
        · intro j
          rw [send_view h.view (fun hn => absurd hw hn) j, hw, hsame]; rfl
        · intro j q hq hd
          rw [send_inc (Or.inl hw)]
          by_cases hj : j = i
          · subst hj
            rcases l3 q hq hd with h1 | h1
            · rw [hc] at h1; cases h1
            · exact Classical.byContradiction (fun hne => hbar ⟨h1, hne⟩)
          · exact h.none j q (l2 j q hj hq) hd

theorem sim_other {s s' : Sys} {t : State} {l : Label} (h : Sim s t) (hl : ∀ i, l ≠ .adv i) (hi : ∀ i, l ≠ .intr i) (e : step size bs s (.act l) = some s') :
    ∃ t', ShmQueue.step size bs t l = some t' ∧ Sim s' t' := by
  have e' : (ShmQueue.step size bs s.st l).map (fun st => { s with st := st }) = some s' := by
    cases l <;> first | exact e | exact absurd rfl (hl _)
  rw [Option.map_eq_some_iff] at e'
  obtain ⟨u, hu, rfl⟩ := e'
  have hfr := step_put (size := size) (bs := bs) s.st (shm t) l (by intro i e'; exact absurd e' (hl i))
  rw [← h.st, hu] at hfr
  obtain ⟨l1, l2, l3⟩ := other_lock h.lock hl hi hfr
  refine ⟨put u (shm t), hfr, ?_, ?_, ?_, l1⟩
  · rfl
  · intro j; exact h.view j
  · intro j q hq hd
    exact h.none j q (l2 j q hq hd) hd

theorem sim_arrive {s s' : Sys} {t : State} {j k : Nat} (h : Sim s t) (e : s.arrive j k = some s') : Sim s' t := by
  simp only [Sys.arrive] at e
  split at e
  · rename_i w hw
    split at e
    · rename_i hc
      cases e
      refine ⟨h.st, ?_, ?_, h.lock⟩
      · intro i
        simp only
        by_cases hi : i = j
        · subst hi
          rw [if_pos rfl, if_pos rfl, storeAll_early _ _ _ _ hw hc]; exact h.view i
        · rw [if_neg hi, if_neg hi]; exact h.view i
      · intro i p hp hd
        simp only
        by_cases hi : i = j
        · subst hi
          have := h.none i p hp hd
          rw [this] at hw
          simp at hw
        · rw [if_neg hi]; exact h.none i p hp hd
    · cases e
  · cases e

theorem sim_exec : ∀ (xs : List Act) {s s' : Sys} {t : State}, Sim s t → NoIntr xs → exec size bs s xs = some s' →
    ∃ t', ShmQueue.exec size bs t (acts xs) = some t' ∧ Sim s' t' := by
  intro xs
  induction xs with
  | nil => intro s s' t h _ e; cases e; exact ⟨t, rfl, h⟩
  | cons x xs ih =>
    intro s s' t h hn e
    simp only [exec] at e
    cases hs : step size bs s x with
    | none => rw [hs] at e; cases e
    | some s1 =>
      rw [hs] at e
      cases x with
      | arrive j k => exact ih (sim_arrive h hs) hn e
      | act l =>
        have hn' : NoIntr xs := fun i hi => hn i (List.mem_cons_of_mem _ hi)
        have : ∃ t', ShmQueue.step size bs t l = some t' ∧ Sim s1 t' := by
          by_cases hl : ∃ i, l = .adv i
          · obtain ⟨i, rfl⟩ := hl; exact sim_adv h hs
          · exact sim_other h (fun i e => hl ⟨i, e⟩) (fun i e => hn i (by rw [← e]; exact List.mem_cons_self)) hs
        obtain ⟨t1, e1, h1⟩ := this
        obtain ⟨t', e2, h2⟩ := ih h1 hn' e
        exact ⟨t', by simp only [acts, ShmQueue.exec, e1]; exact e2, h2⟩

theorem sim_init (n : Nat) : Sim (init bs n) (ShmQueue.init bs n) := by
  refine ⟨rfl, fun _ => rfl, fun _ _ _ _ => rfl, ?_, Or.inl ⟨rfl, ?_⟩⟩
  all_goals
    intro i p hp
    rw [show (ShmQueue.init bs n).procs = List.replicate n ⟨.idle, List.replicate bs 0, ⟨0, 0⟩⟩ from rfl] at hp
    rw [(List.mem_replicate.mp (List.mem_of_getElem? hp)).2]
    rfl

end Verif.QueueWeak
