import Verif.ShmQueue.Spec
import Verif.RwLock.Lemmas

set_option linter.unusedSimpArgs false
set_option linter.unusedVariables false

namespace Verif.ShmQueue

open RwLock (Vals SemBuf semop semop1 undo undo1 SEMVMX)

variable {size bs : Nat}

def units (ps : List Proc) : Nat := ps.countP (fun p => p.mode.unit)

def u1 (p : Proc) : Nat := if p.mode.unit then 1 else 0

theorem units_set {ps : List Proc} {i : Nat} {p q : Proc} (h : ps[i]? = some p) : units (ps.set i q) + u1 p = units ps + u1 q := by
  unfold units u1
  obtain ⟨hi, rfl⟩ := List.getElem?_eq_some_iff.mp h
  rw [List.countP_set hi]
  by_cases hm : ps[i].mode.unit = true
  · have : 0 < ps.countP (fun p => p.mode.unit) := List.countP_pos_iff.mpr ⟨ps[i], List.getElem_mem hi, hm⟩
    rw [if_pos hm]; omega
  · rw [if_neg hm]; omega

/-- The ring holds the accepted boxes from number `lo` on. -/
def Ring (size bs : Nat) (s : State) (lo : Nat) : Prop :=
  ∀ j, lo ≤ j → j < s.acc.length → ∀ k, k < bs → s.mem ((j % size) * bs + k) = (s.acc.getD j []).getD k 0

/-- What holds of the shared data when start and end have the values `st` and `en`. -/
structure Stb (size bs : Nat) (s : State) (st en lo : Nat) : Prop where
  start : s.start = st
  end_ : s.end_ = en
  le : s.rcv.length ≤ s.acc.length
  room : s.acc.length - s.rcv.length ≤ size - 1
  pre : s.rcv = s.acc.take s.rcv.length
  lens : ∀ b ∈ s.acc, b.length = bs
  ring : Ring size bs s lo

def Data (size bs : Nat) (s : State) : Mode → List UInt8 → Prop
  | .f2 k, cb => Stb size bs s (s.rcv.length % size) (s.acc.length % size) s.rcv.length ∧
      s.acc.length - s.rcv.length < size - 1 ∧ k ≤ bs ∧ ∀ k', k' < k → s.mem ((s.acc.length % size) * bs + k') = cb.getD k' 0
  | .f4, _ => Stb size bs s (s.rcv.length % size) ((s.acc.length - 1) % size + 1) s.rcv.length ∧ 0 < s.acc.length
  | .u2 k, cb => Stb size bs s (s.rcv.length % size) (s.acc.length % size) s.rcv.length ∧ s.rcv.length < s.acc.length ∧ k ≤ bs ∧
      ∀ k', k' < k → cb.getD k' 0 = (s.acc.getD s.rcv.length []).getD k' 0
  | .u3 k, cb => Stb size bs s (s.rcv.length % size) (s.acc.length % size) (s.rcv.length + 1) ∧ s.rcv.length < s.acc.length ∧ k ≤ bs ∧
      cb = s.acc.getD s.rcv.length [] ∧
      ∀ k', k ≤ k' → k' < bs → s.mem ((s.rcv.length % size) * bs + k') = (s.acc.getD s.rcv.length []).getD k' 0
  | .u5, _ => Stb size bs s ((s.rcv.length - 1) % size + 1) (s.acc.length % size) s.rcv.length ∧ 0 < s.rcv.length
  | _, _ => Stb size bs s (s.rcv.length % size) (s.acc.length % size) s.rcv.length

theorem Stb.congr {s s' : State} {st en lo : Nat} (h : Stb size bs s st en lo) (h1 : s'.start = s.start) (h2 : s'.end_ = s.end_)
    (h3 : s'.mem = s.mem) (h4 : s'.acc = s.acc) (h5 : s'.rcv = s.rcv) : Stb size bs s' st en lo := by
  refine ⟨by rw [h1]; exact h.start, by rw [h2]; exact h.end_, by rw [h4, h5]; exact h.le, by rw [h4, h5]; exact h.room,
    by rw [h4, h5]; exact h.pre, by rw [h4]; exact h.lens, ?_⟩
  unfold Ring
  rw [h3, h4]
  exact h.ring

theorem Data.congr {s s' : State} {m : Mode} {cb : List UInt8} (h : Data size bs s m cb) (h1 : s'.start = s.start) (h2 : s'.end_ = s.end_)
    (h3 : s'.mem = s.mem) (h4 : s'.acc = s.acc) (h5 : s'.rcv = s.rcv) : Data size bs s' m cb := by
  cases m <;> simp only [Data, h3, h4, h5] at h ⊢
  all_goals first
    | exact h.congr h1 h2 h3 h4 h5
    | exact ⟨h.1.congr h1 h2 h3 h4 h5, h.2⟩

structure Inv (size bs : Nat) (s : State) : Prop where
  ub : s.ub = false
  len : ∀ p ∈ s.procs, p.cb.length = bs
  adj : ∀ p ∈ s.procs, p.adj = if p.mode.inCS then ⟨1, 0⟩ else ⟨0, 0⟩
  pos : 0 ≤ s.sem.w
  cnt : s.sem.w + (units s.procs : Nat) + (s.lost : Nat) + (s.rcv.length : Nat) = (s.acc.length : Nat)
  lock : (s.sem.r = 1 ∧ (∀ p ∈ s.procs, p.mode.inCS = false) ∧ Data size bs s .idle []) ∨
    (s.sem.r = 0 ∧ ∃ (i : Nat) (p : Proc), s.procs[i]? = some p ∧ p.mode.inCS = true ∧ (∀ (j : Nat) (q : Proc), j ≠ i → s.procs[j]? = some q → q.mode.inCS = false) ∧
      Data size bs s p.mode p.cb)

theorem mem_set {α} {ps : List α} {i : Nat} {q x : α} (h : x ∈ ps.set i q) : x ∈ ps ∨ x = q := List.mem_or_eq_of_mem_set h

theorem held {s : State} (h : Inv size bs s) {i : Nat} {p : Proc} (hp : s.procs[i]? = some p) (hc : p.mode.inCS = true) :
    s.sem.r = 0 ∧ (∀ (j : Nat) (q : Proc), j ≠ i → s.procs[j]? = some q → q.mode.inCS = false) ∧ Data size bs s p.mode p.cb := by
  rcases h.lock with ⟨_, h2, _⟩ | ⟨h1, j, q, hq, hqc, ho, hd⟩
  · have := h2 p (List.mem_of_getElem? hp); rw [hc] at this; simp at this
  · by_cases hij : i = j
    · subst hij
      rw [hp] at hq
      simp only [Option.some.injEq] at hq
      subst hq
      exact ⟨h1, ho, hd⟩
    · have := ho i p hij hp
      rw [hc] at this; simp at this

/-- a process outside stays outside -/
theorem inv_local {s : State} (h : Inv size bs s) {i : Nat} {p q : Proc} (hp : s.procs[i]? = some p) (hc : p.mode.inCS = false)
    (hq : q.mode.inCS = false) (hl : q.cb.length = bs) (ha : q.adj = ⟨0, 0⟩) (v : Vals) (lost' : Nat) (hr : v.r = s.sem.r) (hw : 0 ≤ v.w)
    (hcnt : v.w + (u1 q : Nat) + (lost' : Nat) = s.sem.w + (u1 p : Nat) + (s.lost : Nat)) :
    Inv size bs ({ s with sem := v, lost := lost' }.upd i q) := by
  have hu := units_set (q := q) hp
  refine ⟨h.ub, ?_, ?_, hw, ?_, ?_⟩
  · intro x hx
    rcases mem_set hx with hx | rfl
    · exact h.len x hx
    · exact hl
  · intro x hx
    rcases mem_set hx with hx | rfl
    · exact h.adj x hx
    · rw [ha, if_neg (by rw [hq]; simp)]
  · have := h.cnt
    show v.w + (units (s.procs.set i q) : Nat) + (lost' : Nat) + (s.rcv.length : Nat) = (s.acc.length : Nat)
    omega
  · rcases h.lock with ⟨h1, h2, h3⟩ | ⟨h1, j, y, hy, hyc, ho, hd⟩
    · left
      refine ⟨by show v.r = 1; omega, ?_, h3.congr rfl rfl rfl rfl rfl⟩
      intro x hx
      rcases mem_set hx with hx | rfl
      · exact h2 x hx
      · exact hq
    · right
      refine ⟨by show v.r = 0; omega, j, y, ?_, hyc, ?_, hd.congr rfl rfl rfl rfl rfl⟩
      · show (s.procs.set i q)[j]? = some y
        rw [List.getElem?_set, if_neg]
        · exact hy
        · rintro rfl
          rw [hp] at hy
          simp only [Option.some.injEq] at hy
          subst hy
          rw [hc] at hyc; simp at hyc
      · intro k z hk hz
        have hz' : (s.procs.set i q)[k]? = some z := hz
        rw [List.getElem?_set] at hz'
        split at hz'
        · split at hz'
          · simp only [Option.some.injEq] at hz'; subst hz'; exact hq
          · simp at hz'
        · exact ho k z hk hz'

/-- after the change process `i` is the one inside -/
theorem inv_inside {s s' : State} {i : Nat} {p q : Proc} (h : Inv size bs s) (hp : s.procs[i]? = some p)
    (hout : ∀ (j : Nat) (r : Proc), j ≠ i → s.procs[j]? = some r → r.mode.inCS = false)
    (hq : q.mode.inCS = true) (hl : q.cb.length = bs) (ha : q.adj = ⟨1, 0⟩) (hpr : s'.procs = s.procs) (hub : s'.ub = false)
    (hr : s'.sem.r = 0) (hw : 0 ≤ s'.sem.w)
    (hcnt : s'.sem.w + (u1 q : Nat) + (s'.lost : Nat) + (s'.rcv.length : Nat) + (s.acc.length : Nat) =
      s.sem.w + (u1 p : Nat) + (s.lost : Nat) + (s.rcv.length : Nat) + (s'.acc.length : Nat))
    (hd : Data size bs s' q.mode q.cb) : Inv size bs (s'.upd i q) := by
  have hu := units_set (q := q) hp
  refine ⟨hub, ?_, ?_, hw, ?_, ?_⟩
  · intro x hx
    have hx' : x ∈ s.procs.set i q := by rw [← hpr]; exact hx
    rcases mem_set hx' with hx | rfl
    · exact h.len x hx
    · exact hl
  · intro x hx
    have hx' : x ∈ s.procs.set i q := by rw [← hpr]; exact hx
    rcases mem_set hx' with hx | rfl
    · exact h.adj x hx
    · rw [ha, if_pos hq]
  · have := h.cnt
    show s'.sem.w + (units (s'.procs.set i q) : Nat) + (s'.lost : Nat) + (s'.rcv.length : Nat) = (s'.acc.length : Nat)
    rw [hpr]
    omega
  · right
    have hi : i < s.procs.length := (List.getElem?_eq_some_iff.mp hp).1
    refine ⟨hr, i, q, ?_, hq, ?_, hd.congr rfl rfl rfl rfl rfl⟩
    · show (s'.procs.set i q)[i]? = some q
      rw [hpr]; simp [hi]
    · intro k z hk hz
      have hz' : (s'.procs.set i q)[k]? = some z := hz
      rw [hpr, List.getElem?_set, if_neg (fun hh => hk hh.symm)] at hz'
      exact hout k z hk hz'

/-- process `i` leaves -/
theorem inv_leave {s : State} {i : Nat} {p q : Proc} (h : Inv size bs s) (hp : s.procs[i]? = some p)
    (hout : ∀ (j : Nat) (r : Proc), j ≠ i → s.procs[j]? = some r → r.mode.inCS = false)
    (hq : q.mode.inCS = false) (hl : q.cb.length = bs) (ha : q.adj = ⟨0, 0⟩) (v : Vals) (lost' : Nat) (hr : v.r = 1) (hw : 0 ≤ v.w)
    (hcnt : v.w + (u1 q : Nat) + (lost' : Nat) = s.sem.w + (u1 p : Nat) + (s.lost : Nat)) (hd : Data size bs s .idle []) :
    Inv size bs ({ s with sem := v, lost := lost' }.upd i q) := by
  have hu := units_set (q := q) hp
  refine ⟨h.ub, ?_, ?_, hw, ?_, ?_⟩
  · intro x hx
    rcases mem_set hx with hx | rfl
    · exact h.len x hx
    · exact hl
  · intro x hx
    rcases mem_set hx with hx | rfl
    · exact h.adj x hx
    · rw [ha, if_neg (by rw [hq]; simp)]
  · have := h.cnt
    show v.w + (units (s.procs.set i q) : Nat) + (lost' : Nat) + (s.rcv.length : Nat) = (s.acc.length : Nat)
    omega
  · left
    refine ⟨hr, ?_, hd.congr rfl rfl rfl rfl rfl⟩
    intro x hx
    obtain ⟨k, hk⟩ := List.getElem?_of_mem hx
    have hk' : (s.procs.set i q)[k]? = some x := hk
    rw [List.getElem?_set] at hk'
    split at hk'
    · split at hk'
      · simp only [Option.some.injEq] at hk'; subst hk'; exact hq
      · simp at hk'
    · rename_i hik
      exact hout k x (fun hh => hik hh.symm) hk'

/-! ### semaphores -/

theorem sem_lock {v v' adj adj' : Vals} (h : semop v adj lock_queue = some (v', adj')) :
    1 ≤ v.r ∧ v' = ⟨v.r - 1, v.w⟩ ∧ adj' = ⟨adj.r + 1, adj.w⟩ := by
  by_cases hb : 0 ≤ v.r + -1 ∧ v.r + -1 ≤ SEMVMX
  · simp only [lock_queue, semop, Vals.get, RwLock.semop1_ok (by decide) hb, Vals.set, if_true, Option.some.injEq, Prod.mk.injEq] at h
    obtain ⟨rfl, rfl⟩ := h
    refine ⟨by omega, by congr 1, ?_⟩
    congr 1
  · simp only [lock_queue, semop, Vals.get, RwLock.semop1_no (by decide) hb] at h
    simp at h

theorem sem_unlock {v adj : Vals} (h : v.r = 0) : semop v adj unlock_queue = some (⟨1, v.w⟩, ⟨adj.r - 1, adj.w⟩) := by
  have : semop1 0 1 = some 1 := rfl
  simp only [unlock_queue, semop, Vals.get, h, this, Vals.set, if_true]

theorem sem_down {v v' adj adj' : Vals} (h : semop v adj count_down = some (v', adj')) :
    1 ≤ v.w ∧ v' = ⟨v.r, v.w - 1⟩ ∧ adj' = adj := by
  by_cases hb : 0 ≤ v.w + -1 ∧ v.w + -1 ≤ SEMVMX
  · simp only [count_down, semop, Vals.get, RwLock.semop1_ok (by decide) hb, Vals.set, Bool.false_eq_true, if_false, Option.some.injEq,
      Prod.mk.injEq] at h
    obtain ⟨rfl, rfl⟩ := h
    exact ⟨by omega, by congr 1, rfl⟩
  · simp only [count_down, semop, Vals.get, RwLock.semop1_no (by decide) hb] at h
    simp at h

theorem sem_up_ok {v adj : Vals} (h : 0 ≤ v.w + 1 ∧ v.w + 1 ≤ SEMVMX) : semop v adj count_up = some (⟨v.r, v.w + 1⟩, adj) := by
  simp only [count_up, semop, Vals.get, RwLock.semop1_ok (by decide) h, Vals.set, Bool.false_eq_true, if_false]

theorem sem_up_no {v adj : Vals} (h : ¬ (0 ≤ v.w + 1 ∧ v.w + 1 ≤ SEMVMX)) : semop v adj count_up = none := by
  simp only [count_up, semop, Vals.get, RwLock.semop1_no (by decide) h]

/-! ### arithmetic of the ring -/

theorem mod_succ {a n : Nat} (hn : 0 < n) : (a % n + 1) % n = (a + 1) % n := by
  rw [Nat.add_mod, Nat.mod_mod, ← Nat.add_mod]

theorem mod_inj {a b n : Nat} (h : a ≤ b) (hd : b - a < n) (he : a % n = b % n) : a = b := by
  have h1 := Nat.div_add_mod a n
  have h2 := Nat.div_add_mod b n
  by_cases hq : a / n = b / n
  · rw [hq] at h1; omega
  · have : a / n < b / n := by
      have := Nat.div_le_div_right (c := n) h
      omega
    have h3 : n * (a / n + 1) ≤ n * (b / n) := Nat.mul_le_mul_left n this
    rw [Nat.mul_add] at h3
    omega

theorem addr_inj {bs x y k l : Nat} (hk : k < bs) (hl : l < bs) (h : x * bs + k = y * bs + l) : x = y ∧ k = l := by
  have h1 : x = y := by
    have e1 : (x * bs + k) / bs = x := by
      rw [Nat.mul_comm, Nat.mul_add_div (by omega), Nat.div_eq_of_lt hk]; omega
    have e2 : (y * bs + l) / bs = y := by
      rw [Nat.mul_comm, Nat.mul_add_div (by omega), Nat.div_eq_of_lt hl]; omega
    rw [← e1, ← e2, h]
  subst h1
  exact ⟨rfl, by omega⟩

theorem addr_eq {x k : Nat} (hx : x < size) (hk : k < bs) (hs : size * bs < 2 ^ 32) : addr bs x k = x * bs + k ∧ x * bs + k < size * bs := by
  have h1 : (x + 1) * bs ≤ size * bs := Nat.mul_le_mul_right bs hx
  rw [Nat.add_mul] at h1
  unfold addr
  rw [Nat.mod_eq_of_lt (by omega)]
  omega

/-! ### the invariant is kept -/

theorem units_pos {ps : List Proc} {i : Nat} {p : Proc} (h : ps[i]? = some p) (hu : p.mode.unit = true) : 1 ≤ units ps :=
  List.countP_pos_iff.mpr ⟨p, List.mem_of_getElem? h, hu⟩

/-- May the process be killed here without harm to the data? -/
def Mode.killSafe (size : Nat) (s : State) : Mode → Prop
  | .f4 => s.end_ < size
  | .u5 => s.start < size
  | .u3 k => k = 0
  | _ => True

def okLabel (size : Nat) (s : State) : Label → Prop
  | .intr _ => False
  | .kill i => ∀ p, s.procs[i]? = some p → p.mode.killSafe size s
  | _ => True

theorem full_iff {r a : Nat} (h1 : 1 ≤ size) (hz : size < 2 ^ 32) (hle : r ≤ a) (hroom : a - r ≤ size - 1) :
    ((a % size + 1) % 2 ^ 32) % size = r % size ↔ a - r = size - 1 := by
  have hm : a % size < size := Nat.mod_lt _ h1
  rw [Nat.mod_eq_of_lt (by omega : a % size + 1 < 2 ^ 32), mod_succ h1]
  constructor
  · intro h
    by_cases hh : a + 1 - r < size
    · have := mod_inj (by omega : r ≤ a + 1) hh h.symm
      omega
    · omega
  · intro h
    have : a + 1 = r + size := by omega
    rw [this, Nat.add_mod_right]

theorem ring_store {s : State} {x k lo : Nat} {v : UInt8} (h : Ring size bs s lo) (hk : k < bs)
    (hx : ∀ j, lo ≤ j → j < s.acc.length → j % size ≠ x) :
    Ring size bs { s with mem := fun y => if y = x * bs + k then v else s.mem y } lo := by
  intro j h1 h2 l hl
  show (if j % size * bs + l = x * bs + k then v else s.mem (j % size * bs + l)) = _
  rw [if_neg]
  · exact h j h1 h2 l hl
  · intro he
    exact hx j h1 h2 (addr_inj hl hk he).1

theorem store_ok {s : State} {a : Nat} {v : UInt8} (h : a < size * bs) :
    s.store size bs a v = { s with mem := fun x => if x = a then v else s.mem x } := by
  unfold State.store; rw [if_pos h]

theorem inv_adv {s s' : State} {i : Nat} {p : Proc} (h1 : 1 ≤ size) (hz : size < 2 ^ 32) (hs : size * bs < 2 ^ 32)
    (h : Inv size bs s) (hp : s.procs[i]? = some p) (he : adv size bs s i p = some s') : Inv size bs s' := by
  have hmem := List.mem_of_getElem? hp
  have hlen := h.len p hmem
  have hadj := h.adj p hmem
  obtain ⟨m, cb, aj⟩ := p
  have hn0 : size ≠ 0 := by omega
  cases m with
  | idle => simp [adv] at he
  | dead => simp [adv] at he
  | f0 =>
    simp only [adv, State.doSem] at he
    cases hsem : semop s.sem aj lock_queue with
    | none => rw [hsem] at he; simp at he
    | some q =>
      obtain ⟨v, a⟩ := q
      rw [hsem] at he
      simp only [Option.some.injEq] at he
      obtain ⟨e1, rfl, rfl⟩ := sem_lock hsem
      simp only [Mode.inCS, Bool.false_eq_true, if_false] at hadj
      subst hadj
      rcases h.lock with ⟨hr, ho, hd⟩ | ⟨hr, _⟩
      · rw [← he]
        refine inv_inside h hp (fun j q _ hq => ho q (List.mem_of_getElem? hq)) rfl hlen (by simp) rfl h.ub (by simp [hr]) h.pos ?_ (hd.congr rfl rfl rfl rfl rfl)
        simp [u1, Mode.unit]
      · omega
  | f1 =>
    obtain ⟨hr, ho, hd⟩ := held h hp rfl
    simp only [Mode.inCS, if_true] at hadj
    subst hadj
    have hd' : Stb size bs s (s.rcv.length % size) (s.acc.length % size) s.rcv.length := hd
    simp only [adv] at he
    rw [if_neg hn0, hd'.end_, hd'.start] at he
    by_cases hc : ((s.acc.length % size + 1) % 2 ^ 32) % size ≠ s.rcv.length % size
    · rw [if_pos hc] at he
      simp only [Option.some.injEq] at he
      rw [← he]
      refine inv_inside h hp ho rfl hlen rfl rfl h.ub hr h.pos ?_ ?_
      · simp [u1, Mode.unit]
      · refine ⟨hd', ?_, Nat.zero_le _, fun k hk => absurd hk (Nat.not_lt_zero _)⟩
        have := mt (full_iff h1 hz hd'.le hd'.room).mpr hc
        have := hd'.room
        omega
    · rw [if_neg hc] at he
      simp only [Option.some.injEq] at he
      rw [← he]
      refine inv_inside h hp ho rfl hlen rfl rfl h.ub hr h.pos ?_ hd'
      simp [u1, Mode.unit]
  | f2 k =>
    obtain ⟨hr, ho, hd, hroom, hk, hb⟩ := held h hp rfl
    simp only [Mode.inCS, if_true] at hadj
    subst hadj
    have hm : s.acc.length % size < size := Nat.mod_lt _ h1
    have hle := hd.le
    simp only [adv] at he
    by_cases hc : k < bs
    · rw [if_pos hc, hd.end_] at he
      obtain ⟨ea, el⟩ := addr_eq hm hc hs
      rw [ea, store_ok el] at he
      simp only [Option.some.injEq] at he
      rw [← he]
      refine inv_inside h hp ho rfl hlen rfl rfl h.ub hr h.pos ?_ ?_
      · simp [u1, Mode.unit]
      · refine ⟨⟨hd.start, hd.end_, hd.le, hd.room, hd.pre, hd.lens, ring_store hd.ring hc ?_⟩, hroom, hc, ?_⟩
        · intro j hj1 hj2 hj3
          have hj1' : s.rcv.length ≤ j := hj1
          have hj2' : j < s.acc.length := hj2
          have := mod_inj (by omega) (by omega) hj3
          omega
        · intro k' hk'
          show (if s.acc.length % size * bs + k' = s.acc.length % size * bs + k then _ else _) = _
          by_cases hkk : k' = k
          · subst hkk; rw [if_pos rfl]
          · rw [if_neg (by omega)]
            exact hb k' (by omega)
    · rw [if_neg hc, hd.end_] at he
      simp only [Option.some.injEq] at he
      rw [← he]
      refine inv_inside h hp ho rfl hlen rfl rfl h.ub hr h.pos ?_ ?_
      · simp [u1, Mode.unit]; omega
      · have hal : (s.acc ++ [cb]).length = s.acc.length + 1 := by simp
        refine ⟨⟨hd.start, ?_, ?_, ?_, ?_, ?_, ?_⟩, ?_⟩
        · show (s.acc.length % size + 1) % 2 ^ 32 = ((s.acc ++ [cb]).length - 1) % size + 1
          rw [Nat.mod_eq_of_lt (by omega), hal]
          rfl
        · show s.rcv.length ≤ (s.acc ++ [cb]).length
          omega
        · show (s.acc ++ [cb]).length - s.rcv.length ≤ size - 1
          omega
        · show s.rcv = (s.acc ++ [cb]).take s.rcv.length
          rw [List.take_append_of_le_length hle]
          exact hd.pre
        · intro b hb'
          rcases List.mem_append.mp hb' with hb' | hb'
          · exact hd.lens b hb'
          · rw [List.mem_singleton] at hb'; rw [hb']; exact hlen
        · intro j hj1 hj2 l hl
          have hj2' : j < (s.acc ++ [cb]).length := hj2
          show s.mem (j % size * bs + l) = ((s.acc ++ [cb]).getD j []).getD l 0
          by_cases hj : j < s.acc.length
          · rw [show (s.acc ++ [cb]).getD j [] = s.acc.getD j [] by simp [List.getD_eq_getElem?_getD, List.getElem?_append_left hj]]
            exact hd.ring j hj1 hj l hl
          · have hj' : j = s.acc.length := by omega
            subst hj'
            rw [show (s.acc ++ [cb]).getD s.acc.length [] = cb by simp]
            exact hb l (by omega)
        · show 0 < (s.acc ++ [cb]).length
          omega
  | f4 =>
    obtain ⟨hr, ho, hd, hpos⟩ := held h hp rfl
    simp only [Mode.inCS, if_true] at hadj
    subst hadj
    simp only [adv] at he
    rw [if_neg hn0] at he
    simp only [Option.some.injEq] at he
    rw [← he]
    refine inv_inside h hp ho rfl hlen rfl rfl h.ub hr h.pos ?_ ?_
    · simp [u1, Mode.unit]
    · refine ⟨hd.start, ?_, hd.le, hd.room, hd.pre, hd.lens, hd.ring⟩
      show s.end_ % size = s.acc.length % size
      rw [hd.end_, mod_succ h1]
      congr 1; omega
  | f5 =>
    obtain ⟨hr, ho, hd⟩ := held h hp rfl
    have hd' : Stb size bs s (s.rcv.length % size) (s.acc.length % size) s.rcv.length := hd
    simp only [Mode.inCS, if_true] at hadj
    subst hadj
    simp only [adv] at he
    have := h.pos
    by_cases hc : 0 ≤ s.sem.w + 1 ∧ s.sem.w + 1 ≤ SEMVMX
    · rw [sem_up_ok hc] at he
      simp only [Option.some.injEq] at he
      rw [← he]
      refine inv_inside h hp ho rfl hlen rfl rfl h.ub hr (by show 0 ≤ s.sem.w + 1; omega) ?_ (hd'.congr rfl rfl rfl rfl rfl)
      simp [u1, Mode.unit]
    · rw [sem_up_no hc] at he
      simp only [Option.some.injEq] at he
      rw [← he]
      refine inv_inside h hp ho rfl hlen rfl rfl h.ub hr h.pos ?_ (hd'.congr rfl rfl rfl rfl rfl)
      simp [u1, Mode.unit]
      omega
  | f6 =>
    obtain ⟨hr, ho, hd⟩ := held h hp rfl
    simp only [Mode.inCS, if_true] at hadj
    subst hadj
    simp only [adv, State.doSem, sem_unlock hr, Option.some.injEq] at he
    rw [← he]
    refine inv_leave h hp ho rfl (by simp) (by simp) _ s.lost rfl h.pos ?_ hd
    simp [u1, Mode.unit]
  | u0 =>
    simp only [adv, State.doSem] at he
    cases hsem : semop s.sem aj count_down with
    | none => rw [hsem] at he; simp at he
    | some q =>
      obtain ⟨v, a⟩ := q
      rw [hsem] at he
      simp only [Option.some.injEq] at he
      obtain ⟨e1, rfl, rfl⟩ := sem_down hsem
      rw [← he]
      refine inv_local (q := ⟨.u1, cb, a⟩) h hp rfl rfl hlen ?_ ⟨s.sem.r, s.sem.w - 1⟩ s.lost rfl ?_ ?_
      · simpa [Mode.inCS] using hadj
      · show 0 ≤ s.sem.w - 1; omega
      · simp [u1, Mode.unit]
  | u1 =>
    simp only [adv, State.doSem] at he
    cases hsem : semop s.sem aj lock_queue with
    | none => rw [hsem] at he; simp at he
    | some q =>
      obtain ⟨v, a⟩ := q
      rw [hsem] at he
      simp only [Option.some.injEq] at he
      obtain ⟨e1, rfl, rfl⟩ := sem_lock hsem
      simp only [Mode.inCS, Bool.false_eq_true, if_false] at hadj
      subst hadj
      rcases h.lock with ⟨hr, ho, hd⟩ | ⟨hr, _⟩
      · rw [← he]
        refine inv_inside h hp (fun j q _ hq => ho q (List.mem_of_getElem? hq)) rfl hlen (by simp) rfl h.ub (by simp [hr]) h.pos ?_ ?_
        · simp [u1, Mode.unit]
        · have hu := units_pos hp rfl
          have := h.cnt
          have := h.pos
          refine ⟨Stb.congr hd rfl rfl rfl rfl rfl, ?_, Nat.zero_le _, fun k hk => absurd hk (Nat.not_lt_zero _)⟩
          show s.rcv.length < s.acc.length
          omega
      · omega
  | u2 k =>
    obtain ⟨hr, ho, hd, hlt, hk, hb⟩ := held h hp rfl
    simp only [Mode.inCS, if_true] at hadj
    subst hadj
    have hm : s.rcv.length % size < size := Nat.mod_lt _ h1
    simp only [adv] at he
    by_cases hc : k < bs
    · obtain ⟨ea, el⟩ := addr_eq hm hc hs
      rw [if_pos hc, hd.start, ea, if_pos el] at he
      simp only [Option.some.injEq] at he
      rw [← he]
      refine inv_inside h hp ho rfl (by simpa using hlen) rfl rfl h.ub hr h.pos ?_ ?_
      · simp [u1, Mode.unit]
      · refine ⟨hd, hlt, hc, ?_⟩
        intro k' hk'
        have hcl : k < cb.length := by rw [show cb.length = bs from hlen]; exact hc
        show (cb.set k (s.mem (s.rcv.length % size * bs + k))).getD k' 0 = _
        by_cases hkk : k' = k
        · subst hkk
          rw [← hd.ring s.rcv.length (Nat.le_refl _) hlt k' hc]
          simp [List.getD_eq_getElem?_getD, hcl]
        · rw [← hb k' (by omega)]
          simp [List.getD_eq_getElem?_getD, List.getElem?_set, Ne.symm hkk]
    · rw [if_neg hc] at he
      simp only [Option.some.injEq] at he
      rw [← he]
      refine inv_inside h hp ho rfl hlen rfl rfl h.ub hr h.pos ?_ ?_
      · simp [u1, Mode.unit]
      · refine ⟨⟨hd.start, hd.end_, hd.le, hd.room, hd.pre, hd.lens, fun j hj => hd.ring j (by omega)⟩, hlt, Nat.zero_le _, ?_, ?_⟩
        · have hg : s.acc.getD s.rcv.length [] = s.acc[s.rcv.length] := by simp [List.getD_eq_getElem?_getD, hlt]
          have hal : (s.acc.getD s.rcv.length []).length = bs := by
            rw [hg]; exact hd.lens _ (List.getElem_mem hlt)
          have hcl : cb.length = bs := hlen
          apply List.ext_getElem
          · rw [hal]; exact hlen
          · intro n h2 h3
            have := hb n (by omega)
            rw [List.getD_eq_getElem?_getD, List.getElem?_eq_getElem h2, List.getD_eq_getElem?_getD (l := s.acc.getD s.rcv.length []),
              List.getElem?_eq_getElem h3] at this
            exact this
        · intro k' _ hk'
          exact hd.ring s.rcv.length (Nat.le_refl _) hlt k' hk'
  | u3 k =>
    obtain ⟨hr, ho, hd, hlt, hk, hcb, hrest⟩ := held h hp rfl
    simp only [Mode.inCS, if_true] at hadj
    subst hadj
    have hm : s.rcv.length % size < size := Nat.mod_lt _ h1
    have hroom := hd.room
    simp only [adv] at he
    by_cases hc : k < bs
    · rw [if_pos hc, hd.start] at he
      obtain ⟨ea, el⟩ := addr_eq hm hc hs
      rw [ea, store_ok el] at he
      simp only [Option.some.injEq] at he
      rw [← he]
      refine inv_inside h hp ho rfl hlen rfl rfl h.ub hr h.pos ?_ ?_
      · simp [u1, Mode.unit]
      · refine ⟨⟨hd.start, hd.end_, hd.le, hd.room, hd.pre, hd.lens, ring_store hd.ring hc ?_⟩, hlt, hc, hcb, ?_⟩
        · intro j hj1 hj2 hj3
          have hj1' : s.rcv.length + 1 ≤ j := hj1
          have hj2' : j < s.acc.length := hj2
          have := mod_inj (by omega) (by omega) hj3.symm
          omega
        · intro k' hk1 hk2
          show (if s.rcv.length % size * bs + k' = s.rcv.length % size * bs + k then _ else _) = _
          rw [if_neg (by omega)]
          exact hrest k' (by omega) hk2
    · rw [if_neg hc, hd.start] at he
      simp only [Option.some.injEq] at he
      rw [← he]
      have hrl : (s.rcv ++ [cb]).length = s.rcv.length + 1 := by simp
      refine inv_inside h hp ho rfl hlen rfl rfl h.ub hr h.pos ?_ ?_
      · simp [u1, Mode.unit]; omega
      · refine ⟨⟨?_, hd.end_, ?_, ?_, ?_, hd.lens, ?_⟩, ?_⟩
        · show (s.rcv.length % size + 1) % 2 ^ 32 = ((s.rcv ++ [cb]).length - 1) % size + 1
          rw [Nat.mod_eq_of_lt (by omega), hrl]
          rfl
        · show (s.rcv ++ [cb]).length ≤ s.acc.length
          omega
        · show s.acc.length - (s.rcv ++ [cb]).length ≤ size - 1
          omega
        · show s.rcv ++ [cb] = s.acc.take (s.rcv ++ [cb]).length
          have hcb' : cb = s.acc[s.rcv.length] := by
            have : cb = s.acc.getD s.rcv.length [] := hcb
            rw [this]; simp [List.getD_eq_getElem?_getD, hlt]
          rw [hrl, ← List.take_append_getElem hlt, ← hd.pre, ← hcb']
        · rw [show ({ s with start := (s.rcv.length % size + 1) % 2 ^ 32, rcv := s.rcv ++ [cb] } : State).rcv.length = s.rcv.length + 1 from hrl]
          exact hd.ring
        · show 0 < (s.rcv ++ [cb]).length
          omega
  | u5 =>
    obtain ⟨hr, ho, hd, hpos⟩ := held h hp rfl
    simp only [Mode.inCS, if_true] at hadj
    subst hadj
    simp only [adv] at he
    rw [if_neg hn0] at he
    simp only [Option.some.injEq] at he
    rw [← he]
    refine inv_inside h hp ho rfl hlen rfl rfl h.ub hr h.pos ?_ ?_
    · simp [u1, Mode.unit]
    · refine ⟨?_, hd.end_, hd.le, hd.room, hd.pre, hd.lens, hd.ring⟩
      show s.start % size = s.rcv.length % size
      rw [hd.start, mod_succ h1]
      congr 1; omega
  | u6 =>
    obtain ⟨hr, ho, hd⟩ := held h hp rfl
    simp only [Mode.inCS, if_true] at hadj
    subst hadj
    simp only [adv, State.doSem, sem_unlock hr, Option.some.injEq] at he
    rw [← he]
    refine inv_leave (q := ⟨.idle, cb, ⟨1 - 1, 0⟩⟩) h hp ho rfl hlen (by simp) ⟨1, s.sem.w⟩ s.lost rfl h.pos ?_ hd
    simp [u1, Mode.unit]

/-- A killed process leaves the data of the idle state behind. -/
theorem data_kill {s : State} {m : Mode} {cb : List UInt8} (h1 : 1 ≤ size) (hc : m.inCS = true) (hk : m.killSafe size s)
    (hd : Data size bs s m cb) : Data size bs s .idle [] := by
  cases m with
  | f1 => exact hd
  | f2 k => exact hd.1
  | f4 =>
    obtain ⟨hd, hpos⟩ := hd
    have hk' : s.end_ < size := hk
    refine ⟨hd.start, ?_, hd.le, hd.room, hd.pre, hd.lens, hd.ring⟩
    rw [← Nat.mod_eq_of_lt hk', hd.end_, mod_succ h1]
    congr 1; omega
  | f5 => exact hd
  | f6 => exact hd
  | u2 k => exact hd.1
  | u3 k =>
    obtain ⟨hd, hlt, _, _, hrest⟩ := hd
    have hk' : k = 0 := hk
    subst hk'
    refine ⟨hd.start, hd.end_, hd.le, hd.room, hd.pre, hd.lens, ?_⟩
    intro j hj1 hj2 l hl
    by_cases hj : j = s.rcv.length
    · subst hj; exact hrest l (Nat.zero_le _) hl
    · exact hd.ring j (by omega) hj2 l hl
  | u5 =>
    obtain ⟨hd, hpos⟩ := hd
    have hk' : s.start < size := hk
    refine ⟨?_, hd.end_, hd.le, hd.room, hd.pre, hd.lens, hd.ring⟩
    rw [← Nat.mod_eq_of_lt hk', hd.start, mod_succ h1]
    congr 1; omega
  | u6 => exact hd
  | _ => simp [Mode.inCS] at hc

theorem inv_step {s s' : State} {l : Label} (h1 : 1 ≤ size) (hz : size < 2 ^ 32) (hs : size * bs < 2 ^ 32) (h : Inv size bs s)
    (hl : okLabel size s l) (he : step size bs s l = some s') : Inv size bs s' := by
  cases l with
  | flush i b =>
    simp only [step] at he
    cases hp : s.procs[i]? with
    | none => simp [hp] at he
    | some p =>
      simp only [hp] at he
      split at he
      · rename_i hc
        simp only [Option.some.injEq] at he
        rw [← he]
        have hadj := h.adj p (List.mem_of_getElem? hp)
        rw [hc.1] at hadj
        exact inv_local h hp (by rw [hc.1]; rfl) rfl hc.2 (by simpa [Mode.inCS] using hadj) s.sem s.lost rfl h.pos (by simp [u1, Mode.unit, hc.1])
      · simp at he
  | unflush i =>
    simp only [step] at he
    cases hp : s.procs[i]? with
    | none => simp [hp] at he
    | some p =>
      simp only [hp] at he
      split at he
      · rename_i hc
        simp only [Option.some.injEq] at he
        rw [← he]
        have hadj := h.adj p (List.mem_of_getElem? hp)
        rw [hc] at hadj
        exact inv_local (q := { p with mode := .u0 }) h hp (by rw [hc]; rfl) rfl (h.len p (List.mem_of_getElem? hp)) (by simpa [Mode.inCS] using hadj) s.sem s.lost rfl h.pos (by simp [u1, Mode.unit, hc])
      · simp at he
  | timeout i =>
    simp only [step] at he
    cases hp : s.procs[i]? with
    | none => simp [hp] at he
    | some p =>
      simp only [hp] at he
      split at he
      · rename_i hc
        simp only [Option.some.injEq] at he
        rw [← he]
        have hadj := h.adj p (List.mem_of_getElem? hp)
        rw [hc] at hadj
        exact inv_local (q := { p with mode := .idle }) h hp (by rw [hc]; rfl) rfl (h.len p (List.mem_of_getElem? hp)) (by simpa [Mode.inCS] using hadj) s.sem s.lost rfl h.pos (by simp [u1, Mode.unit, hc])
      · simp at he
  | adv i =>
    simp only [step] at he
    cases hp : s.procs[i]? with
    | none => simp [hp] at he
    | some p =>
      simp only [hp] at he
      exact inv_adv h1 hz hs h hp he
  | intr i => exact absurd hl (by simp [okLabel])
  | kill i =>
    simp only [step] at he
    cases hp : s.procs[i]? with
    | none => simp [hp] at he
    | some p =>
      simp only [hp] at he
      split at he
      · simp at he
      · simp only [Option.some.injEq] at he
        rw [← he]
        have hadj := h.adj p (List.mem_of_getElem? hp)
        have hlen := h.len p (List.mem_of_getElem? hp)
        have hpos := h.pos
        have hcnt : s.sem.w + (u1 { p with mode := .dead, adj := ⟨0, 0⟩ } : Nat) + ((s.lost + (if p.mode.unit = true then 1 else 0) : Nat) : Int) =
            s.sem.w + (u1 p : Nat) + (s.lost : Nat) := by
          have : u1 { p with mode := .dead, adj := ⟨0, 0⟩ } = 0 := rfl
          rw [this]
          unfold u1
          cases p.mode.unit <;> simp <;> omega
        cases hc : p.mode.inCS
        · rw [hc] at hadj
          simp only [Bool.false_eq_true, if_false] at hadj
          have hr0 : 0 ≤ s.sem.r := by rcases h.lock with ⟨hr, _⟩ | ⟨hr, _⟩ <;> omega
          have hu : undo s.sem p.adj = s.sem := by
            rw [hadj]
            simp only [undo, undo1, Int.add_zero]
            rw [if_neg (by omega), if_neg (by omega)]
          rw [hu]
          exact inv_local (q := { p with mode := .dead, adj := ⟨0, 0⟩ }) h hp hc rfl hlen rfl s.sem _ rfl hpos hcnt
        · obtain ⟨hr, ho, hd⟩ := held h hp hc
          rw [hc] at hadj
          simp only [if_true] at hadj
          have hu : undo s.sem p.adj = ⟨1, s.sem.w⟩ := by
            rw [hadj]
            simp only [undo, undo1, Int.add_zero, hr]
            rw [if_neg (by omega), if_neg (by omega)]
            rfl
          rw [hu]
          exact inv_leave (q := { p with mode := .dead, adj := ⟨0, 0⟩ }) h hp ho rfl hlen rfl ⟨1, s.sem.w⟩ _ rfl hpos hcnt (data_kill h1 hc (hl p hp) hd)

end Verif.ShmQueue
