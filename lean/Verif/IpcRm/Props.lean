/-
  C165: the hash map whose semaphores are removed while processes use it.
  C166: the queue whose semaphores are removed while processes use it.
-/
import Verif.IpcRm.Lemmas

namespace Verif.IpcRm

/-! ### C165 -/

/-- Two processes, nothing is connected. -/
def m0 : Map := ⟨none, 0, fun _ => ⟨0, 0⟩, [⟨.fresh, 0, ⟨0, 0⟩⟩, ⟨.fresh, 0, ⟨0, 0⟩⟩]⟩

theorem m0_start : m0.Start := ⟨rfl, by decide⟩

/-- C165, in every run, with removals at any moment: a writer is never inside together with another process that has the same set. -/
theorem C165_same_set {s s' : Map} {as : List Label} (h : s.Start) (e : s.exec as = some s')
    (i j : Nat) (p q : Proc) (hij : i ≠ j) (hp : s'.procs[i]? = some p) (hq : s'.procs[j]? = some q) (hg : p.gen = q.gen) (hw : p.mode = .writing) : ¬ Inside q :=
  inv_excl (inv_exec (inv_start h) e) hij hp hq hg hw

/-- C165: if nobody is inside of a section when the semaphores are removed, a writer is alone, with the old set, the new ones, and processes that connect again. -/
theorem C165_exclusion_partial {s s' : Map} {as : List Label} (h : s.Start) (q : Quiet s as) (e : s.exec as = some s') : Exclusive s' := by
  intro i j p x hij hp hx hw hin
  have hl : Live s' := live_exec (fun p hp hin => by have := (h.2 p hp).1; simp [Inside, this] at hin) q e
  have h1 := hl p (List.mem_of_getElem? hp) (Or.inr hw)
  have h2 := hl x (List.mem_of_getElem? hx) hin
  refine C165_same_set h e i j p x hij hp hx ?_ hw hin
  simpa using h1.symm.trans h2

/-- The hypotheses of `C165_same_set` and `C165_exclusion_partial` hold in a run with a removal, where an old handle throws, a new set is made, and a writer of it is inside. -/
example : ∃ s', m0.exec [.connect 0, .lockW 0, .unlock 0, .rm, .connect 1, .lockW 0, .lockW 1] = some s' ∧
    Quiet m0 [.connect 0, .lockW 0, .unlock 0, .rm, .connect 1, .lockW 0, .lockW 1] ∧ s'.procs[1]? = some ⟨.writing, 1, ⟨0, -1⟩⟩ := by
  refine ⟨_, rfl, ?_, rfl⟩
  simp [Quiet, m0, Map.step, Map.connect, Map.sem, RwLock.semop, RwLock.semop1, RwLock.lock_write_rw, RwLock.unlock_write_rw, RwLock.Vals.get, RwLock.Vals.set,
    RwLock.SEMVMX, Inside]

/-- C165: a call of a process whose set was removed does not wait: it throws, and neither the semaphores of the others nor the other processes change. -/
theorem C165_throws {s : Map} {i : Nat} {p : Proc} (hp : s.procs[i]? = some p) (hm : p.mode = .out) (hg : s.cur ≠ some p.gen) (a : Label) (ha : a = .lockR i ∨ a = .lockW i) :
    ∃ s', s.step a = some (s', true) ∧ s'.cur = s.cur ∧ s'.vals = s.vals ∧ (∃ q : Proc, s'.procs[i]? = some q ∧ q.mode = .out ∧ q.gen = p.gen) ∧
      ∀ j, j ≠ i → s'.procs[j]? = s.procs[j]? := by
  have hlt : i < s.procs.length := by
    rw [List.getElem?_eq_some_iff] at hp
    exact hp.1
  refine ⟨{ s with procs := s.procs.set i { p with mode := .out, adj := ⟨0, 0⟩ } }, ?_, rfl, rfl, ⟨{ p with mode := .out, adj := ⟨0, 0⟩ }, by simp [hlt], rfl, rfl⟩, ?_⟩
  · rcases ha with rfl | rfl
    · simp only [Map.step, hp]
      rw [if_pos hm, Map.sem, if_neg hg]
    · simp only [Map.step, hp]
      rw [if_pos hm, Map.sem, if_neg hg]
  · intro j hj
    simp only
    rw [List.getElem?_set_ne (Ne.symm hj)]

/-- C165: nothing else throws: a step that throws is a lock or an unlock of a process whose set was removed. -/
theorem C165_throws_only {s s' : Map} {a : Label} (e : s.step a = some (s', true)) :
    ∃ (i : Nat) (p : Proc), (a = .lockR i ∨ a = .lockW i ∨ a = .unlock i) ∧ s.procs[i]? = some p ∧ s.cur ≠ some p.gen := by
  have hsem : ∀ {i p ops m}, s.sem i p ops m = some (s', true) → s.cur ≠ some p.gen := by
    intro i p ops m h hc
    simp only [Map.sem, hc, if_true] at h
    split at h <;> simp at h
  cases a with
  | lockR i =>
    simp only [Map.step] at e
    split at e
    · rename_i p hp
      split at e
      · exact ⟨i, p, Or.inl rfl, hp, hsem e⟩
      · cases e
    · cases e
  | lockW i =>
    simp only [Map.step] at e
    split at e
    · rename_i p hp
      split at e
      · exact ⟨i, p, Or.inr (Or.inl rfl), hp, hsem e⟩
      · cases e
    · cases e
  | unlock i =>
    simp only [Map.step] at e
    split at e
    · rename_i p hp
      split at e
      · exact ⟨i, p, Or.inr (Or.inr rfl), hp, hsem e⟩
      · split at e
        · exact ⟨i, p, Or.inr (Or.inr rfl), hp, hsem e⟩
        · cases e
    · cases e
  | connect i =>
    simp only [Map.step] at e
    split at e
    · split at e <;> simp at e
    · cases e
  | disconnect i =>
    simp only [Map.step] at e
    split at e
    · split at e <;> simp at e
    · cases e
  | rm => simp [Map.step] at e
  | kill i =>
    simp only [Map.step] at e
    split at e
    · split at e <;> simp at e
    · cases e

/-- C165: a process whose set was removed is never inside of a section again unless it connects again, whatever the others do. -/
theorem C165_old {s t s' : Map} {as bs : List Label} (h : s.Start) (e : s.exec as = some t) {i : Nat} {p : Proc} (hp : t.procs[i]? = some p) (hm : p.mode = .out)
    (hg : t.cur ≠ some p.gen) (hb : ∀ a ∈ bs, a ≠ .connect i) (e' : t.exec bs = some s') : ∃ q : Proc, s'.procs[i]? = some q ∧ ¬ Inside q := by
  have hk := (known_exec (known_start h) e).2 p (List.mem_of_getElem? hp) (by simp [hm]) (by simp [hm])
  obtain ⟨-, -, q, hq, hq', -⟩ := old_exec (i := i) (g := p.gen) ⟨hk, hg, p, hp, by simp [Inside, hm], fun _ => rfl⟩ hb e'
  exact ⟨q, hq, hq'⟩

/-- The hypotheses of `C165_throws` and `C165_old`: the set is removed and made again by another process, which is inside. -/
example : ∃ t : Map, m0.exec [.connect 0, .rm, .connect 1, .lockW 1] = some t ∧ t.procs[0]? = some ⟨.out, 0, ⟨0, 0⟩⟩ ∧ t.cur = some 1 ∧
    ∃ s', t.exec [.lockR 0, .lockW 0, .unlock 1, .lockW 0] = some s' := ⟨_, rfl, rfl, rfl, _, rfl⟩

/-- C165 fails when a writer is inside while the semaphores are removed: whoever connects then gets the lock of the new set at once, and two writers are inside of the
same memory.  For every state that a run reaches. -/
theorem C165_refuted {s t : Map} {as : List Label} (_ : s.Start) (_ : s.exec as = some t) {i j : Nat} {p q : Proc} (hp : t.procs[i]? = some p) (hw : p.mode = .writing)
    (hq : t.procs[j]? = some q) (hf : q.mode = .fresh) : ∃ s', t.exec [.rm, .connect j, .lockW j] = some s' ∧ ¬ Exclusive s' := by
  have hij : i ≠ j := by
    intro c
    subst c
    rw [hp] at hq
    cases hq
    rw [hw] at hf
    cases hf
  have hlt : j < t.procs.length := by
    rw [List.getElem?_eq_some_iff] at hq
    exact hq.1
  have e1 : t.step .rm = some ({ t with cur := none }, false) := rfl
  have e2 : ({ t with cur := none } : Map).step (.connect j) = some (({ t with cur := none } : Map).connect j, false) := by
    simp only [Map.step, hq]
    rw [if_pos hf]
  let u : Map := ({ t with cur := none } : Map).connect j
  let w : Map := { u with vals := fun g => if g = t.next then ⟨0, 1⟩ else u.vals g, procs := u.procs.set j ⟨.writing, t.next, ⟨0, -1⟩⟩ }
  have hs : RwLock.semop ⟨0, 0⟩ ⟨0, 0⟩ RwLock.lock_write_rw = some (⟨0, 1⟩, ⟨0, -1⟩) := by decide +kernel
  have e3 : u.step (.lockW j) = some (w, false) := by
    simp [u, w, Map.connect, Map.step, Map.sem, hlt, hs]
  refine ⟨w, ?_, ?_⟩
  · simp only [Map.exec, e1, e2]
    rw [show ({ t with cur := none } : Map).connect j = u from rfl, e3]
  · intro c
    refine c i j p ⟨.writing, t.next, ⟨0, -1⟩⟩ hij ?_ ?_ hw (Or.inr rfl)
    · simp only [w, u, Map.connect, List.getElem?_set_ne (Ne.symm hij)]; exact hp
    · simp [w, u, Map.connect, hlt]

/-- The hypotheses of `C165_refuted`. -/
example : ∃ t : Map, m0.exec [.connect 0, .lockW 0] = some t ∧ t.procs[0]? = some ⟨.writing, 0, ⟨0, -1⟩⟩ ∧ t.procs[1]? = some ⟨.fresh, 0, ⟨0, 0⟩⟩ := ⟨_, rfl, rfl, rfl⟩

/-- C165 fails in another way: that a call throws does not mean that it did nothing.  A writer that is inside when the semaphores are removed has changed the map, and
its call throws at the unlock. -/
theorem C165_refuted_effect {t : Map} {i : Nat} {p : Proc} (hp : t.procs[i]? = some p) (hw : p.mode = .writing) :
    ∃ t' s', t.step .rm = some (t', false) ∧ t'.step (.unlock i) = some (s', true) := by
  refine ⟨{ t with cur := none }, { t with cur := none, procs := t.procs.set i { p with mode := .out, adj := ⟨0, 0⟩ } }, rfl, ?_⟩
  simp only [Map.step, hp]
  rw [if_pos hw, Map.sem, if_neg (by simp)]

/-! ### C166 -/

/-- Two processes, nothing is connected. -/
def l0 : Lock := ⟨none, 0, fun _ => 0, [(false, none), (false, none)]⟩

theorem l0_start : l0.Start := ⟨rfl, by decide⟩

/-- C166: if nobody is connected when the semaphores are removed, never two processes are inside of the critical section of the queue. -/
theorem C166_exclusion_partial {s s' : Lock} {as : List LLabel} (h : s.Start) (q : Gone s as) (e : s.exec as = some s') (i j : Nat) (p x : Bool × Option Nat) (hij : i ≠ j)
    (hp : s'.procs[i]? = some p) (hx : s'.procs[j]? = some x) (hin : p.1 = true) : x.1 = false :=
  linv_excl (linv_exec (linv_start h) q e) hij hp hx hin

/-- The hypotheses of `C166_exclusion_partial`, with a removal. -/
example : ∃ s', l0.exec [.connect 0, .lock 0, .unlock 0, .disconnect 0, .rm, .connect 1, .connect 0, .lock 1] = some s' ∧
    Gone l0 [.connect 0, .lock 0, .unlock 0, .disconnect 0, .rm, .connect 1, .connect 0, .lock 1] ∧ s'.procs[1]? = some (true, some 1) := by
  refine ⟨_, rfl, ?_, rfl⟩
  simp [Gone, l0, Lock.step, Lock.connect, Lock.lock, Lock.unlock]

/-- C166 fails otherwise, even if the removal happens while nobody is inside: `lock_queue` does not look at the result of semop, so all processes that were connected are
let in at the same time. -/
theorem C166_refuted {s : Lock} {i j g g' : Nat} (hij : i ≠ j) (hi : s.procs[i]? = some (false, some g)) (hj : s.procs[j]? = some (false, some g')) :
    ∃ s', s.exec [.rm, .lock i, .lock j] = some s' ∧ s'.procs[i]? = some (true, some g) ∧ s'.procs[j]? = some (true, some g') := by
  have li : i < s.procs.length := by
    rw [List.getElem?_eq_some_iff] at hi
    exact hi.1
  have lj : j < s.procs.length := by
    rw [List.getElem?_eq_some_iff] at hj
    exact hj.1
  refine ⟨{ s with cur := none, procs := (s.procs.set i (true, some g)).set j (true, some g') }, ?_, ?_, ?_⟩
  · simp [Lock.exec, Lock.step, hi, Lock.lock, List.getElem?_set_ne hij, hj]
  · simp only [List.getElem?_set_ne (Ne.symm hij)]
    simp [li]
  · simp [lj]

/-- The hypotheses of `C166_refuted`. -/
example : ∃ s, l0.exec [.connect 0, .connect 1] = some s ∧ s.procs[0]? = some (false, some 0) ∧ s.procs[1]? = some (false, some 0) := ⟨_, rfl, rfl, rfl⟩

variable {B : Type}

/-- C166, what the calls do while the set exists: the queue is a queue from which the last `k` boxes cannot be received, where `k` is how many boxes of the ring are not
counted; with `k = 0` it is the queue that users expect. -/
theorem C166_boxes_partial {s : Boxes B} {g k : Nat} (hc : s.cur = some g) (hk : s.count g + k = s.ring.length) (cs : List (BCall B)) :
    (s.calls g cs).2 = (fifo s.room k s.ring cs).2 ∧ (s.calls g cs).1.ring = (fifo s.room k s.ring cs).1 := calls_fifo cs hc hk

/-- The hypotheses of `C166_boxes_partial`: a new queue, and one with an uncounted box. -/
example : ((⟨some 0, 1, fun _ => 0, [], 3⟩ : Boxes Nat).calls 0 [.flush 1, .flush 2, .unflush, .unflush, .unflush]).2 = [some 1, some 2, none] ∧
    ((⟨some 1, 2, fun _ => 0, [7], 3⟩ : Boxes Nat).calls 1 [.flush 1, .flush 2, .unflush, .unflush, .unflush]).2 = [some 7, some 1, none] := by decide +kernel

/-- C166 fails for the boxes: after a removal, when everybody has connected again, all boxes that were in the queue stay uncounted; for every history of calls, no box is
received before as many others are stored, and the last ones are never received. -/
theorem C166_refuted_lag (s : Boxes B) (cs : List (BCall B)) :
    (s.rm.connect.1.calls s.rm.connect.2 cs).2 = (fifo s.room s.ring.length s.ring cs).2 := by
  have := calls_fifo (g := s.rm.connect.2) (k := s.ring.length) cs (s := s.rm.connect.1) rfl (by simp [Boxes.rm, Boxes.connect])
  exact this.1

/-- C166, the worst case: if the ring is full when the semaphores are removed, the queue is dead: for every history of calls after everybody has connected again, no box is
stored and none is received. -/
theorem C166_refuted_dead {s : Boxes B} (h : s.ring.length = s.room) (cs : List (BCall B)) :
    (s.rm.connect.1.calls s.rm.connect.2 cs).1.ring = s.ring ∧ ∀ x ∈ (s.rm.connect.1.calls s.rm.connect.2 cs).2, x = none := by
  have := calls_fifo (g := s.rm.connect.2) (k := s.ring.length) cs (s := s.rm.connect.1) rfl (by simp [Boxes.rm, Boxes.connect])
  have hf := fifo_full (B := B) (room := s.room) (q := s.ring) (by omega) cs
  refine ⟨this.2.trans hf.1, ?_⟩
  rw [this.1]
  exact hf.2

/-- C166: a handle with the removed set goes on storing boxes that nobody counts: one more box cannot be received. -/
theorem C166_refuted_old {s : Boxes B} {g : Nat} (hc : s.cur ≠ some g) (hr : s.ring.length < s.room) (b : B) :
    (s.flush g b).ring = s.ring ++ [b] ∧ (s.flush g b).count = s.count ∧ (s.flush g b).unflush g = (s.flush g b, none) := by
  simp [Boxes.flush, hr, hc, Boxes.unflush]

/-- The hypotheses of `C166_refuted_dead` and `C166_refuted_old`. -/
example : (⟨some 0, 1, fun _ => 2, [1, 2], 2⟩ : Boxes Nat).ring.length = 2 ∧ ((⟨some 0, 1, fun _ => 1, [1], 2⟩ : Boxes Nat).rm.flush 0 5).ring = [1, 5] := by decide +kernel

end Verif.IpcRm
