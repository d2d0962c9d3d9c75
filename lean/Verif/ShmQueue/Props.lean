/-
  Properties C54–C57, C82, C83 of shm_queue (C56, C57 in BoxProps.lean).
  `size` is the number of boxes, `bs` the box size; `size * bs < 2^32` because the code computes `end * box_size` with uint32_t.
-/
import Verif.ShmQueue.Solo
import Verif.ShmQueue.BoxProps

set_option linter.unusedVariables false

namespace Verif.ShmQueue

open RwLock (Vals SemBuf semop SEMVMX)

variable {size bs : Nat}

theorem reach_inv (h1 : 1 ≤ size) (hz : size < 2 ^ 32) (hs : size * bs < 2 ^ 32) {n : Nat} {ls : List Label} {s : State}
    (he : exec size bs (init bs n) ls = some s) (hr : SafeRun size bs (init bs n) ls = true) : Inv size bs s :=
  exec_inv h1 hz hs ls _ _ inv_init hr he

theorem hand_init {R : List (List UInt8) → List (List UInt8) → Prop} (n : Nat) (h : R [] []) : InHand R (init bs n) [] := by
  refine Or.inr ⟨?_, h⟩
  intro p hp
  rw [(List.mem_replicate.mp hp).2]
  simp [hand]

/-- The received boxes are a prefix of the accepted ones. -/
theorem inv_prefix {s : State} (h : Inv size bs s) : s.rcv <+: s.acc := by
  have : s.rcv = s.acc.take s.rcv.length := by
    rcases h.lock with ⟨_, _, hd⟩ | ⟨_, i, p, _, hc, _, hd⟩
    · exact hd.pre
    · cases hm : p.mode with
      | f2 k => rw [hm] at hd; exact hd.1.pre
      | f4 => rw [hm] at hd; exact hd.1.pre
      | u2 k => rw [hm] at hd; exact hd.1.pre
      | u3 k => rw [hm] at hd; exact hd.1.pre
      | u5 => rw [hm] at hd; exact hd.1.pre
      | _ => rw [hm] at hd; exact hd.pre
  rw [this]; exact List.take_prefix _ _

theorem inv_room {s : State} (h : Inv size bs s) : s.acc.length ≤ s.rcv.length + (size - 1) := by
  have hgen : ∀ {st en lo : Nat}, Stb size bs s st en lo → s.acc.length ≤ s.rcv.length + (size - 1) := by
    intro st en lo hd
    have := hd.room
    omega
  rcases h.lock with ⟨_, _, hd⟩ | ⟨_, i, p, _, hc, _, hd⟩
  · exact hgen hd
  · cases hm : p.mode with
    | f2 k => rw [hm] at hd; exact hgen hd.1
    | f4 => rw [hm] at hd; exact hgen hd.1
    | u2 k => rw [hm] at hd; exact hgen hd.1
    | u3 k => rw [hm] at hd; exact hgen hd.1
    | u5 => rw [hm] at hd; exact hgen hd.1
    | _ => rw [hm] at hd; exact hgen hd

/-- C54: in every interleaving of any number of processes, without kills and interrupted locks, the boxes that unflush delivers are,
in order and byte for byte, a prefix of the boxes accepted by flush. -/
theorem C54_fifo (h1 : 1 ≤ size) (hz : size < 2 ^ 32) (hs : size * bs < 2 ^ 32) {n : Nat} {ls : List Label} {s : State}
    (hc : ∀ l ∈ ls, l.calm = true) (he : exec size bs (init bs n) ls = some s) :
    (delivered size bs (init bs n) ls).map Prod.snd <+: (accepted size bs (init bs n) ls).map Prod.snd := by
  have hsafe := calm_safe (size := size) (bs := bs) ls (init bs n) hc
  have hI := reach_inv h1 hz hs he hsafe
  have hh := hand_exec hand_eq h1 hz hs ls (init bs n) s [] inv_init hsafe
    (fun ⟨i, hi⟩ => by have := hc _ hi; simp [Label.calm] at this) (hand_init n rfl) he
  have hacc := exec_acc ls _ _ he
  rw [show (init bs n).acc = [] from rfl, List.nil_append] at hacc
  rw [← hacc]
  have hp := inv_prefix hI
  rw [List.nil_append] at hh
  rcases hh with ⟨i, p, _, _, hr⟩ | ⟨_, hr⟩
  · exact (show _ <+: s.rcv from by rw [hr]; exact List.prefix_append _ _).trans hp
  · rw [← hr]; exact hp

/-- C54: nothing is invented, and the boxes of one writer keep their order: what is accepted from process `i` is a subsequence of the
boxes it called flush with. -/
theorem C54_writer_order {n : Nat} {ls : List Label} {s : State} (he : exec size bs (init bs n) ls = some s) (i : Nat) :
    (((accepted size bs (init bs n) ls).filter (fun x => x.1 = i)).map Prod.snd).Sublist (flushed i ls) := by
  have h := accepted_sub i ls (init bs n) s he
  have hp : pending (init bs n) i = [] := by
    unfold pending
    cases hq : (init bs n).procs[i]? with
    | none => rfl
    | some p => rw [(List.mem_replicate.mp (List.mem_of_getElem? hq)).2]
  rw [hp, List.nil_append] at h
  exact h

theorem lost_step {s s' : State} {l : Label} (h : Inv size bs s) (hb : size ≤ 32768) (hl : l.calm = true)
    (he : step size bs s l = some s') : s'.lost = s.lost := by
  cases l with
  | kill i => simp [Label.calm] at hl
  | intr i => simp [Label.calm] at hl
  | adv i =>
    simp only [step] at he
    cases hp : s.procs[i]? with
    | none => simp [hp] at he
    | some p =>
      simp only [hp] at he
      unfold adv at he
      cases hm : p.mode with
      | f5 =>
        simp only [hm] at he
        have hu := units_pos hp (by rw [hm]; rfl)
        have hcnt := h.cnt
        have hroom := inv_room h
        have hpos := h.pos
        have hsv : SEMVMX = 32767 := rfl
        rw [sem_up_ok (by omega)] at he
        simp only [Option.some.injEq] at he
        rw [← he]; rfl
      | f2 k =>
        simp only [hm] at he
        split at he <;> (simp only [Option.some.injEq] at he; rw [← he]; first | rfl | exact store_fields.2.2.2.2)
      | u3 k =>
        simp only [hm] at he
        split at he <;> (simp only [Option.some.injEq] at he; rw [← he]; first | rfl | exact store_fields.2.2.2.2)
      | f0 => simp only [hm] at he; obtain ⟨v, a, rfl⟩ := doSem_some he; rfl
      | f6 => simp only [hm] at he; obtain ⟨v, a, rfl⟩ := doSem_some he; rfl
      | u0 => simp only [hm] at he; obtain ⟨v, a, rfl⟩ := doSem_some he; rfl
      | u1 => simp only [hm] at he; obtain ⟨v, a, rfl⟩ := doSem_some he; rfl
      | u6 => simp only [hm] at he; obtain ⟨v, a, rfl⟩ := doSem_some he; rfl
      | _ =>
        simp only [hm] at he
        repeat' split at he
        all_goals first
          | (simp at he; done)
          | (simp only [Option.some.injEq] at he; subst he; rfl)
  | _ =>
    simp only [step] at he
    repeat' split at he
    all_goals first
      | (simp at he; done)
      | (simp only [Option.some.injEq] at he; rw [← he]; rfl)

theorem lost_exec (h1 : 1 ≤ size) (hz : size < 2 ^ 32) (hs : size * bs < 2 ^ 32) (hb : size ≤ 32768) : ∀ (ls : List Label) (s s' : State),
    Inv size bs s → (∀ l ∈ ls, l.calm = true) → exec size bs s ls = some s' → s'.lost = s.lost
  | [], s, s', _, _, he => by
    simp only [exec, Option.some.injEq] at he
    rw [← he]
  | a :: as, s, s', h, hc, he => by
    simp only [exec] at he
    cases hst : step size bs s a with
    | none => rw [hst] at he; simp at he
    | some t =>
      rw [hst] at he
      have hc1 := hc a List.mem_cons_self
      have hI : Inv size bs t := exec_inv h1 hz hs [a] s t h (calm_safe _ _ (by simpa using hc1)) (by simp only [exec, hst])
      rw [lost_exec h1 hz hs hb as t s' hI (fun l hl => hc l (List.mem_cons_of_mem _ hl)) he]
      exact lost_step h hb hc1 hst

theorem quiet_units {s : State} (hq : quiet s) : units s.procs = 0 := by
  unfold units
  rw [List.countP_eq_zero]
  intro p hp
  rcases hq p hp with h | h <;> rw [h] <;> simp [Mode.unit]

theorem quiet_out {s : State} (hq : quiet s) : ∀ p ∈ s.procs, p.mode.inCS = false := by
  intro p hp
  rcases hq p hp with h | h <;> rw [h] <;> rfl

/-- C54: no box is lost.  When no call is in progress, the count of the semaphore (what boxes_in_queue returns) is the number of
accepted boxes not yet delivered, and those boxes are in the ring, in order, from `start` on. -/
theorem C54_no_loss (h1 : 1 ≤ size) (hb : size ≤ 32768) (hs : size * bs < 2 ^ 32) {n : Nat} {ls : List Label} {s : State}
    (hc : ∀ l ∈ ls, l.calm = true) (he : exec size bs (init bs n) ls = some s) (hq : quiet s) :
    ∃ rest : List (List UInt8),
      (accepted size bs (init bs n) ls).map Prod.snd = (delivered size bs (init bs n) ls).map Prod.snd ++ rest ∧
      s.sem.w = rest.length ∧
      ∀ j (hj : j < rest.length), rest[j] = (List.range bs).map (fun k => s.mem ((s.start + j) % size * bs + k)) := by
  have hz : size < 2 ^ 32 := by omega
  have hsafe := calm_safe (size := size) (bs := bs) ls (init bs n) hc
  have hI := reach_inv h1 hz hs he hsafe
  have hh := hand_exec hand_eq h1 hz hs ls (init bs n) s [] inv_init hsafe
    (fun ⟨i, hi⟩ => by have := hc _ hi; simp [Label.calm] at this) (hand_init n rfl) he
  have hacc := exec_acc ls _ _ he
  rw [show (init bs n).acc = [] from rfl, List.nil_append] at hacc
  have hr : s.rcv = (delivered size bs (init bs n) ls).map Prod.snd := by
    rcases hh with ⟨i, p, hp, hm, _⟩ | ⟨_, hr⟩
    · rcases hq p (List.mem_of_getElem? hp) with h | h <;> rw [h] at hm <;> simp [hand] at hm
    · rw [hr, List.nil_append]
  have hd : Stb size bs s (s.rcv.length % size) (s.acc.length % size) s.rcv.length := by
    rcases hI.lock with ⟨_, _, hd⟩ | ⟨_, i, p, hp, hpc, _⟩
    · exact hd
    · rw [quiet_out hq p (List.mem_of_getElem? hp)] at hpc; simp at hpc
  have hlost := lost_exec h1 hz hs hb ls _ _ inv_init hc he
  rw [show (init bs n).lost = 0 from rfl] at hlost
  refine ⟨s.acc.drop s.rcv.length, ?_, ?_, ?_⟩
  · rw [← hacc, ← hr]
    conv => rhs; rw [hd.pre]
    rw [List.length_take, Nat.min_eq_left hd.le, List.take_append_drop]
  · have := hI.cnt
    rw [quiet_units hq, hlost] at this
    have := hd.le
    rw [List.length_drop]
    omega
  · intro j hj
    have hj' : j < s.acc.length - s.rcv.length := by simpa using hj
    have hlt : s.rcv.length + j < s.acc.length := by omega
    rw [List.getElem_drop]
    apply List.ext_getElem
    · rw [List.length_map, List.length_range]; exact hd.lens _ (List.getElem_mem _)
    · intro k hk1 hk2
      have hk : k < bs := by simpa using hk2
      rw [List.getElem_map, List.getElem_range, hd.start]
      have := hd.ring (s.rcv.length + j) (by omega) hlt k hk
      rw [show (s.rcv.length % size + j) % size = (s.rcv.length + j) % size by simp [Nat.add_mod], this]
      simp [List.getD_eq_getElem?_getD, hlt, hk1]

/-- C54: whoever is inside a critical section can leave it by its own steps alone: no deadlock. -/
theorem C54_no_deadlock (h1 : 1 ≤ size) (hz : size < 2 ^ 32) (hs : size * bs < 2 ^ 32) {n : Nat} {ls : List Label} {s : State}
    (hc : ∀ l ∈ ls, l.calm = true) (he : exec size bs (init bs n) ls = some s) (hn : s.sem.r = 0) :
    ∃ (i k : Nat) (s' : State), exec size bs s (List.replicate k (.adv i)) = some s' ∧ s'.sem.r = 1 := by
  have hI := reach_inv h1 hz hs he (calm_safe ls _ hc)
  rcases hI.lock with ⟨hr, _⟩ | ⟨_, i, p, hp, hpc, ho, _⟩
  · omega
  · obtain ⟨s', da, dr, w, lost, hf⟩ := fin_holder h1 hz hs hI hp hpc
    obtain ⟨k, hk⟩ := hf.run
    obtain ⟨q, hq, hqs, _⟩ := hf.procs
    refine ⟨i, k, s', hk, ?_⟩
    rcases hf.inv.lock with ⟨hr, _⟩ | ⟨_, j, x, hx, hxc, _⟩
    · exact hr
    · rw [hqs, List.getElem?_set] at hx
      split at hx
      · split at hx
        · simp only [Option.some.injEq] at hx
          rw [← hx, hq] at hxc
          simp [Mode.inCS] at hxc
        · simp at hx
      · rename_i hij
        rw [ho j x (fun e => hij e.symm) hx] at hxc
        simp at hxc

theorem w_le {s : State} (h : Inv size bs s) (hb : size ≤ 32768) : s.sem.w ≤ SEMVMX := by
  have := h.cnt
  have := inv_room h
  have : SEMVMX = 32767 := rfl
  omega

/-- C54: a box that was accepted is received by the next reader: from every state where no call is in progress and something is
undelivered, an unflush that runs alone returns with the oldest undelivered box. -/
theorem C54_next (h1 : 1 ≤ size) (hb : size ≤ 32768) (hs : size * bs < 2 ^ 32) {n : Nat} {ls : List Label} {s : State}
    (hc : ∀ l ∈ ls, l.calm = true) (he : exec size bs (init bs n) ls = some s) (hq : quiet s)
    {i : Nat} {p : Proc} (hp : s.procs[i]? = some p) (hi : p.mode = .idle)
    (hu : (delivered size bs (init bs n) ls).length < (accepted size bs (init bs n) ls).length) :
    ∃ (k : Nat) (s' : State), exec size bs s (.unflush i :: List.replicate k (.adv i)) = some s' ∧ quiet s' ∧
      s'.rcv = ((accepted size bs (init bs n) ls).map Prod.snd).take ((delivered size bs (init bs n) ls).length + 1) := by
  have hz : size < 2 ^ 32 := by omega
  have hI := reach_inv h1 hz hs he (calm_safe ls _ hc)
  obtain ⟨rest, hrest, hw, _⟩ := C54_no_loss h1 hb hs hc he hq
  have hlen : (accepted size bs (init bs n) ls).length = (delivered size bs (init bs n) ls).length + rest.length := by
    have := congrArg List.length hrest
    simpa using this
  obtain ⟨t, s', hst, hf, hta, htr, q0, htp⟩ := solo_unflush h1 hz hs hI hp hi (quiet_out hq) (by omega) (w_le hI hb)
  obtain ⟨k, hk⟩ := hf.run
  obtain ⟨q, hqm, hqs, _⟩ := hf.procs
  refine ⟨k, s', ?_, ?_, ?_⟩
  · simp only [exec, hst]; exact hk
  · intro x hx
    rw [hqs, htp, List.set_set] at hx
    rcases mem_set hx with hx | rfl
    · exact hq x hx
    · exact Or.inl hqm
  · have hacc := exec_acc ls _ _ he
    rw [show (init bs n).acc = [] from rfl, List.nil_append] at hacc
    have hcnt := hI.cnt
    rw [quiet_units hq, lost_exec h1 hz hs hb ls _ _ inv_init hc he, show (init bs n).lost = 0 from rfl] at hcnt
    have hal : s.acc.length = (accepted size bs (init bs n) ls).length := by rw [hacc]; simp
    have hrl : s.rcv.length = (delivered size bs (init bs n) ls).length := by omega
    have hlt : s.rcv.length < s.acc.length := by omega
    have hpre : s.rcv = s.acc.take s.rcv.length := List.prefix_iff_eq_take.mp (inv_prefix hI)
    rw [hf.rcv, htr, ← hacc, ← hrl, show s.acc.getD s.rcv.length [] = s.acc[s.rcv.length] by simp [List.getD_eq_getElem?_getD, hlt]]
    rw [← List.take_append_getElem hlt, ← hpre]

/-- C55: in every interleaving without kills and interrupted locks no store and no load goes outside the boxes, the ring never holds
more than size−1 undelivered boxes, and every box accepted and not yet received is intact in its place (except while its reader
clears it). -/
theorem C55_ring (h1 : 1 ≤ size) (hz : size < 2 ^ 32) (hs : size * bs < 2 ^ 32) {n : Nat} {ls : List Label} {s : State}
    (hc : ∀ l ∈ ls, l.calm = true) (he : exec size bs (init bs n) ls = some s) :
    s.ub = false ∧ s.acc.length ≤ s.rcv.length + (size - 1) ∧ s.rcv <+: s.acc ∧
    ∀ j, s.rcv.length ≤ j → j < s.acc.length → (j = s.rcv.length → ∀ p ∈ s.procs, ∀ k, p.mode ≠ .u3 k) →
      ∀ k, k < bs → s.mem ((j % size) * bs + k) = (s.acc.getD j []).getD k 0 := by
  have hI := reach_inv h1 hz hs he (calm_safe ls _ hc)
  refine ⟨hI.ub, inv_room hI, inv_prefix hI, ?_⟩
  intro j hj1 hj2 hj3 k hk
  rcases hI.lock with ⟨_, _, hd⟩ | ⟨_, i, p, hp, hpc, _, hd⟩
  · exact hd.ring j hj1 hj2 k hk
  · cases hm : p.mode with
    | f2 _ => rw [hm] at hd; exact hd.1.ring j hj1 hj2 k hk
    | f4 => rw [hm] at hd; exact hd.1.ring j hj1 hj2 k hk
    | u2 _ => rw [hm] at hd; exact hd.1.ring j hj1 hj2 k hk
    | u3 k' =>
      rw [hm] at hd
      by_cases hjr : j = s.rcv.length
      · exact absurd hm (hj3 hjr p (List.mem_of_getElem? hp) k')
      · exact hd.1.ring j (by omega) hj2 k hk
    | u5 => rw [hm] at hd; exact hd.1.ring j hj1 hj2 k hk
    | _ => rw [hm] at hd; exact hd.ring j hj1 hj2 k hk

/-- C55: a flush is accepted exactly when fewer than size−1 boxes are undelivered. -/
theorem C55_accept (h1 : 1 ≤ size) (hz : size < 2 ^ 32) (hs : size * bs < 2 ^ 32) {n : Nat} {ls : List Label} {s : State}
    (hc : ∀ l ∈ ls, l.calm = true) (he : exec size bs (init bs n) ls = some s) {i : Nat} {p : Proc} (hp : s.procs[i]? = some p)
    (hi : p.mode = .idle) (hq : quiet s) {b : List UInt8} (hb : b.length = bs) :
    ∃ (k : Nat) (s' : State), exec size bs s (.flush i b :: List.replicate k (.adv i)) = some s' ∧ quiet s' ∧
      s'.acc = s.acc ++ (if s.acc.length < s.rcv.length + (size - 1) then [b] else []) := by
  have hI := reach_inv h1 hz hs he (calm_safe ls _ hc)
  obtain ⟨t, s', hst, hf, hta, htr, q0, htp⟩ := solo_flush h1 hz hs hI hp hi (quiet_out hq) hb
  have hroom := inv_room hI
  have hpre := (inv_prefix hI).length_le
  have fin : ∀ {da : List (List UInt8)} {w : Int} {lost : Nat}, Fin size bs t s' i da [] w lost →
      ∃ (k : Nat) (s' : State), exec size bs s (.flush i b :: List.replicate k (.adv i)) = some s' ∧ quiet s' ∧ s'.acc = s.acc ++ da := by
    intro da w lost hf
    obtain ⟨k, hk⟩ := hf.run
    obtain ⟨q, hqm, hqs, _⟩ := hf.procs
    refine ⟨k, s', by simp only [exec, hst]; exact hk, ?_, by rw [hf.acc, hta]⟩
    intro x hx
    rw [hqs, htp, List.set_set] at hx
    rcases mem_set hx with hx | rfl
    · exact hq x hx
    · exact Or.inl hqm
  by_cases hlt : s.acc.length < s.rcv.length + (size - 1)
  · rw [if_pos (by omega)] at hf
    rw [if_pos hlt]
    exact fin hf
  · rw [if_neg (by omega)] at hf
    rw [if_neg hlt]
    exact fin hf

/-! ### a run of two processes, for the hypotheses above -/

/-- Process 0 flushes two boxes of two bytes into a ring of three, process 1 takes one; the two overlap. -/
def run1' : List Label :=
  [.flush 0 [1, 2], .unflush 1, .adv 0, .adv 0, .adv 0, .adv 0, .adv 0, .adv 0, .adv 0, .adv 1, .adv 0, .adv 1, .adv 1, .flush 0 [3, 4],
   .adv 1, .adv 1, .adv 1, .adv 1, .adv 1, .adv 1, .adv 1, .adv 0, .adv 0, .adv 0, .adv 0, .adv 0, .adv 0, .adv 0, .adv 0]

example : (∀ l ∈ run1', l.calm = true) ∧ (exec 3 2 (init 2 2) run1').isSome ∧
    accepted 3 2 (init 2 2) run1' = [(0, [1, 2]), (0, [3, 4])] ∧ delivered 3 2 (init 2 2) run1' = [(1, [1, 2])] := by decide +kernel

example : ∃ s, exec 3 2 (init 2 2) run1' = some s ∧ (s.procs.map (·.mode) = [.idle, .idle]) ∧ s.sem = ⟨1, 1⟩ := by
  refine ⟨(exec 3 2 (init 2 2) run1').getD (init 2 2), ?_⟩
  exact ⟨by rfl, by decide +kernel, by decide +kernel⟩

/-! ### more than 32767 boxes -/

theorem calm_solo {l : Label} {i k : Nat} (h : l.calm = true) : ∀ x ∈ l :: List.replicate k (Label.adv i), x.calm = true := by
  intro x hx
  rcases List.mem_cons.mp hx with rfl | hx
  · exact h
  · rw [(List.mem_replicate.mp hx).2]; rfl

/-- One process, idle, with the given histories. -/
structure One (size bs : Nat) (s : State) (a r : Nat) (w : Int) : Prop where
  reach : ∃ ls : List Label, (∀ l ∈ ls, l.calm = true) ∧ exec size bs (init bs 1) ls = some s
  proc : ∃ p : Proc, s.procs = [p] ∧ p.mode = .idle
  acc : s.acc.length = a
  rcv : s.rcv.length = r
  w : s.sem.w = w

theorem One.quiet {s : State} {a r : Nat} {w : Int} (h : One size bs s a r w) : quiet s := by
  obtain ⟨p, hp, hm⟩ := h.proc
  intro x hx
  rw [hp, List.mem_singleton] at hx
  rw [hx]; exact Or.inl hm

theorem One.inv (h1 : 1 ≤ size) (hz : size < 2 ^ 32) (hs : size * bs < 2 ^ 32) {s : State} {a r : Nat} {w : Int} (h : One size bs s a r w) :
    Inv size bs s := by
  obtain ⟨ls, hc, he⟩ := h.reach
  exact reach_inv h1 hz hs he (calm_safe ls _ hc)

theorem one_init : One size bs (init bs 1) 0 0 0 := ⟨⟨[], by simp, rfl⟩, ⟨_, rfl, rfl⟩, rfl, rfl, rfl⟩

theorem one_flush (h1 : 1 ≤ size) (hz : size < 2 ^ 32) (hs : size * bs < 2 ^ 32) {s : State} {a r : Nat} {w : Int} (h : One size bs s a r w)
    (hlt : a - r < size - 1) : ∃ s', One size bs s' (a + 1) r (bumpW w) := by
  obtain ⟨p, hp, hm⟩ := h.proc
  have hI := h.inv h1 hz hs
  have hp0 : s.procs[0]? = some p := by rw [hp]; rfl
  obtain ⟨t, s', hst, hf, hta, htr, q0, htp⟩ := solo_flush (b := List.replicate bs 7) h1 hz hs hI hp0 hm (quiet_out h.quiet) (by simp)
  rw [h.acc, h.rcv, if_pos hlt, h.w] at hf
  obtain ⟨k, hk⟩ := hf.run
  obtain ⟨q, hqm, hqs, _⟩ := hf.procs
  obtain ⟨ls, hc, he⟩ := h.reach
  refine ⟨s', ⟨ls ++ (.flush 0 (List.replicate bs 7) :: List.replicate k (.adv 0)), ?_, ?_⟩, ⟨q, ?_, hqm⟩, ?_, ?_, hf.w⟩
  · intro l hl
    rcases List.mem_append.mp hl with hl | hl
    · exact hc l hl
    · exact calm_solo rfl l hl
  · rw [exec_append, he]
    show exec size bs s _ = _
    simp only [exec, hst]
    exact hk
  · rw [hqs, htp, hp]; rfl
  · rw [hf.acc, hta, List.length_append, h.acc]; rfl
  · rw [hf.rcv, htr, List.length_append, h.rcv]; rfl

theorem one_unflush (h1 : 1 ≤ size) (hz : size < 2 ^ 32) (hs : size * bs < 2 ^ 32) {s : State} {a r : Nat} {w : Int} (h : One size bs s a r w)
    (hw : 1 ≤ w) (hw2 : w ≤ SEMVMX) : ∃ s', One size bs s' a (r + 1) (w - 1) := by
  obtain ⟨p, hp, hm⟩ := h.proc
  have hI := h.inv h1 hz hs
  have hp0 : s.procs[0]? = some p := by rw [hp]; rfl
  obtain ⟨t, s', hst, hf, hta, htr, q0, htp⟩ := solo_unflush h1 hz hs hI hp0 hm (quiet_out h.quiet) (by rw [h.w]; exact hw) (by rw [h.w]; exact hw2)
  rw [h.w] at hf
  obtain ⟨k, hk⟩ := hf.run
  obtain ⟨q, hqm, hqs, _⟩ := hf.procs
  obtain ⟨ls, hc, he⟩ := h.reach
  refine ⟨s', ⟨ls ++ (.unflush 0 :: List.replicate k (.adv 0)), ?_, ?_⟩, ⟨q, ?_, hqm⟩, ?_, ?_, hf.w⟩
  · intro l hl
    rcases List.mem_append.mp hl with hl | hl
    · exact hc l hl
    · exact calm_solo rfl l hl
  · rw [exec_append, he]
    show exec size bs s _ = _
    simp only [exec, hst]
    exact hk
  · rw [hqs, htp, hp]; rfl
  · rw [hf.acc, hta, List.length_append, h.acc]; rfl
  · rw [hf.rcv, htr, List.length_append, h.rcv]; rfl

/-- C54 fails for rings of more than 32768 boxes: the count of a semaphore cannot exceed 32767, the error of the semop is ignored, and
an accepted box stays in the ring although every unflush from then on finds the count zero and returns false. -/
theorem C54_refuted_large (hz : size < 2 ^ 32) (hs : size * bs < 2 ^ 32) (hb : 32769 ≤ size) :
    ∃ (ls : List Label) (s : State), (∀ l ∈ ls, l.calm = true) ∧ exec size bs (init bs 1) ls = some s ∧ quiet s ∧
      (accepted size bs (init bs 1) ls).length = 32768 ∧ (delivered size bs (init bs 1) ls).length = 32767 ∧ s.sem.w = 0 := by
  have h1 : 1 ≤ size := by omega
  have hsv : SEMVMX = 32767 := rfl
  have up : ∀ n : Nat, n ≤ 32767 → ∃ s, One size bs s n 0 n := by
    intro n
    induction n with
    | zero => intro _; exact ⟨_, one_init⟩
    | succ n ih =>
      intro hn
      obtain ⟨s, h⟩ := ih (by omega)
      obtain ⟨s', h'⟩ := one_flush h1 hz hs h (by omega)
      refine ⟨s', ?_⟩
      have : bumpW (n : Int) = ((n + 1 : Nat) : Int) := by
        unfold bumpW
        rw [if_pos (by omega)]; omega
      rw [← this]; exact h'
  obtain ⟨s1, h1'⟩ := up 32767 (by omega)
  obtain ⟨s2, h2⟩ := one_flush h1 hz hs h1' (by omega)
  have h2' : One size bs s2 32768 0 32767 := by
    have : bumpW ((32767 : Nat) : Int) = 32767 := by unfold bumpW; rw [if_neg (by omega)]; rfl
    rw [← this]; exact h2
  have down : ∀ n : Nat, n ≤ 32767 → ∃ s, One size bs s 32768 n (32767 - n) := by
    intro n
    induction n with
    | zero => intro _; exact ⟨s2, by simpa using h2'⟩
    | succ n ih =>
      intro hn
      obtain ⟨s, h⟩ := ih (by omega)
      obtain ⟨s', h'⟩ := one_unflush h1 hz hs h (by omega) (by omega)
      refine ⟨s', ?_⟩
      have : (32767 - (n : Int) - 1) = 32767 - ((n + 1 : Nat) : Int) := by omega
      rw [← this]; exact h'
  obtain ⟨s, h⟩ := down 32767 (by omega)
  obtain ⟨ls, hc, he⟩ := h.reach
  have hsafe := calm_safe (size := size) (bs := bs) ls (init bs 1) hc
  refine ⟨ls, s, hc, he, h.quiet, ?_, ?_, by rw [h.w]; rfl⟩
  · have hacc := exec_acc ls _ _ he
    have := congrArg List.length hacc
    rw [h.acc] at this
    simpa [init] using this.symm
  · have hh := hand_exec hand_eq h1 hz hs ls (init bs 1) s [] inv_init hsafe
      (fun ⟨i, hi⟩ => by have := hc _ hi; simp [Label.calm] at this) (hand_init 1 rfl) he
    rcases hh with ⟨i, p, hp, hm, _⟩ | ⟨_, hr⟩
    · rcases h.quiet p (List.mem_of_getElem? hp) with h' | h' <;> rw [h'] at hm <;> simp [hand] at hm
    · have := congrArg List.length hr
      rw [h.rcv] at this
      simpa using this.symm

/-! ### kills and interruptions -/

/-- C83, partial: if processes may be killed anywhere except in the three places of `harmless`, memory is never accessed outside the
boxes, what is delivered is a subsequence of what was accepted (nothing invented, duplicated, torn or reordered), and the ring stays
within its bound.  Missing: delivery of every box (a killed reader takes its box with it, and a box whose count was not raised or was
lost stays behind), and the three places, for which see the refutations. -/
theorem C83_killed_partial (h1 : 1 ≤ size) (hz : size < 2 ^ 32) (hs : size * bs < 2 ^ 32) {n : Nat} {ls : List Label} {s : State}
    (hr : SafeRun size bs (init bs n) ls = true) (he : exec size bs (init bs n) ls = some s) :
    s.ub = false ∧ s.acc.length ≤ s.rcv.length + (size - 1) ∧
    ((delivered size bs (init bs n) ls).map Prod.snd).Sublist ((accepted size bs (init bs n) ls).map Prod.snd) := by
  have hI := reach_inv h1 hz hs he hr
  refine ⟨hI.ub, inv_room hI, ?_⟩
  have hh := hand_exec hand_sub h1 hz hs ls (init bs n) s [] inv_init hr (fun _ => trivial) (hand_init n (List.Sublist.refl _)) he
  have hacc := exec_acc ls _ _ he
  rw [show (init bs n).acc = [] from rfl, List.nil_append] at hacc
  rw [← hacc]
  rw [List.nil_append] at hh
  refine List.Sublist.trans ?_ (inv_prefix hI).sublist
  rcases hh with ⟨i, p, _, _, h⟩ | ⟨_, h⟩
  · exact (List.sublist_append_left _ _).trans h
  · exact h

/-- C83: the lock of a killed process is released. -/
theorem C83_lock_released (h1 : 1 ≤ size) (hz : size < 2 ^ 32) (hs : size * bs < 2 ^ 32) {n : Nat} {ls : List Label} {s : State}
    (hr : SafeRun size bs (init bs n) ls = true) (he : exec size bs (init bs n) ls = some s) (hn : s.sem.r = 0) :
    ∃ (i k : Nat) (s' : State), exec size bs s (List.replicate k (.adv i)) = some s' ∧ s'.sem.r = 1 := by
  have hI := reach_inv h1 hz hs he hr
  rcases hI.lock with ⟨hr, _⟩ | ⟨_, i, p, hp, hpc, ho, _⟩
  · omega
  · obtain ⟨s', da, dr, w, lost, hf⟩ := fin_holder h1 hz hs hI hp hpc
    obtain ⟨k, hk⟩ := hf.run
    obtain ⟨q, hq, hqs, _⟩ := hf.procs
    refine ⟨i, k, s', hk, ?_⟩
    rcases hf.inv.lock with ⟨hr, _⟩ | ⟨_, j, x, hx, hxc, _⟩
    · exact hr
    · rw [hqs, List.getElem?_set] at hx
      split at hx
      · split at hx
        · simp only [Option.some.injEq] at hx
          rw [← hx, hq] at hxc
          simp [Mode.inCS] at hxc
        · simp at hx
      · rename_i hij
        rw [ho j x (fun e => hij e.symm) hx] at hxc
        simp at hxc

def advs (i n : Nat) : List Label := List.replicate n (.adv i)

/-- C83 fails: a writer killed between `info->end++` and `info->end %= info->size` at the end of the ring makes the next flush write
outside of the boxes. -/
theorem C83_refuted_flush : (exec 3 1 (init 1 3)
    ((.flush 0 [5] :: advs 0 7) ++ (.flush 0 [6] :: advs 0 7) ++ (.unflush 1 :: advs 1 8) ++ (.unflush 1 :: advs 1 8) ++
      (.flush 0 [7] :: advs 0 4) ++ [.kill 0] ++ (.flush 2 [8] :: advs 2 3))).map State.ub = some true := by
  decide +kernel

/-- C83 fails: a reader killed in the middle of the memset leaves a half cleared box, which the next reader gets. -/
theorem C83_refuted_unflush : ∃ ls, (exec 3 2 (init 2 3) ls).isSome ∧
    accepted 3 2 (init 2 3) ls = [(0, [5, 6]), (0, [7, 8])] ∧ delivered 3 2 (init 2 3) ls = [(2, [0, 6])] := by
  refine ⟨(.flush 0 [5, 6] :: advs 0 8) ++ (.flush 0 [7, 8] :: advs 0 8) ++ (.unflush 1 :: advs 1 6) ++ [.kill 1] ++
    (.unflush 2 :: advs 2 10), ?_⟩
  decide +kernel

example : SafeRun 3 1 (init 1 2) [.flush 0 [5], .adv 0, .adv 0, .adv 0, .kill 0, .flush 1 [6], .adv 1, .adv 1, .adv 1, .adv 1, .adv 1, .adv 1, .adv 1] = true ∧
    (exec 3 1 (init 1 2) [.flush 0 [5], .adv 0, .adv 0, .adv 0, .kill 0, .flush 1 [6], .adv 1, .adv 1, .adv 1, .adv 1, .adv 1, .adv 1, .adv 1]).isSome := by
  decide +kernel

/-- C82, partial: if no semop of lock_queue is interrupted (kills allowed in the places of `harmless`), at most one process is between
lock_queue and unlock_queue.  Missing: interrupted semops. -/
theorem C82_exclusion_partial (h1 : 1 ≤ size) (hz : size < 2 ^ 32) (hs : size * bs < 2 ^ 32) {n : Nat} {ls : List Label} {s : State}
    (hr : SafeRun size bs (init bs n) ls = true) (he : exec size bs (init bs n) ls = some s) {i j : Nat} {p q : Proc}
    (hp : s.procs[i]? = some p) (hq : s.procs[j]? = some q) (hpi : p.mode.inCS = true) (hqi : q.mode.inCS = true) : i = j := by
  obtain ⟨_, ho, _⟩ := held (reach_inv h1 hz hs he hr) hp hpi
  by_cases hij : j = i
  · exact hij.symm
  · rw [ho j q hij hq] at hqi; simp at hqi

/-- C56 fails in the ring: the second of two flushes with no reader in between is dropped without any sign (the ring has two boxes). -/
theorem C56_refuted_ring : ∃ ls, (exec 2 1 (init 1 1) ls).isSome ∧ (∀ l ∈ ls, l.calm = true) ∧ flushed 0 ls = [[5], [6]] ∧
    accepted 2 1 (init 1 1) ls = [(0, [5])] ∧ (exec 2 1 (init 1 1) ls).map (fun s => s.procs.map (·.mode)) = some [.idle] := by
  refine ⟨(.flush 0 [5] :: advs 0 7) ++ (.flush 0 [6] :: advs 0 3), ?_⟩
  decide +kernel

/-- C82 fails: when a signal interrupts the semop of lock_queue its error is ignored, the writer goes on without the lock, and of the
two boxes accepted at the same time none is delivered: the reader gets a mixture of both and a box of zeros. -/
theorem C82_refuted : ∃ ls, (exec 4 2 (init 2 3) ls).isSome ∧ (∀ l ∈ ls, l.isKill = false) ∧
    accepted 4 2 (init 2 3) ls = [(0, [1, 2]), (1, [3, 4])] ∧ delivered 4 2 (init 2 3) ls = [(2, [3, 2]), (2, [0, 0])] := by
  refine ⟨[.flush 0 [1, 2], .flush 1 [3, 4], .adv 0, .intr 1, .adv 0, .adv 1, .adv 0, .adv 1, .adv 1, .adv 0, .adv 0, .adv 0, .adv 0, .adv 0] ++
    advs 1 4 ++ (.unflush 2 :: advs 2 10) ++ (.unflush 2 :: advs 2 10), ?_⟩
  decide +kernel

end Verif.ShmQueue
