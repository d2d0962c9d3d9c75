import Verif.QueueMake.Lemmas
/-
  Properties C129 and C130: processes that make a queue together, and processes that are killed while they make it.
-/
namespace Verif.QueueMake

variable {D : Type} {bs n : Nat} {zero : D}

/-- **C129.** In every run in which no process begins to connect while another is making the semaphores (and none is killed at the four places of C130): at most one process has the
lock, nobody dereferences NULL, and for every connected process the parameters are those it asked for, and the memory and the counting semaphore are what the operations of connected
processes have made of a new queue: no connect takes anything away.  Missing: processes that connect for the first time at the same time (`C129_refuted_lock`, `C129_refuted_count`,
`C129_refuted_memory`). -/
theorem C129_connect_partial (run : List (Label D)) (hs : Safe bs n zero init run) {s : State D} (he : exec bs n zero init run = some s) :
    (∀ i j, Holds s i → Holds s j → i = j) ∧ (∀ i, s.mode i ≠ .crashed) ∧
      ∀ i, Connected s i → ∃ l g, s.sem = some (l, countAfter (done run)) ∧ s.shm = some g ∧ g.box_size = bs ∧ g.size = n ∧ g.mem = memAfter zero (done run) := by
  have h := exec_inv run init_inv hs he
  rw [List.nil_append] at h
  have lock : ∀ l, LockOK s l → ∀ i j, Holds s i → Holds s j → i = j := by
    intro l hl i j hi hj
    rw [holds_iff] at hi hj
    rcases hl with ⟨_, h2⟩ | ⟨_, k, _, _, h4⟩
    · rw [(h2 i).1] at hi; cases hi
    · have key : ∀ x, holds (s.mode x) = true → x = k := by
        intro x hx
        by_cases e : x = k
        · exact e
        · rw [(h4 x e).1] at hx; cases hx
      rw [key i hi, key j hj]
  refine ⟨?_, ?_, fun i hi => ?_⟩
  · cases h with
    | none hsem hshm hlog hm h1 ha => intro i j hi; rw [holds_iff] at hi; have := hm i; revert hi this; cases s.mode i <;> simp [holds, early]
    | made k hk hsem hshm hlog hm ha =>
      intro i j hi
      rw [holds_iff] at hi
      by_cases e : i = k
      · rw [e, hk] at hi; cases hi
      · have := hm i e; revert hi this; cases s.mode i <;> simp [holds, away]
    | set k hk hsem hshm hlog hm ha =>
      intro i j hi
      rw [holds_iff] at hi
      by_cases e : i = k
      · rw [e, hk] at hi; cases hi
      · have := hm i e; revert hi this; cases s.mode i <;> simp [holds, away]
    | noseg l hsem hshm hlog hm hl => exact lock l hl
    | seg k g hsem hshm hlog hk hm hak ha =>
      refine lock 0 (LockOK.of_one (i := k) ?_ hm hak ha)
      rcases hk with hk | ⟨hk, _⟩ | ⟨hk, _, _⟩ <;> rw [hk] <;> rfl
    | ready l g hsem hshm hb hn hd hm hl => exact lock l hl
  · intro i hc
    cases h with
    | none hsem hshm hlog hm h1 ha => have := hm i; rw [hc] at this; cases this
    | made k hk hsem hshm hlog hm ha =>
      by_cases e : i = k
      · rw [← e, hc] at hk; cases hk
      · have := hm i e; rw [hc] at this; cases this
    | set k hk hsem hshm hlog hm ha =>
      by_cases e : i = k
      · rw [← e, hc] at hk; cases hk
      · have := hm i e; rw [hc] at this; cases this
    | noseg l hsem hshm hlog hm hl => have := hm i; rw [hc] at this; cases this
    | seg k g hsem hshm hlog hk hm hak ha =>
      by_cases e : i = k
      · rw [← e, hc] at hk; simp at hk
      · have := hm i e; rw [hc] at this; cases this
    | ready l g hsem hshm hb hn hd hm hl => have := hm i; rw [hc] at this; cases this
  · obtain ⟨l, g, h1, h2, h3, h4, h5, _⟩ := connected_ready h hi
    exact ⟨l, g, h1, h2, h3, h4, h5⟩

/-- How many steps of its own a connect still needs. -/
def rest : Mode → Nat
  | .out => 12
  | .c1 => 11
  | .c2 => 10
  | .c3 => 9
  | .c4 => 8
  | .s0 => 7
  | .s1 => 6
  | .s2 _ => 5
  | .s3 => 4
  | .s4 => 3
  | .s5 => 2
  | .s6 => 1
  | _ => 0

/-- **C129, connect ends**: in every such run a process in connect can go on and comes closer to the end with each step, unless it waits for the lock; then another process has the
lock, and that one can go on: it is in connect itself, or in an operation. -/
theorem C129_progress_partial (run : List (Label D)) (hs : Safe bs n zero init run) {s : State D} (he : exec bs n zero init run = some s) (i : Nat) (hi : s.mode i ≠ .dead)
    (hc : ¬ Connected s i) :
    (∃ t, step bs n zero s (.adv i) = some t ∧ rest (t.mode i) < rest (s.mode i)) ∨
      (s.mode i = .c4 ∧ ∃ j, j ≠ i ∧ Holds s j ∧ ((s.mode j = .inside ∧ ∃ t, step bs n zero s (.leave j) = some t ∧ t.mode j = .idle) ∨
        ∃ t, step bs n zero s (.adv j) = some t ∧ rest (t.mode j) < rest (s.mode j))) := by
  have h := exec_inv run init_inv hs he
  have hcr := (C129_connect_partial run hs he).2.1
  -- every step of connect other than that of lock_queue is possible
  have key : ∀ j, s.mode j ≠ .dead → ¬ Connected s j → s.mode j ≠ .c4 → ∃ t, step bs n zero s (.adv j) = some t ∧ rest (t.mode j) < rest (s.mode j) := by
    intro j h1 h2 h3
    have hj := hcr j
    have hsem : s.mode j = .s6 → ∃ v, s.sem = some v := by
      intro e
      cases h with
      | none hsem hshm hlog hm h1 ha => have := hm j; rw [e] at this; cases this
      | made k hk hsem hshm hlog hm ha => exact ⟨_, hsem⟩
      | set k hk hsem hshm hlog hm ha => exact ⟨_, hsem⟩
      | noseg l hsem hshm hlog hm hl => exact ⟨_, hsem⟩
      | seg k g hsem hshm hlog hk hm hak ha => exact ⟨_, hsem⟩
      | ready l g hsem hshm hb hn hd hm hl => exact ⟨_, hsem⟩
    have hshm' : s.mode j = .s5 → ∃ g, s.shm = some g ∧ g.box_size = bs ∧ g.size = n := by
      intro e
      cases h with
      | none hsem hshm hlog hm h1 ha => have := hm j; rw [e] at this; cases this
      | made k hk hsem hshm hlog hm ha =>
        by_cases e' : j = k
        · rw [← e', e] at hk; cases hk
        · have := hm j e'; rw [e] at this; cases this
      | set k hk hsem hshm hlog hm ha =>
        by_cases e' : j = k
        · rw [← e', e] at hk; cases hk
        · have := hm j e'; rw [e] at this; cases this
      | noseg l hsem hshm hlog hm hl => have := hm j; rw [e] at this; cases this
      | seg k g hsem hshm hlog hk hm hak ha =>
        by_cases e' : j = k
        · rw [← e', e] at hk; simp at hk
        · have := hm j e'; rw [e] at this; cases this
      | ready l g hsem hshm hb hn hd hm hl => exact ⟨g, hshm, hb, hn⟩
    simp only [step]
    unfold adv
    cases e : s.mode j with
    | out => refine ⟨_, rfl, ?_⟩; simp only [State.go, upd_same]; split <;> decide
    | c4 => exact absurd e h3
    | s0 => refine ⟨_, rfl, ?_⟩; simp only [State.go, upd_same]; split <;> decide
    | s2 b => cases b <;> exact ⟨_, rfl, by simp only [State.go, upd_same]; decide⟩
    | s5 =>
      obtain ⟨g, hg, hb, hn⟩ := hshm' e
      rw [hg]
      simp only
      rw [if_neg (by rw [hb, hn]; simp)]
      exact ⟨_, rfl, by simp only [State.go, upd_same]; decide⟩
    | s6 =>
      obtain ⟨⟨l, c⟩, hv⟩ := hsem e
      simp only [State.unlock, hv]
      split <;> exact ⟨_, rfl, by simp only [State.go, upd_same]; decide⟩
    | idle => exact absurd (Or.inl e) h2
    | inside => exact absurd (Or.inr e) h2
    | crashed => exact absurd e hj
    | dead => exact absurd e h1
    | _ => exact ⟨_, rfl, by simp only [State.go, upd_same]; decide⟩
  by_cases h4 : s.mode i = .c4
  · -- waiting for the lock
    have wait : ∀ l c, s.sem = some (l, c) → LockOK s l →
        (∃ t, step bs n zero s (.adv i) = some t ∧ rest (t.mode i) < rest (s.mode i)) ∨ ∃ j, j ≠ i ∧ holds (s.mode j) = true := by
      intro l c hsem hl
      rcases hl with ⟨h1, h2⟩ | ⟨h1, k, h2, _⟩
      · left
        simp only [step]
        unfold adv
        rw [h4]
        simp only [State.lock, hsem]
        rw [if_pos (by omega)]
        exact ⟨_, rfl, by simp only [State.go, upd_same]; decide⟩
      · right
        refine ⟨k, ?_, h2⟩
        intro e
        rw [e, h4] at h2
        cases h2
    have goes : ∀ j, j ≠ i → holds (s.mode j) = true → ((s.mode j = .inside ∧ ∃ t, step bs n zero s (.leave j) = some t ∧ t.mode j = .idle) ∨
        ∃ t, step bs n zero s (.adv j) = some t ∧ rest (t.mode j) < rest (s.mode j)) := by
      intro j _ hj
      by_cases hin : s.mode j = .inside
      · left
        refine ⟨hin, ?_⟩
        obtain ⟨l, g, hsem, _⟩ := connected_ready h (Or.inr hin)
        simp only [step, hin, if_true, State.unlock, hsem]
        split <;> exact ⟨_, rfl, upd_same _ _ _⟩
      · right
        refine key j ?_ ?_ ?_
        · intro e; rw [e] at hj; cases hj
        · intro e
          rcases e with e | e
          · rw [e] at hj; cases hj
          · exact hin e
        · intro e; rw [e] at hj; cases hj
    have fin : (∃ t, step bs n zero s (.adv i) = some t ∧ rest (t.mode i) < rest (s.mode i)) ∨ ∃ j, j ≠ i ∧ holds (s.mode j) = true := by
      cases h with
      | none hsem hshm hlog hm h1 ha => have := hm i; rw [h4] at this; cases this
      | made k hk hsem hshm hlog hm ha =>
        by_cases e' : i = k
        · rw [← e', h4] at hk; cases hk
        · have := hm i e'; rw [h4] at this; cases this
      | set k hk hsem hshm hlog hm ha =>
        by_cases e' : i = k
        · rw [← e', h4] at hk; cases hk
        · have := hm i e'; rw [h4] at this; cases this
      | noseg l hsem hshm hlog hm hl => exact wait l _ hsem hl
      | seg k g hsem hshm hlog hk hm hak ha =>
        right
        refine ⟨k, ?_, ?_⟩
        · intro e; rw [e, h4] at hk; simp at hk
        · rcases hk with hk | ⟨hk, _⟩ | ⟨hk, _, _⟩ <;> rw [hk] <;> rfl
      | ready l g hsem hshm hb hn hd hm hl => exact wait l _ hsem hl
    rcases fin with f | ⟨j, hj, hh⟩
    · exact Or.inl f
    · exact Or.inr ⟨h4, j, hj, (holds_iff s j).mpr hh, goes j hj hh⟩
  · exact Or.inl (key i hi hc h4)

/-- `k` steps of connect in process `i`. -/
def advs (D : Type) (i k : Nat) : List (Label D) := List.replicate k (.adv i)

/-- **C130.** After any run in which processes were killed at any place except four, when no process is making the semaphores or has the lock: a process that connects is
connected after at most twelve steps of its own, to a queue with its parameters in which nothing is changed.  Missing: the four places (`C130_refuted_stuck`, `C130_refuted_crash`). -/
theorem C130_kills_partial (run : List (Label D)) (hs : Safe bs n zero init run) {s : State D} (he : exec bs n zero init run = some s) (i : Nat) (hi : s.mode i = .out)
    (hfree : ∀ j, ¬ Making s j ∧ ¬ Holds s j) :
    ∃ k t, k ≤ 12 ∧ exec bs n zero s (advs D i k) = some t ∧ t.mode i = .idle ∧
      ∃ l g, t.sem = some (l, countAfter (done run)) ∧ t.shm = some g ∧ g.box_size = bs ∧ g.size = n ∧ g.mem = memAfter zero (done run) := by
  have h := exec_inv run init_inv hs he
  rw [List.nil_append] at h
  have one : ∀ l, LockOK s l → l = 1 := by
    intro l hl
    rcases hl with ⟨h1, _⟩ | ⟨_, k, h2, _⟩
    · exact h1
    · exact absurd ((holds_iff s k).mpr h2) (hfree k).2
  cases h with
  | none hsem hshm hlog hm h1 ha =>
    refine ⟨12, ?_⟩
    simp [advs, exec, step, adv, hi, hsem, hshm, hlog, State.go, State.lock, State.unlock, upd, SEMVMX, List.replicate, countAfter, memAfter]
  | made k hk hsem hshm hlog hm ha => exact absurd (Or.inr (Or.inl hk)) (hfree k).1
  | set k hk hsem hshm hlog hm ha => exact absurd (Or.inr (Or.inr hk)) (hfree k).1
  | noseg l hsem hshm hlog hm hl =>
    have := one l hl
    subst this
    refine ⟨9, ?_⟩
    simp [advs, exec, step, adv, hi, hsem, hshm, hlog, State.go, State.lock, State.unlock, upd, SEMVMX, List.replicate, countAfter, memAfter]
  | seg k g hsem hshm hlog hk hm hak ha =>
    refine absurd ((holds_iff s k).mpr ?_) (hfree k).2
    rcases hk with hk | ⟨hk, _⟩ | ⟨hk, _, _⟩ <;> rw [hk] <;> rfl
  | ready l g hsem hshm hb hn hd hm hl =>
    have := one l hl
    subst this
    refine ⟨6, ?_⟩
    simp [advs, exec, step, adv, hi, hsem, hshm, hb, hn, hd, State.go, State.lock, State.unlock, upd, SEMVMX, List.replicate]

/-! ## refutations -/

/-- Process 1 has seen that there are no semaphores; then process 0 makes them and does `k` steps of connect in all. -/
def late (D : Type) (k : Nat) : List (Label D) := [.adv 1] ++ advs D 0 k

/-- **C129 is false: two processes have the lock.** Two processes that connect for the first time both see that there are no semaphores; while the first is in an operation, the second
sets the lock to 1 and takes it. -/
theorem C129_refuted_lock : ∃ s, exec bs n zero init (late D 12 ++ [.enter 0] ++ advs D 1 4) = some s ∧ s.mode 0 = .inside ∧ s.mode 1 = .s0 := by
  simp [late, advs, exec, step, adv, init, State.go, State.lock, State.unlock, upd, SEMVMX, List.replicate]

/-- **C129 is false: a box is lost.** The first process has put a box into the queue; the second sets the counting semaphore to 0. -/
theorem C129_refuted_count : ∃ s l, exec bs n zero init (late D 12 ++ [.count 0 1] ++ advs D 1 8) = some s ∧ s.mode 0 = .idle ∧ s.mode 1 = .idle ∧
    done (late D 12 ++ [.count 0 1] ++ advs D 1 8) = [.count 1] ∧ s.sem = some (l, 0) := by
  simp [late, advs, exec, step, adv, init, State.go, State.lock, State.unlock, upd, SEMVMX, List.replicate, done]

/-- **C129 is false: the queue is wiped.** Both are in connect_shm and have seen that there is no segment; the second one clears what the first has done with it, and for a
moment even the parameters are 0. -/
theorem C129_refuted_memory (f : D → D) :
    (∃ s g, exec bs n zero init (late D 6 ++ advs D 1 5 ++ advs D 0 6 ++ [.enter 0, .body 0 f, .leave 0] ++ advs D 1 2) = some s ∧ s.mode 0 = .idle ∧ s.shm = some g ∧
      g.box_size = 0 ∧ g.size = 0 ∧ g.mem = zero) ∧
    ∃ s g, exec bs n zero init (late D 6 ++ advs D 1 5 ++ advs D 0 6 ++ [.enter 0, .body 0 f, .leave 0] ++ advs D 1 6) = some s ∧ s.mode 0 = .idle ∧ s.mode 1 = .idle ∧
      s.shm = some g ∧ g.mem = zero ∧ done (late D 6 ++ advs D 1 5 ++ advs D 0 6 ++ [.enter 0, .body 0 f, .leave 0] ++ advs D 1 6) = [.mem f] := by
  constructor <;> simp [late, advs, exec, step, adv, init, State.go, State.lock, State.unlock, upd, SEMVMX, List.replicate, done]

/-- The semaphores are there, and the lock is 0 for ever. -/
def Stuck (s : State D) : Prop := (∃ c, s.sem = some (0, c)) ∧ (∀ j, beside (s.mode j) = true) ∧ ∀ j, s.adj j = 0

theorem stuck_step {s t : State D} (h : Stuck s) (a : Label D) (ht : step bs n zero s a = some t) : Stuck t := by
  obtain ⟨⟨c, hc⟩, hm, ha⟩ := h
  have no : ∀ i, s.mode i ≠ .idle ∧ s.mode i ≠ .inside := fun i => ⟨(fun e => by have := hm i; rw [e] at this; cases this), (fun e => by have := hm i; rw [e] at this; cases this)⟩
  cases a with
  | adv i =>
    simp only [step] at ht
    have hmi := hm i
    unfold adv at ht
    split at ht <;> rename_i he <;> rw [he] at hmi <;> try (cases hmi)
    · cases ht
      rw [hc]
      exact ⟨⟨c, hc⟩, upd_all (P := fun m => beside m = true) (fun j _ => hm j) rfl, ha⟩
    · simp only [State.lock, hc] at ht
      cases ht
    · cases ht
  | enter i => simp only [step, if_neg (no i).1] at ht; cases ht
  | body i f => simp only [step, if_neg (no i).2] at ht; cases ht
  | leave i => simp only [step, if_neg (no i).2] at ht; cases ht
  | count i x =>
    simp only [step, hc] at ht
    rw [if_neg (fun e => e.1.elim (no i).1 (no i).2)] at ht
    cases ht
  | disconnect i => simp only [step, if_neg (no i).1] at ht; cases ht
  | kill i =>
    simp only [step] at ht
    split at ht
    · cases ht
    · cases ht
      refine ⟨⟨c, ?_⟩, upd_all (P := fun m => beside m = true) (fun j _ => hm j) rfl, upd_all (P := fun x => x = 0) (fun j _ => ha j) rfl⟩
      simp [State.fin, State.go, hc, ha i]

theorem stuck_exec : ∀ (run : List (Label D)) {s t : State D}, Stuck s → exec bs n zero s run = some t → Stuck t
  | [], _, _, h, ht => by cases ht; exact h
  | a :: r, s, t, h, ht => by
    simp only [exec] at ht
    cases hx : step bs n zero s a with
    | none => rw [hx] at ht; cases ht
    | some u => rw [hx] at ht; exact stuck_exec r (stuck_step h a hx) ht

/-- **C130 is false: the queue can never be used.** A process is killed after it has made the semaphores and before it has set the first one to 1: whatever happens then, however many
processes connect, none is ever connected or has the lock. -/
theorem C130_refuted_stuck : ∃ s, exec bs n zero init (advs D 0 2 ++ [.kill 0]) = some s ∧
    ∀ (run : List (Label D)) (t : State D), exec bs n zero s run = some t → ∀ i, ¬ Connected t i ∧ ¬ Holds t i := by
  refine ⟨_, rfl, ?_⟩
  intro run t ht i
  have h := stuck_exec run (s := _) ?_ ht
  · have hm := h.2.1 i
    rw [holds_iff]
    unfold Connected
    revert hm
    cases t.mode i <;> simp [beside, holds]
  · refine ⟨⟨0, rfl⟩, ?_, ?_⟩
    · intro j
      simp only [init, State.fin, State.go, upd]
      by_cases e : j = 0 <;> simp [e, beside]
    · intro j
      simp only [init, State.fin, State.go, upd]
      by_cases e : j = 0 <;> simp [e]

/-- Where a process can be when the parameters are wrong. -/
def lost : Mode → Bool
  | .out | .c4 | .s0 | .s2 false | .s5 | .crashed | .dead => true
  | _ => false

/-- The segment is there with wrong parameters, and nobody is connected. -/
def Broken (bs n : Nat) (s : State D) : Prop :=
  s.sem.isSome = true ∧ (∃ g, s.shm = some g ∧ (bs ≠ g.box_size ∨ n ≠ g.size)) ∧
    ∀ j, lost (s.mode j) = true

theorem broken_step {s t : State D} (h : Broken bs n s) (a : Label D) (ht : step bs n zero s a = some t) : Broken bs n t := by
  obtain ⟨hsem, ⟨g, hg, hp⟩, hm⟩ := h
  have no : ∀ i, s.mode i ≠ .idle ∧ s.mode i ≠ .inside := fun i => ⟨(fun e => by have := hm i; rw [e] at this; cases this), (fun e => by have := hm i; rw [e] at this; cases this)⟩
  have all : ∀ i m, lost m = true →
      ∀ j, lost (upd s.mode i m j) = true :=
    fun i m hx => upd_all (P := fun m => lost m = true) (fun j _ => hm j) hx
  cases a with
  | adv i =>
    simp only [step] at ht
    have hmi := hm i
    unfold adv at ht
    split at ht <;> rename_i he <;> rw [he] at hmi <;> try (cases hmi)
    · cases ht
      rw [hsem]
      exact ⟨hsem, ⟨g, hg, hp⟩, all i _ rfl⟩
    · unfold State.lock at ht
      cases hv : s.sem with
      | none => rw [hv] at ht; cases ht
      | some v =>
        rw [hv] at ht
        simp only at ht
        split at ht
        · cases ht
          exact ⟨rfl, ⟨g, hg, hp⟩, all i _ rfl⟩
        · cases ht
    · cases ht
      rw [hg]
      exact ⟨hsem, ⟨g, hg, hp⟩, all i _ rfl⟩
    · cases ht
      exact ⟨hsem, ⟨g, hg, hp⟩, all i _ rfl⟩
    · rw [hg] at ht
      simp only [if_pos hp] at ht
      cases ht
      exact ⟨by simpa [State.fin, State.go] using hsem, ⟨g, hg, hp⟩, all i _ rfl⟩
    all_goals cases ht
  | enter i => simp only [step, if_neg (no i).1] at ht; cases ht
  | body i f => simp only [step, if_neg (no i).2] at ht; cases ht
  | leave i => simp only [step, if_neg (no i).2] at ht; cases ht
  | count i x =>
    simp only [step] at ht
    cases hv : s.sem with
    | none => rw [hv] at ht; cases ht
    | some v =>
      rw [hv] at ht
      simp only at ht
      rw [if_neg (fun e => e.1.elim (no i).1 (no i).2)] at ht
      cases ht
  | disconnect i => simp only [step, if_neg (no i).1] at ht; cases ht
  | kill i =>
    simp only [step] at ht
    split at ht
    · cases ht
    · cases ht
      exact ⟨by simpa [State.fin, State.go] using hsem, ⟨g, hg, hp⟩, all i _ rfl⟩

theorem broken_exec : ∀ (run : List (Label D)) {s t : State D}, Broken bs n s → exec bs n zero s run = some t → Broken bs n t
  | [], _, _, h, ht => by cases ht; exact h
  | a :: r, s, t, h, ht => by
    simp only [exec] at ht
    cases hx : step bs n zero s a with
    | none => rw [hx] at ht; cases ht
    | some u => rw [hx] at ht; exact broken_exec r (broken_step h a hx) ht

/-- **C130 is false: every later connect dereferences NULL.** A process is killed after it has made the segment, before or after memset, or between the two parameters (7, 8 or 9
steps): nobody is ever connected, whatever happens then; and each process that connects next crashes at its fifth step. -/
theorem C130_refuted_crash (hn : n ≠ 0) (k : Nat) (hk : k = 7 ∨ k = 8 ∨ k = 9) : ∃ s, exec bs n zero init (advs D 0 k ++ [.kill 0]) = some s ∧
    (∀ (run : List (Label D)) (t : State D), exec bs n zero s run = some t → ∀ i, ¬ Connected t i) ∧
      ∀ i, i ≠ 0 → ∃ t, exec bs n zero s (advs D i 5) = some t ∧ t.mode i = .crashed := by
  have fin : ∀ s : State D, Broken bs n s → ∀ (run : List (Label D)) (t : State D), exec bs n zero s run = some t → ∀ i, ¬ Connected t i := by
    intro s hb run t ht i
    have hm := (broken_exec run hb ht).2.2 i
    unfold Connected
    revert hm
    cases t.mode i <;> simp [lost]
  rcases hk with rfl | rfl | rfl
  all_goals
    refine ⟨_, rfl, fin _ ⟨rfl, ⟨_, rfl, Or.inr hn⟩, ?_⟩, ?_⟩
    · intro j
      by_cases e : j = 0 <;> simp [init, State.fin, State.go, upd, e, lost]
    · intro i hi
      simp [advs, exec, step, adv, init, State.go, State.lock, State.fin, upd, List.replicate, hi, hn]

/-! ## examples -/

/-- A run that meets the premises: process 0 makes the queue and is killed in an operation, while 1 waits; 1 and 2 connect, both work, 1 leaves. -/
def sample : List (Label Nat) :=
  advs Nat 0 12 ++ [.enter 0, .body 0 (· + 5)] ++ advs Nat 1 1 ++ [.kill 0] ++ advs Nat 1 3 ++ advs Nat 2 1 ++ advs Nat 1 2 ++ [.enter 1, .body 1 (· * 2), .count 1 1, .leave 1] ++
    advs Nat 2 5 ++ [.count 2 (-1), .disconnect 1]

/-- The process of a step. -/
def who : Label D → Nat
  | .adv i | .enter i | .body i _ | .leave i | .count i _ | .disconnect i | .kill i => i

/-- `Safe`, checked for runs of the first `N` processes. -/
def chkAct (N : Nat) (s : State D) : Label D → Bool
  | .adv i => s.mode i != .out || (List.range N).all fun j => !(s.mode j == .c1 || s.mode j == .c2 || s.mode j == .c3)
  | .kill i => s.mode i != .c2 && s.mode i != .s2 true && s.mode i != .s3 && s.mode i != .s4
  | _ => true

def chk (N bs n : Nat) (zero : D) (s : State D) : List (Label D) → Bool
  | [] => true
  | x :: xs => decide (who x < N) && chkAct N s x && (match step bs n zero s x with
    | some t => chk N bs n zero t xs
    | none => true)

theorem step_mode {s t : State D} {x : Label D} (h : step bs n zero s x = some t) (j : Nat) (hj : j ≠ who x) : t.mode j = s.mode j := by
  cases x with
  | adv i =>
    simp only [step, adv, State.lock, State.unlock] at h
    repeat' split at h
    all_goals first | (cases h; done) | (cases h; exact upd_ne _ _ hj)
  | body i f => simp only [step] at h; split at h <;> cases h; rfl
  | count i x => simp only [step] at h; repeat' split at h
                 all_goals first | (cases h; done) | (cases h; rfl)
  | enter i => simp only [step, State.lock] at h; repeat' split at h
               all_goals first | (cases h; done) | (cases h; exact upd_ne _ _ hj)
  | leave i => simp only [step, State.unlock] at h; repeat' split at h
               all_goals first | (cases h; done) | (cases h; exact upd_ne _ _ hj)
  | disconnect i => simp only [step] at h; split at h <;> cases h; exact upd_ne _ _ hj
  | kill i => simp only [step] at h; split at h <;> cases h; exact upd_ne _ _ hj

theorem chk_safe (N : Nat) : ∀ (run : List (Label D)) (s : State D), (∀ j, N ≤ j → s.mode j = .out) → chk N bs n zero s run = true → Safe bs n zero s run
  | [], _, _, _ => trivial
  | x :: xs, s, hN, h => by
    simp only [chk, Bool.and_eq_true, decide_eq_true_eq] at h
    refine ⟨?_, fun t ht => ?_⟩
    · have h2 := h.1.2
      cases x with
      | adv i =>
        intro ho j hm
        simp only [chkAct, ho, bne_self_eq_false, Bool.false_or, List.all_eq_true, List.mem_range] at h2
        by_cases hj : j < N
        · have := h2 j hj
          rcases hm with hm | hm | hm <;> rw [hm] at this <;> simp at this
        · have := hN j (by omega)
          rcases hm with hm | hm | hm <;> rw [hm] at this <;> cases this
      | kill i =>
        simp only [chkAct, Bool.and_eq_true, bne_iff_ne] at h2
        exact ⟨h2.1.1.1, h2.1.1.2, h2.1.2, h2.2⟩
      | _ => trivial
    · have h3 := h.2
      rw [ht] at h3
      refine chk_safe N xs t (fun j hj => ?_) h3
      rw [step_mode ht j (by have := h.1.1; omega)]
      exact hN j hj

theorem sample_safe : Safe 8 3 0 init sample := chk_safe 3 _ _ (fun _ _ => rfl) (by decide +kernel)

example : ∃ s, exec 8 3 0 init sample = some s ∧ s.mode 0 = .dead ∧ s.mode 1 = .out ∧ s.mode 2 = .idle ∧ s.sem = some (1, 0) ∧ (s.shm.map fun g => (g.box_size, g.size, g.mem)) = some (8, 3, 10) := by
  simp [sample, advs, List.replicate, exec, step, adv, init, State.go, State.lock, State.unlock, State.fin, upd, SEMVMX]

/-- The premises of `C130_kills_partial`: a process is killed between the two calls of SETVAL, another one connects. -/
example : ∃ s : State Nat, exec 8 3 0 init (advs Nat 0 3 ++ [.kill 0]) = some s ∧ ∃ k t, k ≤ 12 ∧ exec 8 3 0 s (advs Nat 1 k) = some t ∧ t.mode 1 = .idle := by
  refine ⟨_, rfl, ?_⟩
  obtain ⟨k, t, h1, h2, h3, _⟩ := C130_kills_partial (bs := 8) (n := 3) (zero := 0) (advs Nat 0 3 ++ [.kill 0]) (chk_safe 2 _ _ (fun _ _ => rfl) (by decide +kernel)) rfl 1 rfl (by
    intro j
    rw [holds_iff]
    by_cases e : j = 0 <;> simp [Making, holds, init, State.go, State.fin, upd, e])
  exact ⟨k, t, h1, h2, h3⟩

/-- The premises of `C129_progress_partial`: process 1 waits for the lock, which process 0 has in connect. -/
example : ∃ s : State Nat, exec 8 3 0 init (advs Nat 0 7 ++ advs Nat 1 1) = some s ∧ s.mode 0 = .s2 true ∧ s.mode 1 = .c4 ∧ step 8 3 0 s (.adv 1) = none :=
  ⟨_, rfl, rfl, rfl, rfl⟩

example : Safe 8 3 0 init (advs Nat 0 7 ++ advs Nat 1 1) := chk_safe 2 _ _ (fun _ _ => rfl) (by decide +kernel)

end Verif.QueueMake
