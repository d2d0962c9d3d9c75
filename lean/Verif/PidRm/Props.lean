import Verif.PidRm.Model
import Verif.Pidfile.Props
/-
  Property C199: pid files that are removed by hand.
-/
set_option linter.unusedSimpArgs false
set_option linter.unusedVariables false

namespace Verif.PidRm

open Verif.Pidfile

/-- A stale pid file: no process that has written to a pid file is running or starting, and the file is not empty (or there is none). -/
def Stale (s : State) : Prop :=
  (∀ i n f, s.proc i ≠ .wrote n f ∧ s.proc i ≠ .unlocked n f ∧ s.proc i ≠ .run n f) ∧ s.content ≠ some []

/-- Every removal of the history removes a stale file. -/
def Careful (pid : Nat → Nat) (as : List Act) : Prop := ∀ pre post s, as = pre ++ .rm :: post → hist pid init pre = some s → Stale s

theorem won_none {s : State} (h : Stale s) (i : Nat) : (s.proc i).won = none := by
  cases hm : s.proc i <;> simp only [Mode.won]
  · exact absurd hm (h.1 i _ _).1
  · exact absurd hm (h.1 i _ _).2.1
  · exact absurd hm (h.1 i _ _).2.2

theorem inv_rm {pid : Nat → Nat} {s : State} (h : Inv pid s) (hs : Stale s) : Inv pid (rm s) := by
  refine ⟨h.holds, h.lock, h.fresh, ?_, h.full, ?_, h.one, ?_, h.has, h.later⟩
  · intro i n f hw
    have : (s.proc i).won = some (n, f) := hw
    rw [won_none hs i] at this
    cases this
  · intro n hn hd
    exfalso
    have hp := h.empty n hn hd
    apply hs.2
    unfold State.content
    rw [hp]
    exact congrArg some hd
  · intro n hn; cases hn

theorem hist_append (pid : Nat → Nat) : ∀ (as bs : List Act) (s : State), hist pid s (as ++ bs) = (hist pid s as).bind (fun t => hist pid t bs) := by
  intro as
  induction as with
  | nil => intro bs s; rfl
  | cons a as ih =>
    intro bs s
    cases a with
    | step l =>
      simp only [List.cons_append, hist]
      cases Pidfile.step true pid s l with
      | none => rfl
      | some t => exact ih bs t
    | rm => exact ih bs (rm s)

theorem inv_hist (pid : Nat → Nat) : ∀ (as pre : List Act) (s t : State), hist pid init pre = some s → Inv pid s → Careful pid (pre ++ as) → hist pid s as = some t → Inv pid t := by
  intro as
  induction as with
  | nil => intro pre s t _ h _ e; cases e; exact h
  | cons a as ih =>
    intro pre s t hp h hc e
    have hcons : pre ++ a :: as = (pre ++ [a]) ++ as := by simp
    cases a with
    | step l =>
      simp only [hist] at e
      cases h1 : Pidfile.step true pid s l with
      | none => rw [h1] at e; cases e
      | some u =>
        rw [h1] at e
        refine ih (pre ++ [.step l]) u t ?_ (inv_step h l u h1) (hcons ▸ hc) e
        rw [hist_append, hp]
        simp only [Option.bind_some, hist, h1]
    | rm =>
      refine ih (pre ++ [.rm]) (rm s) t ?_ (inv_rm h (hc pre as s rfl hp)) (hcons ▸ hc) e
      rw [hist_append, hp]
      rfl

/-- **C199, in part: stale pid files may be removed by hand.**  In every history of any number of processes, with system calls that fail and processes that are killed anywhere, and any number of
removals of stale files, at most one process has succeeded in coda_mkpidf and not stopped, and the file has its number.  Missing: removals of files that are empty (`C199_refuted_empty`) or not stale
(`C199_refuted_all`, `C199_refuted_two`). -/
theorem C199_exclusion_partial (pid : Nat → Nat) (as : List Act) (s : State) (hc : Careful pid as) (e : hist pid init as = some s) (i : Nat) (hi : s.running i = true) :
    (∀ j, s.running j = true → i = j) ∧ ∃ d, s.content = some d ∧ d ≠ [] ∧ (s.complete i = true → d = text (pid i)) := by
  have hv := inv_hist pid as [] init s rfl (inv_init pid) hc e
  unfold State.running at hi
  cases hm : s.proc i with
  | run n f =>
    refine ⟨fun j hj => ?_, ?_⟩
    · unfold State.running at hj
      refine hv.one i j (by rw [hm]; simp [Mode.won]) ?_
      cases hm' : s.proc j <;> rw [hm'] at hj <;> first | (simp at hj; done) | simp [Mode.won]
    · obtain ⟨h1, h2⟩ := hv.won i n f (by rw [hm]; rfl)
      refine ⟨(s.file n).data, by unfold State.content; rw [h1]; rfl, h2, fun hc => ?_⟩
      unfold State.complete at hc
      rw [hm] at hc
      have hc : f = true := hc
      subst hc
      exact hv.full i n (by rw [hm]; rfl)
  | _ => rw [hm] at hi; exact absurd hi (by simp)

theorem text_inj {a b : Nat} (h : text a = text b) : a = b := by
  obtain ⟨d, h1, _, _, h2, _⟩ := C68_text a
  obtain ⟨d', h3, _, _, h4, _⟩ := C68_text b
  rw [h1, h3] at h
  have := List.append_cancel_right h
  rw [← h2, ← h4, this]

/-- **C199: how to see that a pid file is stale**: it holds the number of a process that has ended (numbers are not used again, and no write was cut short). -/
theorem C199_check (pid : Nat → Nat) (as : List Act) (s : State) (k : Nat) (hc : Careful pid as) (e : hist pid init as = some s) (hinj : ∀ i j, pid i = pid j → i = j)
    (hfull : ∀ i n f, (s.proc i).won = some (n, f) → f = true) (ht : s.content = some (text (pid k))) (hk : s.proc k = .dead) : Stale s := by
  have hv := inv_hist pid as [] init s rfl (inv_init pid) hc e
  have key : ∀ i n f, (s.proc i).won ≠ some (n, f) := by
    intro i n f hw
    have := hfull i n f hw
    subst this
    have h1 := (hv.won i n true hw).1
    have h2 := hv.full i n hw
    unfold State.content at ht
    rw [h1] at ht
    have ht : (s.file n).data = text (pid k) := by simpa using ht
    rw [h2] at ht
    have := hinj i k (text_inj ht)
    subst this
    rw [hk] at hw
    cases hw
  refine ⟨fun i n f => ⟨fun h => ?_, fun h => ?_, fun h => ?_⟩, ?_⟩
  · exact key i n f (by rw [h]; rfl)
  · exact key i n f (by rw [h]; rfl)
  · exact key i n f (by rw [h]; rfl)
  · rw [ht]
    obtain ⟨d, h1, _⟩ := C68_text (pid k)
    rw [h1]
    simp

/-- **C199: after the removal a process that starts succeeds**, if it is not disturbed. -/
theorem C199_starts (pid : Nat → Nat) (s : State) (i : Nat) (hi : s.proc i = .called) :
    (alone pid i 6 (rm s)).running i = true ∧ (alone pid i 6 (rm s)).content = some (text (pid i)) :=
  C68_succeeds pid (rm s) i hi (Or.inl rfl)

theorem go_other {pid : Nat → Nat} {s t : State} {i j : Nat} (h : go pid s j = some t) (hij : i ≠ j) : t.proc i = s.proc i := by
  have hu : ∀ (u : State) (m : Mode), (u.upd j m).proc i = u.proc i := fun u m => by simp [State.upd, hij]
  have hr : ∀ (u : State) (n : Nat), (u.release j n).proc i = u.proc i := by
    intro u n
    unfold State.release
    split <;> rfl
  unfold go at h
  cases hm : s.proc j <;> rw [hm] at h <;> simp only [Option.some.injEq, reduceCtorEq] at h
  · subst h
    unfold open_
    cases s.path <;> simp only [hu]
  · subst h
    unfold flock
    split <;> simp only [hu] <;> rfl
  · subst h
    unfold fstat
    split <;> simp only [hu]
  · subst h
    unfold write
    simp only [hu]; rfl
  all_goals (subst h; simp only [hu, hr])

theorem alone_other {pid : Nat → Nat} {i j : Nat} (hij : i ≠ j) : ∀ (k : Nat) (s : State), (alone pid j k s).proc i = s.proc i := by
  intro k
  induction k with
  | zero => intro s; rfl
  | succ k ih =>
    intro s
    show (match go pid s j with | some t => alone pid j k t | none => s).proc i = _
    cases h : go pid s j with
    | none => rfl
    | some t => simp only; rw [ih t, go_other h hij]

/-- **C199 is false for all other removals of files**: whenever the file of a process that is running is removed, any other process that starts succeeds too. -/
theorem C199_refuted_all (pid : Nat → Nat) (s : State) (i j : Nat) (hi : s.running i = true) (hij : i ≠ j) (hj : s.proc j = .called) :
    (alone pid j 6 (rm s)).running i = true ∧ (alone pid j 6 (rm s)).running j = true := by
  refine ⟨?_, (C199_starts pid s j hj).1⟩
  unfold State.running at hi ⊢
  rw [alone_other hij]
  exact hi

/-- All steps of a start. -/
def start (i : Nat) : List Act := [.step (.call i), .step (.go i), .step (.go i), .step (.go i), .step (.go i), .step (.go i), .step (.go i)]

/-- **C199 is false for two administrators**, each of whom looks first: both see that the process 0 has ended; one of them removes its file; the process 1 starts; the other one removes the file; the
process 2 starts. -/
theorem C199_refuted_two : (hist exPid init (start 0 ++ [.step (.kill 0)])).map (fun s => (s.content, s.proc 0)) = some (some (text (exPid 0)), .dead) ∧
    (hist exPid init (start 0 ++ [.step (.kill 0), .rm] ++ start 1 ++ [.rm] ++ start 2)).map (fun s => (s.running 1, s.running 2)) = some (true, true) := by
  constructor <;> decide +kernel

/-- **C199 is false for empty files**, although no process is running: a process that was killed has left an empty file; the process 1 has opened it; it is removed; the process 2 starts, and both
succeed. -/
theorem C199_refuted_empty : (hist exPid init [.step (.call 0), .step (.go 0), .step (.kill 0)]).map (fun s => (s.content, s.proc 0)) = some (some [], .dead) ∧
    (hist exPid init ([.step (.call 0), .step (.go 0), .step (.kill 0), .step (.call 1), .step (.go 1), .rm] ++ start 2 ++ [.step (.go 1), .step (.go 1), .step (.go 1), .step (.go 1), .step (.go 1)])).map
      (fun s => (s.running 1, s.running 2)) = some (true, true) := by
  constructor <;> decide +kernel

/-- **C199 is false for all removals of an empty file that a starting process has open**: that process goes on with the file that is gone, and any other one that starts makes a new file; both succeed. -/
theorem C199_refuted_empty_all (pid : Nat → Nat) (s : State) (j k n : Nat) (hjk : j ≠ k) (hj : s.proc j = .opened n) (hk : s.proc k = .called) (hd : (s.file n).data = [])
    (hl : (s.file n).lock = none) :
    (alone pid k 6 (alone pid j 5 (rm s))).running j = true ∧ (alone pid k 6 (alone pid j 5 (rm s))).running k = true := by
  obtain ⟨a, _, c⟩ := alone_free pid j n (rm s) hj hd hl
  have hk' : (alone pid j 5 (rm s)).proc k = .called := by rw [alone_other (Ne.symm hjk)]; exact hk
  refine ⟨?_, (C68_succeeds pid _ k hk' (Or.inl ?_)).1⟩
  · unfold State.running
    rw [alone_other hjk, a]
  · unfold State.content
    rw [c]
    rfl

/-- A process was killed and has left an empty file, the process 1 has opened it, the process 2 is about to start. -/
example : ((hist exPid init [.step (.call 0), .step (.go 0), .step (.kill 0), .step (.call 1), .step (.go 1), .step (.call 2)]).map (fun s => (s.proc 1, s.proc 2, s.file 0))) =
    some (.opened 0, .called, ⟨[], none⟩) := by decide +kernel

/-- A careful history: the process 0 is killed, its file is removed, the process 1 starts. -/
example : Careful exPid (start 0 ++ [.step (.kill 0), .rm] ++ start 1) := by
  intro pre post s e hs
  have hpre : pre = start 0 ++ [.step (.kill 0)] := by
    have h8 : ∀ k, k < 16 → (start 0 ++ [.step (.kill 0), .rm] ++ start 1)[k]? = some Act.rm → k = 8 := by decide +kernel
    have hget : (pre ++ Act.rm :: post)[pre.length]? = some .rm := by simp
    have hlen : pre.length < 16 := by
      have := congrArg List.length e
      simp [start] at this
      omega
    rw [← e] at hget
    have hl := h8 pre.length hlen hget
    have := congrArg (List.take 8) e
    rw [← hl, List.take_left' rfl] at this
    rw [← this, hl]
    rfl
  subst hpre
  have hst : (hist exPid init (start 0 ++ [.step (.kill 0)])) = some s := hs
  have h1 : (hist exPid init (start 0 ++ [.step (.kill 0)])).map (fun s => (s.content, s.proc 0)) = some (some (text (exPid 0)), .dead) := C199_refuted_two.1
  rw [hst] at h1
  simp only [Option.map_some, Option.some.injEq, Prod.mk.injEq] at h1
  have hrest : ∀ i, i ≠ 0 → s.proc i = .idle := by
    intro i hi
    have : (hist exPid init (start 0 ++ [.step (.kill 0)])).map (fun s => s.proc i) = some .idle := by
      simp [hist, start, Pidfile.step, go, open_, flock, fstat, write, Pidfile.kill, State.upd, State.setFile, State.release, init, hi]
    rw [hst] at this
    simpa using this
  refine ⟨fun i n f => ?_, ?_⟩
  · by_cases hi : i = 0
    · subst hi; rw [h1.2]; simp
    · rw [hrest i hi]; simp
  · rw [h1.1]; decide +kernel

example : (hist exPid init (start 0 ++ [.step (.kill 0), .rm] ++ start 1)).map (fun s => (s.running 1, s.content)) = some (true, some [49, 50, 49, 10]) := by decide +kernel

end Verif.PidRm
