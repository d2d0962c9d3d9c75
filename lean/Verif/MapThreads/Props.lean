/-
  C164: threads may use a hash map like processes do.
-/
import Verif.MapThreads.Lemmas

namespace Verif.MapThreads

open Verif.ShmPool Verif.ShmMap
open Verif.MapSys (Call Pend Event Loc)

variable {V : Type} {N H : Nat} {own : Nat → Nat}

/-- C164: any number of threads of any number of processes make any calls at the same time; any process may be killed, with all its threads, except while one of them is at the places of C52; any thread may
end anywhere.  What they see is a history of the atomic map: every call takes effect at one instant between its call and its return.  Missing: kills at the excepted places (C52_refuted_erase,
C52_refuted_clear). -/
theorem C164_atomic_partial (hN : N < 2 ^ 31) (hH : 0 < H) (t t' : Sys V) (h : Start H t) (as : List (Act V)) (hk : SafeKills own N H t as) (es : List (Event V))
    (e : exec own N H t as = some (t', es)) : MapSys.Spec.Atomic N MapSys.Spec.State.init es := by
  obtain ⟨h1, h2⟩ := start_abs (own := own) h
  obtain ⟨⟨ys, h3, h4⟩, _⟩ := sim_exec as h2 e
  exact MapSys.C117_atomic_partial hN hH _ _ h1 ys (h4 hk) es h3

/-- C164: a thread inside of a write section is alone there, among the threads of its process too; whatever processes have been killed and whatever threads have ended. -/
theorem C164_exclusion (t t' : Sys V) (h : Start H t) (as : List (Act V)) (es : List (Event V)) (e : exec own N H t as = some (t', es)) (i j : Nat) (hij : i ≠ j)
    (hi : t'.sys.rw.mode i = some .writing) : ¬ inside t' j := by
  have hI := (sim_exec as (start_abs (own := own) h).2 e).2
  rw [← abs_mode] at hi
  unfold inside
  rw [← abs_mode]
  simp only [RwLock.State.mode, Option.map_eq_some_iff] at hi ⊢
  obtain ⟨p, hp, hm⟩ := hi
  rintro (⟨q, hq, hm'⟩ | ⟨q, hq, hm'⟩)
  · exact (RwLock.inv_excl hI.rw hp hq hij hm).1 hm'
  · exact (RwLock.inv_excl hI.rw hp hq hij hm).2 hm'

/-- C164: the end of a process gives back the locks of all its threads, also of those that have left a section without a release, and of no others: the threads of other processes stay where they are, and if none of
them is inside of a section every connected thread takes the lock it waits for at once. -/
theorem C164_release (t t' : Sys V) (h : Start H t) (as : List (Act V)) (es : List (Event V)) (e : exec own N H t as = some (t', es)) (P : Nat) :
    (∀ i, own i ≠ P → (t'.kill own P).sys.rw.mode i = t'.sys.rw.mode i) ∧ (∀ i, own i = P → ¬ inside (t'.kill own P) i) ∧
    ((∀ i, own i ≠ P → ¬ inside t' i) → ∀ i c, own i ≠ P → t'.gone i = false → t'.sys.rw.mode i = some .out → t'.sys.pend i = .called c →
      (step own N H (t'.kill own P) (.lock i)).isSome) := by
  refine ⟨fun i hi => kill_mode_other t' hi, ?_, ?_⟩
  · intro i hi
    unfold inside
    rcases kill_mode_self t' hi with h | h <;> rw [h] <;> simp
  · intro hout i c hi hg hm hp
    have e' : exec own N H t (as ++ [.kill P]) = some (t'.kill own P, es ++ (victims own P 0 t'.sys.rw.procs).map .killed) := by
      have : exec own N H t' [.kill P] = some (t'.kill own P, (victims own P 0 t'.sys.rw.procs).map .killed) := by simp [exec, step]
      exact texec_append as [.kill P] e this
    have hI := (sim_exec _ (start_abs (own := own) h).2 e').2
    have hno : ∀ j, ¬ inside (t'.kill own P) j := by
      intro j
      by_cases hj : own j = P
      · unfold inside
        rcases kill_mode_self t' hj with h | h <;> rw [h] <;> simp
      · have := hout j hj
        unfold inside at this ⊢
        rw [kill_mode_other t' hj]
        exact this
    have hsem := sem_zero hI hno
    have hm' : (t'.kill own P).sys.rw.mode i = some .out := by rw [kill_mode_other t' hi]; exact hm
    have hv : i ∉ victims own P 0 t'.sys.rw.procs := fun h => hi (victims_own h)
    have hg' : (t'.kill own P).gone i = false := by simp only [Sys.kill, if_neg hv]; exact hg
    have hp' : (t'.kill own P).sys.pend i = .called c := by simp only [Sys.kill, if_neg hv]; exact hp
    exact lock_free hsem hg' hm' hp'

/-- C164 is false for a thread that ends inside of a write section — an exception of the assignment of a value inside `insert` is enough: until its process ends, whatever happens, no thread of any process gets a lock, to
read or to write. -/
theorem C164_refuted_exit (t t' t'' : Sys V) (h : Start H t) (as bs : List (Act V)) (es es' : List (Event V)) (e : exec own N H t as = some (t', es)) (i : Nat)
    (hi : t'.sys.rw.mode i = some .writing) (hg : t'.gone i = true) (hb : ∀ b ∈ bs, b ≠ .kill (own i)) (e' : exec own N H t' bs = some (t'', es')) (j : Nat) :
    step own N H t'' (.lock j) = none := by
  obtain ⟨h1, h2⟩ := gone_exec bs hg hb e'
  have hI := (sim_exec bs (sim_exec as (start_abs (own := own) h).2 e).2 e').2
  rw [hi] at h2
  have hw := (sem_pos hI).1 h2
  exact lock_none (fun a => (semop_w_none hw).1) (fun a => (semop_w_none hw).2)

/-- C164 is false for a thread that ends inside of a read section: until its process ends no thread of any process gets the lock to write. -/
theorem C164_refuted_read (t t' t'' : Sys V) (h : Start H t) (as bs : List (Act V)) (es es' : List (Event V)) (e : exec own N H t as = some (t', es)) (i : Nat)
    (hi : t'.sys.rw.mode i = some .reading) (hg : t'.gone i = true) (hb : ∀ b ∈ bs, b ≠ .kill (own i)) (e' : exec own N H t' bs = some (t'', es')) (j : Nat) (c : Call V)
    (hc : t''.sys.pend j = .called c) (hw : c.reads = false) : step own N H t'' (.lock j) = none := by
  obtain ⟨h1, h2⟩ := gone_exec bs hg hb e'
  have hI := (sim_exec bs (sim_exec as (start_abs (own := own) h).2 e).2 e').2
  rw [hi] at h2
  have hr := (sem_pos hI).2 h2
  exact lock_none_w hc hw (fun a => semop_r_none hr)

/-! Threads 0 and 1 belong to process 0, thread 2 to process 1. -/

def two : Nat → Nat := fun i => if i < 2 then 0 else 1

def t0 : Sys Nat := ⟨MapSys.s0, fun _ => ⟨0, 0⟩, fun _ => false⟩

theorem t0_start (H : Nat) : Start H t0 := ⟨MapSys.s0_start H, fun _ => rfl, fun _ => rfl⟩

/-- A complete call of thread `i`. -/
def whole (i : Nat) (c : Call Nat) : List (Act Nat) := [.call i c, .lock i] ++ List.replicate 24 (.body i) ++ [.unlock i, .ret i]

/-- Two threads of one process read at the same time, thread 2 waits to insert; the process is killed with one of the threads inside; thread 2 goes on. -/
def mixed : List (Act Nat) :=
  whole 0 (.op (.insert 4 40)) ++ [.connect 2, .call 0 (.op (.read 4)), .call 1 (.op (.read 4)), .call 2 (.op (.insert 6 60)), .lock 0, .lock 1, .body 0, .body 1] ++
  List.replicate 10 (.body 1) ++ [.unlock 1, .ret 1, .kill 0, .lock 2] ++ List.replicate 24 (.body 2) ++ [.unlock 2, .ret 2]

example : ((exec two 4 2 t0 mixed).map (·.2)) = some [.call 0 (.op (.insert 4 40)), .ret 0 [.bool true], .call 0 (.op (.read 4)), .call 1 (.op (.read 4)),
    .call 2 (.op (.insert 6 60)), .ret 1 [.val (some 40)], .killed 0, .killed 1, .ret 2 [.bool true]] := by decide +kernel

/-- A checker for executions whose kills find no thread that writes. -/
def calm (own : Nat → Nat) (N H : Nat) : Sys V → List (Act V) → Bool
  | _, [] => true
  | t, a :: as => t.sys.rw.procs.all (fun p => decide (p.mode ≠ .writing) || (match a with | .kill _ => false | _ => true)) &&
    (match step own N H t a with
      | some (t', _) => calm own N H t' as
      | none => true)

theorem safe_of : ∀ {as : List (Act V)} {t : Sys V}, calm own N H t as = true → SafeKills own N H t as
  | [], _, _ => trivial
  | a :: as, t, h => by
    simp only [calm, Bool.and_eq_true] at h
    refine ⟨?_, ?_⟩
    · cases a with
      | kill P =>
        intro i p hp _ hm
        have := List.all_eq_true.mp h.1 p (List.mem_of_getElem? hp)
        simp [hm] at this
      | _ => trivial
    · intro t' es e
      have := h.2
      rw [e] at this
      exact safe_of this

/-- The premises of `C164_atomic_partial` are met by `mixed`. -/
example : SafeKills two 4 2 t0 mixed := safe_of (by decide +kernel)

/-- Thread 0 inserts and its value's assignment throws: `stuck` is reached, and threads 1 and 2 wait. -/
def stuck : List (Act Nat) := [.connect 2, .call 0 (.op (.insert 4 40)), .lock 0, .body 0, .body 0, .body 0, .exit 0, .call 1 (.op (.read 4)), .call 2 (.op (.read 4))]

example : ((exec two 4 2 t0 stuck).map (fun r => (r.1.sys.rw.mode 0, r.1.gone 0))) = some (some .writing, true) ∧
    ((exec two 4 2 t0 (stuck ++ [.lock 1])).isSome, (exec two 4 2 t0 (stuck ++ [.lock 2])).isSome, (exec two 4 2 t0 (stuck ++ [.kill 0, .lock 2])).isSome) = (false, false, true) := by
  decide +kernel

/-- The same in a read section of thread 0: thread 2 can read, not write. -/
example : ((exec two 4 2 t0 [.connect 2, .call 0 (.readSection [4]), .lock 0, .body 0, .exit 0, .call 1 (.op (.read 4)), .lock 1]).map (fun r => (r.1.sys.rw.mode 0, r.1.gone 0))) =
    some (some .reading, true) ∧
    ((exec two 4 2 t0 [.connect 2, .call 0 (.readSection [4]), .lock 0, .body 0, .exit 0, .call 1 (.op (.insert 4 40)), .lock 1]).isSome,
     (exec two 4 2 t0 [.connect 2, .call 0 (.readSection [4]), .lock 0, .body 0, .exit 0, .call 2 (.op (.insert 4 40)), .kill 0, .lock 2]).isSome) = (false, true) := by
  decide +kernel

end Verif.MapThreads
