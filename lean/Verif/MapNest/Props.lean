/-
  C157: locks of the shared hash map inside of one another.  C158: fork while a lock is held.
-/
import Verif.MapNest.Lemmas

namespace Verif.MapNest
open Verif.RwLock Verif.MapNest.Spec

/-- C157: whatever the processes nest, a holder of the write lock is alone with it. -/
theorem C157_exclusive (n : Nat) (as : List Label) (s : State) (h : Sound (start n) as s) : Exclusive s :=
  exclusive_of_inv (inv_sound (inv_start n) h)

/-- Two nested read sections, another reader, a writer after them. -/
example : ∃ s, run (start 2) [.call 0 (.lock .read), .ret 0, .call 1 (.lock .read), .ret 1, .call 0 (.lock .read), .ret 0,
      .call 0 (.unlock .read), .ret 0, .call 0 (.unlock .read), .ret 0, .call 1 (.unlock .read), .ret 1,
      .call 1 (.lock .write), .ret 1] = some s ∧ s.procs.map (·.held) = [[], [.write]] :=
  ⟨_, rfl, by decide +kernel⟩

/-- C157: exactly when a call returns.  The read lock: nobody holds the write lock (and it is held less than 32767 times).  The write
lock: nobody, the caller included, holds anything.  A release: always. -/
theorem C157_grant (n : Nat) (as : List Label) (s : State) (i : Nat) (p : Proc) (h : Sound (start n) as s) (hp : s.procs[i]? = some p) :
    (p.wait = some (.lock .read) →
      ((step s (.ret i)).isSome = true ↔ (∀ q ∈ s.procs, Kind.write ∉ q.held) ∧ readers s < 32767)) ∧
    (p.wait = some (.lock .write) → ((step s (.ret i)).isSome = true ↔ ∀ q ∈ s.procs, q.held = [])) ∧
    (∀ k, p.wait = some (.unlock k) → (step s (.ret i)).isSome = true) := by
  have I := inv_sound (inv_start n) h
  refine ⟨fun hc => ?_, fun hc => ?_, fun k hc => grant_unlock I hp hc⟩
  · rw [grant_read I hp hc]
    exact and_congr Iff.rfl (by omega)
  · rw [grant_write I hp hc]
    exact ⟨fun h => h.1, fun h => ⟨h, rfl⟩⟩

/-- C157, the part that holds: whoever holds the read lock can call `read` and `size`, or lock for reading again, without waiting. -/
theorem C157_read_partial (n : Nat) (as : List Label) (s : State) (i : Nat) (p : Proc) (h : Sound (start n) as s)
    (hp : s.procs[i]? = some p) (hr : Kind.read ∈ p.held) (hw : p.wait = some (.lock .read)) (hm : readers s < 32767) :
    (step s (.ret i)).isSome = true := by
  refine ((C157_grant n as s i p h hp).1 hw).2 ⟨fun q hq hwq => ?_, hm⟩
  obtain ⟨j, hj⟩ := List.mem_iff_getElem?.1 hq
  have E := C157_exclusive n as s h j q hj hwq
  by_cases hij : i = j
  · subst hij
    rw [hp] at hj; cases hj
    rw [E.1] at hr; simp at hr
  · rw [E.2 i p hij hp] at hr; cases hr

/-- A second writer waits in the meantime: it does not get in between. -/
example : ∃ s, run (start 2) [.call 0 (.lock .read), .ret 0, .call 1 (.lock .write), .call 0 (.lock .read)] = some s ∧
      (step s (.ret 0)).isSome = true ∧ (step s (.ret 1)).isSome = false :=
  ⟨_, rfl, by decide +kernel⟩

/-- C157 is refuted: whoever asks for the write lock (`insert`, `erase`, `clear`) inside of a section, or for any lock (also `read`, `size`) inside
of a section that writes, waits for itself, in every continuation, until it is killed. -/
theorem C157_refuted (n : Nat) (as : List Label) (s : State) (i : Nat) (p : Proc) (k : Kind) (h : Sound (start n) as s)
    (hp : s.procs[i]? = some p) (hw : p.wait = some (.lock k)) (hk : k = .write ∧ p.held ≠ [] ∨ Kind.write ∈ p.held) : Stuck s i := by
  intro bs s' hb hn
  have ho : Own p := ⟨k, hw, hk⟩
  obtain ⟨I, hp'⟩ := own_run ho bs s s' (inv_sound (inv_start n) h) hp hb hn
  exact ⟨p, _, hp', hw, own_none I hp' ho⟩

/-- C157 is refuted: and with it wait all others: nobody gets the write lock, and nobody gets the read lock if it is the write lock that the
process holds. -/
theorem C157_refuted_others (n : Nat) (as : List Label) (s : State) (i : Nat) (p : Proc) (k : Kind) (h : Sound (start n) as s)
    (hp : s.procs[i]? = some p) (hw : p.wait = some (.lock k)) (hk : k = .write ∧ p.held ≠ [] ∨ Kind.write ∈ p.held) :
    Blocked s i .write ∧ (Kind.write ∈ p.held → Blocked s i .read) := by
  have ho : Own p := ⟨k, hw, hk⟩
  constructor
  · intro bs s' j q hb hn hq hqw
    obtain ⟨I, hp'⟩ := own_run ho bs s s' (inv_sound (inv_start n) h) hp hb hn
    rw [← Option.not_isSome_iff_eq_none]
    intro hsome
    have := ((grant_write I hq hqw).1 hsome).1 p (List.mem_iff_getElem?.2 ⟨i, hp'⟩)
    rcases hk with hk | hk
    · exact hk.2 this
    · rw [this] at hk; cases hk
  · intro hwr bs s' j q hb hn hq hqw
    obtain ⟨I, hp'⟩ := own_run ho bs s s' (inv_sound (inv_start n) h) hp hb hn
    rw [← Option.not_isSome_iff_eq_none]
    intro hsome
    exact ((grant_read I hq hqw).1 hsome).1 p (List.mem_iff_getElem?.2 ⟨i, hp'⟩) hwr

/-- lock_write_rw, then `insert`. -/
example : ∃ s p, run (start 2) [.call 0 (.lock .write), .ret 0, .call 0 (.lock .write), .call 1 (.lock .read)] = some s ∧ s.procs[0]? = some p ∧
      p.wait = some (.lock .write) ∧ Kind.write ∈ p.held ∧ (step s (.ret 0)).isSome = false ∧ (step s (.ret 1)).isSome = false :=
  ⟨_, _, rfl, rfl, by decide +kernel⟩

/-- C157, the part that holds: the end of a process gives back all that it held, however often, and a writer that waited for it alone gets in. -/
theorem C157_kill_partial (n : Nat) (as : List Label) (s s' : State) (i j : Nat) (q : Proc) (h : Sound (start n) as s)
    (hk : step s (.kill i) = some s') (hj : j ≠ i) (hq : s.procs[j]? = some q) (hw : q.wait = some (.lock .write))
    (hfree : ∀ (m : Nat) (r : Proc), m ≠ i → s.procs[m]? = some r → r.held = []) : (step s' (.ret j)).isSome = true := by
  have I' : Inv 0 s' := inv_step (a := .kill i) (inv_sound (inv_start n) h) trivial hk
  obtain ⟨p, hp, ha, rfl⟩ := step_kill hk
  have hq' : (s.procs.set i ⟨false, [], none, ⟨0, 0⟩⟩)[j]? = some q := by
    rw [List.getElem?_set_ne (Ne.symm hj)]; exact hq
  refine (grant_write I' hq' hw).2 ⟨fun r hr => ?_, rfl⟩
  obtain ⟨m, hm⟩ := List.mem_iff_getElem?.1 hr
  simp only at hm
  rw [List.getElem?_set] at hm
  split at hm
  · split at hm
    · cases hm; rfl
    · cases hm
  · rename_i hne
    exact hfree m r (fun h => hne h.symm) hm

/-- The process of the refutation is killed; the other one writes. -/
example : ∃ s, run (start 2) [.call 0 (.lock .read), .ret 0, .call 0 (.lock .read), .ret 0, .call 0 (.lock .write), .call 1 (.lock .write),
      .kill 0, .ret 1] = some s ∧ s.procs.map (·.held) = [[], [.write]] :=
  ⟨_, rfl, by decide +kernel⟩

/-- C158, the part that holds: forks outside of sections, and forks anywhere whose children do not touch the locks of their parents, change
nothing: exclusion holds, and releases do not wait. -/
theorem C158_fork_partial (n : Nat) (as : List Label) (s : State) (h : Sound (start n) as s) :
    Exclusive s ∧ ∀ (i : Nat) (p : Proc) (k : Kind), s.procs[i]? = some p → p.wait = some (.unlock k) → (step s (.ret i)).isSome = true :=
  ⟨C157_exclusive n as s h, fun i p k hp hc => (C157_grant n as s i p h hp).2.2 k hc⟩

/-- A fork in the middle of a section that writes; the child asks for a lock of its own and ends. -/
example : ∃ s, run (start 1) [.call 0 (.lock .write), .ret 0, .fork 0 false, .call 1 (.lock .read), .kill 1, .call 0 (.unlock .write), .ret 0,
      .fork 0 true, .call 2 (.lock .write), .ret 2] = some s ∧ s.procs.map (·.held) = [[], [], [.write]] :=
  ⟨_, rfl, by decide +kernel⟩

/-- C158 is refuted: parent and child return from the section in which the parent forked; when the child is out, a writer enters although
the parent still reads. -/
theorem C158_refuted_read : ∃ (as : List Label) (s : State), run (start 2) as = some s ∧ s.procs.map (·.alive) = [true, true, true] ∧
    s.procs.map (·.held) = [[.read], [.write], []] ∧ ¬ Exclusive s := by
  refine ⟨[.call 0 (.lock .read), .ret 0, .fork 0 true, .call 2 (.unlock .read), .ret 2, .call 1 (.lock .write), .ret 1], _, rfl,
    by decide +kernel, by decide +kernel, fun h => ?_⟩
  have := (h 1 _ rfl (by decide +kernel)).2 0 _ (by decide) rfl
  revert this
  decide +kernel

/-- C158 is refuted: the same with the write lock: two processes write. -/
theorem C158_refuted_write : ∃ (as : List Label) (s : State), run (start 2) as = some s ∧ s.procs.map (·.alive) = [true, true, true] ∧
    s.procs.map (·.held) = [[.write], [.write], []] ∧ ¬ Exclusive s := by
  refine ⟨[.call 0 (.lock .write), .ret 0, .fork 0 true, .call 2 (.unlock .write), .ret 2, .call 1 (.lock .write), .ret 1], _, rfl,
    by decide +kernel, by decide +kernel, fun h => ?_⟩
  have := (h 1 _ rfl (by decide +kernel)).2 0 _ (by decide) rfl
  revert this
  decide +kernel

/-- C158 is refuted: after the child's release the parent's own release waits. -/
theorem C158_refuted_release : ∃ (as : List Label) (s : State) (p : Proc), run (start 1) as = some s ∧ s.procs[0]? = some p ∧
    p.held = [.read] ∧ p.wait = some (.unlock .read) ∧ step s (.ret 0) = none := by
  refine ⟨[.call 0 (.lock .read), .ret 0, .fork 0 true, .call 1 (.unlock .read), .ret 1, .call 0 (.unlock .read)], _, _, rfl, rfl,
    by decide +kernel, by decide +kernel, ?_⟩
  rw [← Option.not_isSome_iff_eq_none]
  decide +kernel

/-- The history of the next theorem: the parent locks for reading and forks, the child releases, the parent is killed, the child ends. -/
def orphan : List Label :=
  [.call 0 (.lock .read), .ret 0, .fork 0 true, .call 3 (.unlock .read), .ret 3, .kill 0, .kill 3]

/-- C158 is refuted: after a parent that is killed and a child that ends after its release, the lock stays taken for reading although
nobody is left who took it: in no continuation does anybody get the write lock again. -/
theorem C158_refuted_orphan : ∃ s, run (start 3) orphan = some s ∧ (∀ p ∈ s.procs, p.held = []) ∧
    ∀ (as : List Label) (s' : State) (j : Nat) (q : Proc), Sound s as s' → s'.procs[j]? = some q → q.wait = some (.lock .write) →
      step s' (.ret j) = none := by
  refine ⟨_, rfl, by decide +kernel, fun as s' j q h hq hw => ?_⟩
  have I' := inv_sound (d := 1) ?_ h
  · rw [← Option.not_isSome_iff_eq_none]
    intro hs
    exact absurd ((grant_write I' hq hw).1 hs).2 (by decide)
  · refine ⟨by decide +kernel, by decide +kernel, by decide +kernel, by decide +kernel, by decide +kernel, ?_⟩
    have : ∀ p ∈ [(⟨false, [], none, ⟨0, 0⟩⟩ : Proc), ⟨true, [], none, ⟨0, 0⟩⟩], PInv p := by
      intro p hp
      simp only [List.mem_cons, List.not_mem_nil, or_false] at hp
      rcases hp with rfl | rfl
      · exact ⟨by decide, by simp, by simp⟩
      · exact ⟨by decide, by simp, by simp⟩
    intro i p hp
    refine this p ?_
    have hm := List.mem_iff_getElem?.2 ⟨i, hp⟩
    revert hm
    have : ∀ l : List Proc, l = [⟨false, [], none, ⟨0, 0⟩⟩, ⟨true, [], none, ⟨0, 0⟩⟩, ⟨true, [], none, ⟨0, 0⟩⟩, ⟨false, [], none, ⟨0, 0⟩⟩] →
        p ∈ l → p ∈ [(⟨false, [], none, ⟨0, 0⟩⟩ : Proc), ⟨true, [], none, ⟨0, 0⟩⟩] := by
      rintro l rfl h
      simp only [List.mem_cons, List.not_mem_nil, or_false] at h ⊢
      tauto
    exact this _ (by decide +kernel)

end Verif.MapNest
