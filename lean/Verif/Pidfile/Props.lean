/-
  C68: the pid file.
-/
import Verif.Pidfile.Lemmas

namespace Verif.Pidfile

/-- Specification vocabulary: process `i` has succeeded in coda_mkpidf and has not stopped. -/
def State.running (s : State) (i : Nat) : Bool :=
  match s.proc i with
  | .run _ _ => true
  | _ => false

/-- … and its write was complete. -/
def State.complete (s : State) (i : Nat) : Bool :=
  match s.proc i with
  | .run _ f => f
  | _ => false

/-- The content of the pid file: none if there is no file at the path. -/
def State.content (s : State) : Option (List UInt8) := s.path.map (fun n => (s.file n).data)

/-- C68: in every history of any number of processes, with system calls failing and processes killed anywhere, at most one process has
succeeded and not stopped. -/
theorem C68_exclusion (pid : Nat → Nat) (ls : List Label) (s : State) (h : exec true pid init ls = some s) (i j : Nat)
    (hi : s.running i = true) (hj : s.running j = true) : i = j := by
  have hv := inv_exec ls init s (inv_init pid) h
  unfold State.running at hi hj
  refine hv.one i j ?_ ?_
  · cases hm : s.proc i <;> rw [hm] at hi <;> first | (simp at hi; done) | simp [Mode.won]
  · cases hm : s.proc j <;> rw [hm] at hj <;> first | (simp at hj; done) | simp [Mode.won]

/-- C68: as long as a process has succeeded and not stopped, the path leads to a file with its number in it (a part of the number, if
the write was cut short). -/
theorem C68_content (pid : Nat → Nat) (ls : List Label) (s : State) (h : exec true pid init ls = some s) (i : Nat)
    (hi : s.running i = true) : ∃ d, s.content = some d ∧ d ≠ [] ∧ (s.complete i = true → d = text (pid i)) := by
  have hv := inv_exec ls init s (inv_init pid) h
  unfold State.running at hi
  cases hm : s.proc i with
  | run n f =>
    obtain ⟨h1, h2⟩ := hv.won i n f (by rw [hm]; rfl)
    refine ⟨(s.file n).data, ?_, h2, ?_⟩
    · unfold State.content; rw [h1]; rfl
    · intro hc
      unfold State.complete at hc
      rw [hm] at hc
      have hc : f = true := hc
      subst hc
      exact hv.full i n (by rw [hm]; rfl)
  | _ => rw [hm] at hi; exact absurd hi (by simp)

/-- C68: a process outside coda_mkpidf holds no lock, whether it has succeeded, failed or died. -/
theorem C68_no_lock_left (pid : Nat → Nat) (ls : List Label) (s : State) (h : exec true pid init ls = some s) (i n : Nat)
    (hi : s.running i = true ∨ s.proc i = .failed ∨ s.proc i = .dead ∨ s.proc i = .idle) : (s.file n).lock ≠ some i := by
  have hv := inv_exec ls init s (inv_init pid) h
  refine no_lock hv ?_ n
  rcases hi with hi | hi | hi | hi
  · unfold State.running at hi
    cases hm : s.proc i <;> rw [hm] at hi <;> first | (simp at hi; done) | rfl
  all_goals (rw [hi]; rfl)

/-- Process `i` alone, without failures, up to the end of coda_mkpidf. -/
def alone (pid : Nat → Nat) (i : Nat) : Nat → State → State
  | 0, s => s
  | k + 1, s =>
    match go pid s i with
    | some t => alone pid i k t
    | none => s

theorem alone_go {pid : Nat → Nat} {i k : Nat} {s t : State} (h : go pid s i = some t) : alone pid i (k + 1) s = alone pid i k t := by
  show (match go pid s i with | some t => alone pid i k t | none => s) = _
  rw [h]

theorem alone_stop {pid : Nat → Nat} {i k : Nat} {s : State} (h : go pid s i = none) : alone pid i k s = s := by
  cases k with
  | zero => rfl
  | succ k =>
    show (match go pid s i with | some t => alone pid i k t | none => s) = _
    rw [h]

theorem upd_self (s : State) (i : Nat) (m : Mode) : (s.upd i m).proc i = m := by simp [State.upd]

/-- An opened file that is empty and unlocked: coda_mkpidf goes through. -/
theorem alone_free (pid : Nat → Nat) (i n : Nat) (s : State) (hi : s.proc i = .opened n) (hd : (s.file n).data = [])
    (hl : (s.file n).lock = none) : (alone pid i 5 s).proc i = .run n true ∧ ((alone pid i 5 s).file n).data = text (pid i) ∧
      (alone pid i 5 s).path = s.path := by
  let s1 := (s.setFile n { s.file n with lock := some i }).upd i (.locked n)
  have g1 : go pid s i = some s1 := by
    unfold go; rw [hi]; simp only [flock, hl]; rfl
  have p1 : s1.proc i = .locked n := upd_self _ _ _
  have d1 : (s1.file n).data = [] := by
    show (if n = n then _ else _ : File).data = []
    rw [if_pos rfl]; exact hd
  let s2 := s1.upd i (.fresh n)
  have g2 : go pid s1 i = some s2 := by
    unfold go; rw [p1]; simp only [fstat, d1]; rfl
  have p2 : s2.proc i = .fresh n := upd_self _ _ _
  let s3 := write s2 i n (text (pid i)) true
  have g3 : go pid s2 i = some s3 := by unfold go; rw [p2]
  have p3 : s3.proc i = .wrote n true := upd_self _ _ _
  have d3 : (s3.file n).data = text (pid i) := by
    show (if n = n then _ else _ : File).data = _
    rw [if_pos rfl]
    show text (pid i) ++ (s1.file n).data.drop _ = _
    rw [d1]; simp
  let s4 := (s3.release i n).upd i (.unlocked n true)
  have g4 : go pid s3 i = some s4 := by unfold go; rw [p3]
  have p4 : s4.proc i = .unlocked n true := upd_self _ _ _
  let s5 := (s4.release i n).upd i (.run n true)
  have g5 : go pid s4 i = some s5 := by unfold go; rw [p4]
  rw [alone_go g1, alone_go g2, alone_go g3, alone_go g4, alone_go g5]
  refine ⟨upd_self _ _ _, ?_, ?_⟩
  · show ((s4.release i n).file n).data = _
    rw [release_data]
    show ((s3.release i n).file n).data = _
    rw [release_data]
    exact d3
  · show (s4.release i n).path = s.path
    rw [release_path]
    show (s3.release i n).path = s.path
    rw [release_path]
    rfl

/-- C68: a process that calls coda_mkpidf and is not disturbed succeeds if there is no pid file, or an empty one that nobody has
locked. -/
theorem C68_succeeds (pid : Nat → Nat) (s : State) (i : Nat)
    (hi : s.proc i = .called) (hfree : s.content = none ∨ ∃ n, s.path = some n ∧ s.file n = ⟨[], none⟩) :
    (alone pid i 6 s).running i = true ∧ (alone pid i 6 s).content = some (text (pid i)) := by
  have fin : ∀ (n : Nat) (t : State), t.proc i = .opened n → t.file n = ⟨[], none⟩ → t.path = some n →
      (alone pid i 5 t).running i = true ∧ (alone pid i 5 t).content = some (text (pid i)) := by
    intro n t h1 h2 h3
    obtain ⟨a, b, c⟩ := alone_free pid i n t h1 (by rw [h2]) (by rw [h2])
    refine ⟨?_, ?_⟩
    · unfold State.running; rw [a]
    · unfold State.content; rw [c, h3]; simp [b]
  have g : go pid s i = some (open_ s i) := by unfold go; rw [hi]
  rw [alone_go g]
  rcases hfree with hn | ⟨n, h1, h2⟩
  · have hq : s.path = none := by
      unfold State.content at hn
      cases hp : s.path with
      | none => rfl
      | some k => rw [hp] at hn; exact absurd hn (by simp)
    refine fin s.next _ ?_ ?_ ?_
    · unfold open_; rw [hq]; exact upd_self _ _ _
    · unfold open_; rw [hq]
      show (if s.next = s.next then _ else _) = _
      rw [if_pos rfl]
    · unfold open_; rw [hq]; rfl
  · refine fin n _ ?_ ?_ ?_
    · unfold open_; rw [h1]; exact upd_self _ _ _
    · unfold open_; rw [h1]; exact h2
    · unfold open_; rw [h1]; exact h1

/-- C68: if the pid file is not empty – also one that a killed process left behind – an undisturbed call fails and leaves it as it is. -/
theorem C68_refuses (pid : Nat → Nat) (s : State) (i : Nat) (hi : s.proc i = .called) (d : List UInt8) (hc : s.content = some d)
    (hd : d ≠ []) : (alone pid i 6 s).proc i = .failed ∧ (alone pid i 6 s).content = some d := by
  unfold State.content at hc
  cases hp : s.path with
  | none => rw [hp] at hc; exact absurd hc (by simp)
  | some n =>
    rw [hp] at hc
    simp only [Option.map_some, Option.some.injEq] at hc
    let s1 := s.upd i (.opened n)
    have g1 : go pid s i = some s1 := by unfold go; rw [hi]; simp only [open_, hp]; rfl
    have p1 : s1.proc i = .opened n := upd_self _ _ _
    cases hl : (s.file n).lock with
    | some j =>
      let s2 := s1.upd i (.bad2 n)
      have g2 : go pid s1 i = some s2 := by
        unfold go; rw [p1]
        have : (s1.file n).lock = some j := hl
        simp only [flock, this]; rfl
      have p2 : s2.proc i = .bad2 n := upd_self _ _ _
      let s3 := (s2.release i n).upd i .failed
      have g3 : go pid s2 i = some s3 := by unfold go; rw [p2]
      have p3 : s3.proc i = .failed := upd_self _ _ _
      rw [alone_go g1, alone_go g2, alone_go g3, alone_stop (by unfold go; rw [p3])]
      refine ⟨p3, ?_⟩
      unfold State.content
      have hq : s3.path = some n := by show (s2.release i n).path = _; rw [release_path]; exact hp
      rw [hq]
      show some ((s2.release i n).file n).data = some d
      rw [release_data]
      exact congrArg some hc
    | none =>
      let s2 := (s1.setFile n { s1.file n with lock := some i }).upd i (.locked n)
      have g2 : go pid s1 i = some s2 := by
        unfold go; rw [p1]
        have : (s1.file n).lock = none := hl
        simp only [flock, this]; rfl
      have p2 : s2.proc i = .locked n := upd_self _ _ _
      have d2 : (s2.file n).data = d := by
        show (if n = n then _ else _ : File).data = _
        rw [if_pos rfl]; exact hc
      let s3 := s2.upd i (.bad n)
      have g3 : go pid s2 i = some s3 := by
        unfold go; rw [p2]
        have : 0 < (s2.file n).data.length := by rw [d2]; exact List.length_pos_iff.mpr hd
        simp only [fstat]
        rw [if_pos this]
      have p3 : s3.proc i = .bad n := upd_self _ _ _
      let s4 := (s3.release i n).upd i (.bad2 n)
      have g4 : go pid s3 i = some s4 := by unfold go; rw [p3]
      have p4 : s4.proc i = .bad2 n := upd_self _ _ _
      let s5 := (s4.release i n).upd i .failed
      have g5 : go pid s4 i = some s5 := by unfold go; rw [p4]
      have p5 : s5.proc i = .failed := upd_self _ _ _
      rw [alone_go g1, alone_go g2, alone_go g3, alone_go g4, alone_go g5, alone_stop (by unfold go; rw [p5])]
      refine ⟨p5, ?_⟩
      unfold State.content
      have hq : s5.path = some n := by
        show (s4.release i n).path = _
        rw [release_path]
        show (s3.release i n).path = _
        rw [release_path]; exact hp
      rw [hq]
      show some ((s4.release i n).file n).data = some d
      rw [release_data]
      show some ((s3.release i n).file n).data = some d
      rw [release_data]
      exact congrArg some d2

/-- The number a decimal text denotes. -/
def numeral (l : List UInt8) : Nat := l.foldl (fun a c => 10 * a + (c.toNat - 48)) 0

/-- C68: the content that `C68_content` speaks of: the process number in decimal digits, without leading zeros, and a newline. -/
theorem C68_text (n : Nat) : ∃ d, text n = d ++ [10] ∧ d ≠ [] ∧ (∀ c ∈ d, 48 ≤ c.toNat ∧ c.toNat ≤ 57) ∧ numeral d = n ∧ (0 < n → d.head? ≠ some 48) := by
  refine ⟨digits n, rfl, ?_⟩
  have dig : ∀ k, k < 10 → (UInt8.ofNat (48 + k)).toNat = 48 + k := by
    intro k hk
    simp only [UInt8.toNat_ofNat']
    omega
  induction n using Nat.strongRecOn with
  | _ n ih =>
    unfold digits
    by_cases h : n < 10
    · simp only [h, dite_true]
      refine ⟨by simp, ?_, ?_, ?_⟩
      · intro c hc
        simp only [List.mem_singleton] at hc
        subst hc
        rw [dig n h]; omega
      · show 10 * 0 + ((UInt8.ofNat (48 + n)).toNat - 48) = n
        rw [dig n h]; omega
      · intro hn
        simp only [List.head?_cons, ne_eq, Option.some.injEq]
        intro e
        have := congrArg UInt8.toNat e
        rw [dig n h] at this
        have e48 : (48 : UInt8).toNat = 48 := rfl
        omega
    · simp only [h, dite_false]
      obtain ⟨h1, h2, h3, h4⟩ := ih (n / 10) (by omega)
      have hm : n % 10 < 10 := Nat.mod_lt _ (by omega)
      refine ⟨by simp, ?_, ?_, ?_⟩
      · intro c hc
        rcases List.mem_append.mp hc with hc | hc
        · exact h2 c hc
        · simp only [List.mem_singleton] at hc
          subst hc
          rw [dig _ hm]; omega
      · unfold numeral at h3 ⊢
        rw [List.foldl_append, h3]
        show 10 * (n / 10) + ((UInt8.ofNat (48 + n % 10)).toNat - 48) = n
        rw [dig _ hm]; omega
      · intro _
        have hd := h4 (by omega)
        cases hx : digits (n / 10) with
        | nil => exact absurd hx h1
        | cons a l => rw [hx] at hd; exact hd

example : text 120 = [49, 50, 48, 10] := by decide +kernel

/-! Histories that meet the hypotheses. -/

def full (i : Nat) : List Label := [.call i, .go i, .go i, .go i, .go i, .go i, .go i]

def exPid : Nat → Nat := fun i => 120 + i

/-- one succeeds; a second one that raced with it fails; the first one stops; the second one succeeds -/
example : (exec true exPid init ([.call 0, .go 0, .call 1, .go 1, .go 0, .go 1, .go 1, .go 0, .go 0, .go 0, .go 0])).map
    (fun s => (s.running 0, s.proc 1, s.content)) = some (true, .failed, some [49, 50, 48, 10]) := by decide +kernel
example : (exec true exPid init (full 0 ++ [.stop 0] ++ full 1)).map (fun s => (s.running 0, s.running 1, s.content)) =
    some (false, true, some [49, 50, 49, 10]) := by decide +kernel

/-- killed while holding the lock, before writing: the next one succeeds -/
example : (exec true exPid init ([.call 0, .go 0, .go 0, .go 0, .kill 0] ++ full 1)).map (fun s => (s.proc 0, s.running 1)) =
    some (.dead, true) := by decide +kernel

/-- a process waits between open and flock while the path is removed and made anew: it finds its old file not empty -/
example : (exec true exPid init ([.call 1] ++ full 0 ++ [.go 1, .stop 0] ++ full 2 ++ [.go 1, .go 1, .go 1, .go 1])).map
    (fun s => (s.running 2, s.proc 1)) = some (true, .failed) := by decide +kernel

/-- C68 needs its condition: if a process calls coda_daemon_stop although its coda_mkpidf failed, it removes the file of the one that is
running, and a third process succeeds as well. -/
theorem C68_stop_after_failure :
    (exec false exPid init (full 0 ++ [.call 1, .go 1, .go 1, .go 1, .go 1, .go 1, .stop 1] ++ full 2)).map
      (fun s => (s.running 0, s.running 2)) = some (true, true) := by decide +kernel

/-- A process that was killed after its success leaves its file behind: the next call fails. -/
theorem C68_stale_file :
    (exec true exPid init (full 0 ++ [.kill 0] ++ [.call 1, .go 1, .go 1, .go 1, .go 1, .go 1])).map
      (fun s => (s.proc 0, s.proc 1, s.content)) = some (.dead, .failed, some [49, 50, 48, 10]) := by decide +kernel

end Verif.Pidfile
