/-
  C168: coda_random_init called by several threads.
-/
import Verif.RandomSys.Lemmas

namespace Verif.RandomSys

/-- **C168, what holds for all schedules.** After a call has returned 0, to whichever thread, every number that any thread draws comes from a stream whose seed was read
from the device. -/
theorem C168_seeded (gen : UInt32 → Nat → Nat) (s : Sys) (tr : List Obs) (h : Reach gen s tr) :
    ∀ x ∈ after tr, ∃ t v n, Obs.got t v ∈ tr ∧ x = gen v n := by
  induction h with
  | init => simp [after]
  | @step s tr s' o a hr hs ih =>
    have lift : ∀ {o}, (∀ x ∈ draws o, ∃ t v n, Obs.got t v ∈ tr ++ o ∧ x = gen v n) → (¬ Done tr → after (tr ++ o) = []) →
        ∀ x ∈ after (tr ++ o), ∃ t v n, Obs.got t v ∈ tr ++ o ∧ x = gen v n := by
      intro o h1 h2 x hx
      by_cases hd : Done tr
      · rw [after_done hd] at hx
        rcases List.mem_append.1 hx with hx | hx
        · obtain ⟨t, v, n, h3, h4⟩ := ih x hx
          exact ⟨t, v, n, List.mem_append_left _ h3, h4⟩
        · exact h1 x hx
      · rw [h2 hd] at hx
        cases hx
    cases a with
    | call u =>
      simp only [step] at hs
      split at hs <;> cases hs
      refine lift (by simp [draws]) (fun hd => after_not fun h => ?_)
      rcases done_append.1 h with h | ⟨t, h⟩
      · exact hd h
      · simp at h
    | draw u =>
      simp only [step] at hs
      split at hs <;> cases hs
      by_cases hd : Done tr
      · refine lift (fun x hx => ?_) (fun h => absurd hd h)
        have sd := seeded hr
        obtain ⟨t, ht⟩ := sd.gen (.inl (sd.done hd))
        simp only [draws, List.mem_singleton] at hx
        exact ⟨t, s.seed, s.pos, List.mem_append_left _ ht, hx⟩
      · intro x hx
        rw [after_not (fun h => ?_)] at hx
        · cases hx
        · rcases done_append.1 h with h | ⟨t, h⟩
          · exact hd h
          · simp at h
    | go u v =>
      have hdr : draws o = [] := by
        simp only [step, advance] at hs
        split at hs <;> (try split at hs) <;> cases hs <;> rfl
      refine lift (by rw [hdr]; simp) (fun hd => ?_)
      simp only [step, advance] at hs
      have one : ∀ x : Obs, after (tr ++ [x]) = after ([x] : List Obs) := by
        intro x
        clear ih lift hs hr
        induction tr with
        | nil => rfl
        | cons y tr ih2 =>
          have hd' : ¬ Done tr := fun ⟨t, ht⟩ => hd ⟨t, List.mem_cons_of_mem _ ht⟩
          rw [List.cons_append, after]
          · exact ih2 hd'
          · rintro t rfl
            exact hd ⟨t, List.mem_cons_self ..⟩
      have ret : ∀ t rc, after [Obs.ret t rc] = [] := by
        intro t rc
        unfold after
        split <;> simp_all [draws, after]
      split at hs <;> (try split at hs) <;> cases hs <;>
        first | (rw [List.append_nil]; exact after_not hd) | (rw [one]; exact ret _ _) | (rw [one]; rfl)

/-- **C168, in part.** If no call begins while another one is going on, until one has returned 0, then the numbers that the program draws after the first call that returned 0
are, in the order of the draws and whichever threads make them, successive numbers of one stream: nothing seeds the generator again. Missing: first calls that overlap, for
which it is false. -/
theorem C168_once_partial (gen : UInt32 → Nat → Nat) (s : Sys) (tr : List Obs) (h : Reach gen s tr) (ht : Tidy tr) : Section gen (after tr) := by
  rcases quiet h ht with ⟨-, hd, -⟩ | ⟨-, -, n, k, -, e⟩
  · rw [after_not hd]
    exact ⟨0, 0, rfl⟩
  · refine ⟨s.seed, n, ?_⟩
    rw [e, List.length_map, List.length_range]

/-- Thread 1 makes the first call, twice because the device fails; threads 1, 2 and 3 draw, 2 and 3 call together. -/
def tidySample : List Act := [.call 1, .go 1 none, .go 1 none, .call 1, .go 1 none, .go 1 (some 0), .draw 2, .go 1 (some 77), .go 1 none, .go 1 none, .go 1 none, .go 1 none,
  .draw 1, .call 2, .call 3, .draw 4, .go 3 none, .go 2 none, .draw 2, .draw 3]

/-- A generator all of whose numbers are different. -/
def sampleGen (v : UInt32) (n : Nat) : Nat := v.toNat + 4294967296 * n

example : ((exec sampleGen (.init, []) tidySample).map fun c => (c.2, after c.2)) =
    some ([.call 1, .ret 1 (-1), .call 1, .draw 2 1, .got 1 77, .ret 1 0, .draw 1 77, .call 2, .call 3, .draw 4 (77 + 4294967296), .ret 3 0, .ret 2 0,
      .draw 2 (77 + 2 * 4294967296), .draw 3 (77 + 3 * 4294967296)],
      [77, 77 + 4294967296, 77 + 2 * 4294967296, 77 + 3 * 4294967296]) := by decide +kernel

/-- Its observations are tidy, checked for every place where a call begins. -/
example : ∀ tr, (exec sampleGen (.init, []) tidySample).map (·.2) = some tr → Tidy tr := by
  intro tr h pre t post e
  have h' : tr = [.call 1, .ret 1 (-1), .call 1, .draw 2 1, .got 1 77, .ret 1 0, .draw 1 77, .call 2, .call 3, .draw 4 (77 + 4294967296), .ret 3 0, .ret 2 0,
      .draw 2 (77 + 2 * 4294967296), .draw 3 (77 + 3 * 4294967296)] := by
    have : (exec sampleGen (.init, []) tidySample).map (·.2) = some [.call 1, .ret 1 (-1), .call 1, .draw 2 1, .got 1 77, .ret 1 0, .draw 1 77, .call 2, .call 3,
      .draw 4 (77 + 4294967296), .ret 3 0, .ret 2 0, .draw 2 (77 + 2 * 4294967296), .draw 3 (77 + 3 * 4294967296)] := by decide +kernel
    rw [this] at h
    exact (Option.some.inj h).symm
  rw [h'] at e
  have hl : pre.length < 14 := by
    have := congrArg List.length e
    simp at this
    omega
  have hpre : pre = ([.call 1, .ret 1 (-1), .call 1, .draw 2 1, .got 1 77, .ret 1 0, .draw 1 77, .call 2, .call 3, .draw 4 (77 + 4294967296), .ret 3 0, .ret 2 0,
      .draw 2 (77 + 2 * 4294967296), .draw 3 (77 + 3 * 4294967296)] : List Obs).take pre.length := by rw [e]; simp
  by_cases h6 : 6 ≤ pre.length
  · left
    refine ⟨1, ?_⟩
    rw [hpre]
    exact List.mem_of_getElem? (i := 5) (by rw [List.getElem?_take, if_pos (by omega)]; rfl)
  · right
    intro u
    have hg : ([.call 1, .ret 1 (-1), .call 1, .draw 2 1, .got 1 77, .ret 1 0, .draw 1 77, .call 2, .call 3, .draw 4 (77 + 4294967296), .ret 3 0, .ret 2 0,
      .draw 2 (77 + 2 * 4294967296), .draw 3 (77 + 3 * 4294967296)] : List Obs)[pre.length]? = some (.call t) := by rw [e]; simp
    rw [hpre]
    have : pre.length = 0 ∨ pre.length = 1 ∨ pre.length = 2 ∨ pre.length = 3 ∨ pre.length = 4 ∨ pre.length = 5 := by omega
    rcases this with h | h | h | h | h | h <;> rw [h] at hg ⊢ <;> simp at hg
    · rfl
    · by_cases hu : u = 1
      · subst hu; rfl
      · simp [inCall, enters]

/-- Drawing `n` numbers. -/
theorem draw_many (gen : UInt32 → Nat → Nat) (t n : Nat) : ∀ (s : Sys) (tr : List Obs), s.pc t = .idle → Reach gen s tr →
    Reach gen { s with pos := s.pos + n } (tr ++ (List.range n).map fun i => .draw t (gen s.seed (s.pos + i))) := by
  induction n with
  | zero => intro s tr _ h; simpa using h
  | succ n ih =>
    intro s tr hp h
    have h1 := ih s tr hp h
    have h2 := Reach.step (.draw t) h1 (by rw [step, if_pos hp])
    rw [List.append_assoc] at h2
    rw [List.range_succ, List.map_append]
    exact h2

theorem draws_map (f : Nat → Nat) (t : Nat) (l : List Nat) : draws (l.map fun i => .draw t (f i)) = l.map f := by
  induction l with
  | nil => rfl
  | cons a l ih => simp [draws, ih]

/-- **C168 is false for first calls that overlap.** For every generator, all values `a` and `b` of the device and every number `n`: thread 1 can call it, get 0 and draw `n`
numbers of the stream of `a`; then a thread 2 that has found the flag not set before seeds the generator, and what thread 1 draws next is the first number of the stream of
`b`, and, if the device gave `b = a`, the number that it drew first. If the numbers of all streams are different, the numbers drawn after the first call that returned 0 are not successive numbers of one stream. -/
theorem C168_refuted (gen : UInt32 → Nat → Nat) (a b : UInt32) (n : Nat) :
    ∃ s tr, Reach gen s tr ∧ after tr = ((List.range n).map fun i => gen a i) ++ [gen b 0] ∧
      (0 < n → (∀ v i w j, gen v i = gen w j → v = w ∧ i = j) → ¬ Section gen (after tr)) := by
  have h0 : ∃ s, exec gen (.init, []) [.call 1, .call 2, .go 2 none, .go 1 none, .go 1 (some 0), .go 1 (some a), .go 1 none, .go 1 none, .go 1 none, .go 1 none] =
      some (s, [.call 1, .call 2, .got 1 a, .ret 1 0]) ∧ s.pc 1 = .idle ∧ s.pc 2 = .opn ∧ s.seed = a ∧ s.pos = 0 ∧ s.inited = true := ⟨_, rfl, rfl, rfl, rfl, rfl, rfl⟩
  obtain ⟨s, e0, p1, p2, es, ep, ei⟩ := h0
  have r0 := exec_reach (.init) e0
  have r1 := draw_many gen 1 n s _ p1 r0
  have h2 : ∃ s', exec gen ({ s with pos := s.pos + n }, [Obs.call 1, .call 2, .got 1 a, .ret 1 0] ++ (List.range n).map fun i => .draw 1 (gen s.seed (s.pos + i)))
      [.go 2 (some 0), .go 2 (some b), .go 2 none, .go 2 none, .draw 1] =
      some (s', (([Obs.call 1, .call 2, .got 1 a, .ret 1 0] ++ (List.range n).map fun i => .draw 1 (gen s.seed (s.pos + i))) ++ [.got 2 b]) ++ [.draw 1 (gen b 0)]) := by
    refine ⟨{ ({ ((({ s with pos := s.pos + n }.goto 2 .rd).goto 2 (.cls b)).goto 2 (.seed b)) with seed := b, pos := 0 }.goto 2 .set) with pos := 1 }, ?_⟩
    simp only [exec, step, advance, p2, goto_pc, if_true, p1, List.append_nil]
    simp [Sys.goto]
  obtain ⟨s', e2⟩ := h2
  have r2 := exec_reach r1 e2
  have ea : after ((([Obs.call 1, .call 2, .got 1 a, .ret 1 0] ++ (List.range n).map fun i => .draw 1 (gen s.seed (s.pos + i))) ++ [.got 2 b]) ++ [.draw 1 (gen b 0)]) =
      ((List.range n).map fun i => gen a i) ++ [gen b 0] := by
    simp only [List.cons_append, List.nil_append, after, draws_append, draws_map, es, ep, draws, Nat.zero_add, List.append_nil]
  refine ⟨_, _, r2, ea, fun hn inj => ?_⟩
  rintro ⟨v, k, e⟩
  rw [ea] at e
  have l0 := congrArg (·[0]?) e
  have l1 := congrArg (·[n]?) e
  simp only [List.length_append, List.length_map, List.length_range, List.length_singleton, List.getElem?_map] at l0 l1
  rw [List.getElem?_append_left (by simpa using hn)] at l0
  rw [List.getElem?_append_right (by simp)] at l1
  simp [hn] at l0 l1
  have i0 := inj _ _ _ _ l0
  have i1 := inj _ _ _ _ l1
  omega

/-- There are such generators. -/
example : ∀ v i w j, sampleGen v i = sampleGen w j → v = w ∧ i = j := by
  intro v i w j h
  unfold sampleGen at h
  have h1 := v.toNat_lt
  have h2 := w.toNat_lt
  exact ⟨UInt32.toNat_inj.1 (by omega), by omega⟩

end Verif.RandomSys
