import Verif.MapSys.Props
/-
  Property C126: a client's own critical sections (lock, unprotected operations, unlock) are atomic.
-/
namespace Verif.MapSys

open Verif.ShmPool Verif.ShmMap

variable {V : Type} {N H : Nat}

theorem skip_call {i : Nat} {c : Call V} {s : Spec.State V} {es : List (Event V)} (h : Spec.Atomic N s es) : ∀ {pre rest : List (Event V)}, es = pre ++ .call i c :: rest →
    ∃ s1, s1.st i = .before c ∧ Spec.Atomic N s1 rest := by
  induction h with
  | nil => intro pre rest he; simp at he
  | @call s j d es hst h ih =>
    intro pre rest he
    cases pre with
    | nil =>
      simp only [List.nil_append, List.cons.injEq, Event.call.injEq] at he
      obtain ⟨⟨rfl, rfl⟩, rfl⟩ := he
      exact ⟨_, set_same' _ _ _, h⟩
    | cons e pre =>
      simp only [List.cons_append, List.cons.injEq] at he
      exact ih he.2
  | effect hst h ih => intro pre rest he; exact ih he
  | ret hst h ih =>
    intro pre rest he
    cases pre with
    | nil => simp at he
    | cons e pre => simp only [List.cons_append, List.cons.injEq] at he; exact ih he.2
  | killedOut hst h ih =>
    intro pre rest he
    cases pre with
    | nil => simp at he
    | cons e pre => simp only [List.cons_append, List.cons.injEq] at he; exact ih he.2
  | iterated hp hd h ih =>
    intro pre rest he
    cases pre with
    | nil => simp at he
    | cons e pre => simp only [List.cons_append, List.cons.injEq] at he; exact ih he.2
  | killedIn hst hp h ih =>
    intro pre rest he
    cases pre with
    | nil => simp at he
    | cons e pre => simp only [List.cons_append, List.cons.injEq] at he; exact ih he.2

theorem ret_of {i : Nat} {rs : List (Ret V)} {s : Spec.State V} {es : List (Event V)} (h : Spec.Atomic N s es) : ∀ {pre rest : List (Event V)}, es = pre ++ .ret i rs :: rest →
    (∀ e ∈ pre, (∀ rs, e ≠ .ret i rs) ∧ e ≠ .killed i) →
    s.st i = .out ∨ s.st i = .after rs ∨ ∃ c l lk, s.st i = .before c ∧ rs = Spec.answer c (Spec.stepsL N lk l (Spec.meaning c)).2.2 := by
  induction h with
  | nil => intro pre rest he; simp at he
  | @call s j d es hst h ih =>
    intro pre rest he hn
    by_cases hj : i = j
    · subst hj; exact .inl hst
    · cases pre with
      | nil => simp at he
      | cons e pre =>
        simp only [List.cons_append, List.cons.injEq] at he
        have := ih he.2 (fun e h => hn e (List.mem_cons_of_mem _ h))
        rw [set_other' _ _ hj] at this
        exact this
  | @effect s j d es hst h ih =>
    intro pre rest he hn
    by_cases hj : i = j
    · subst hj
      rcases ih he hn with h' | h' | ⟨c, _, _, h', _⟩ <;> rw [set_same'] at h' <;> cases h'
      exact .inr (.inr ⟨d, s.map, s.lost, hst, rfl⟩)
    · have := ih he hn
      rw [set_other' _ _ hj] at this
      exact this
  | @ret s j r es hst h ih =>
    intro pre rest he hn
    cases pre with
    | nil =>
      simp only [List.nil_append, List.cons.injEq, Event.ret.injEq] at he
      obtain ⟨⟨rfl, rfl⟩, _⟩ := he
      exact .inr (.inl hst)
    | cons e pre =>
      simp only [List.cons_append, List.cons.injEq] at he
      have hj : i ≠ j := by
        rintro rfl
        exact (hn e (List.mem_cons_self)).1 r he.1.symm
      have := ih he.2 (fun e h => hn e (List.mem_cons_of_mem _ h))
      rw [set_other' _ _ hj] at this
      exact this
  | @killedOut s j es hst h ih =>
    intro pre rest he hn
    cases pre with
    | nil => simp at he
    | cons e pre =>
      simp only [List.cons_append, List.cons.injEq] at he
      have hj : i ≠ j := by
        rintro rfl
        exact (hn e (List.mem_cons_self)).2 he.1.symm
      have := ih he.2 (fun e h => hn e (List.mem_cons_of_mem _ h))
      rw [set_other' _ _ hj] at this
      exact this
  | iterated hp hd h ih =>
    intro pre rest he hn
    cases pre with
    | nil => simp at he
    | cons e pre =>
      simp only [List.cons_append, List.cons.injEq] at he
      exact ih he.2 (fun e h => hn e (List.mem_cons_of_mem _ h))
  | @killedIn s s' j d es hst hp h ih =>
    intro pre rest he hn
    cases pre with
    | nil => simp at he
    | cons e pre =>
      simp only [List.cons_append, List.cons.injEq] at he
      have hj : i ≠ j := by
        rintro rfl
        exact (hn e (List.mem_cons_self)).2 he.1.symm
      have := ih he.2 (fun e h => hn e (List.mem_cons_of_mem _ h))
      rw [set_other' _ _ hj] at this
      have hs : s'.st = s.st := by cases hp <;> rfl
      rw [hs] at this
      exact this

theorem call_ret {i : Nat} {c : Call V} {rs : List (Ret V)} {es1 es2 es3 : List (Event V)}
    (h : Spec.Atomic N Spec.State.init (es1 ++ .call i c :: (es2 ++ .ret i rs :: es3))) (hn : ∀ e ∈ es2, (∀ rs, e ≠ .ret i rs) ∧ e ≠ .killed i) :
    ∃ l lk, rs = Spec.answer c (Spec.stepsL N lk l (Spec.meaning c)).2.2 := by
  obtain ⟨s1, h1, h2⟩ := skip_call h rfl
  rcases ret_of h2 rfl hn with h' | h' | ⟨d, l, lk, h', h''⟩ <;> rw [h1] at h' <;> cases h'
  exact ⟨l, lk, h''⟩

theorem reads_results (N lk : Nat) (l : Spec.Bindings V) : ∀ ks : List UInt64, (Spec.stepsL N lk l (ks.map .read)).2.2 = ks.map (fun k => .val (ShmMap.Spec.lookup l k)) := by
  intro ks
  induction ks with
  | nil => rfl
  | cons k ks ih =>
    simp only [List.map_cons, Spec.stepsL, ShmMap.Spec.stepL, ShmMap.Spec.step]
    rw [ih]

/-- **C126, a read section is a snapshot.** Between its own `lock_read_rw()` and `unlock_read_rw()` a client sees one and the same map, whatever others do meanwhile: there is a finite
map `l` such that every `unprotected_read(k)` of the section returned what `l` has for `k`.  Missing: kills of other processes at the places of C52. -/
theorem C126_snapshot_partial (hN : N < 2 ^ 31) (hH : 0 < H) (s s' : Sys V) (h : Start H s) (xs : List (Act V)) (hk : SafeKills N H s xs) (i : Nat) (ks : List UInt64) (rs : List (Ret V))
    (es1 es2 es3 : List (Event V)) (he : exec N H s xs = some (s', es1 ++ .call i (.readSection ks) :: (es2 ++ .ret i rs :: es3))) (hn : ∀ e ∈ es2, (∀ rs, e ≠ .ret i rs) ∧ e ≠ .killed i) :
    ∃ l : ShmMap.Spec.Bindings V, rs = ks.map (fun k => .val (ShmMap.Spec.lookup l k)) := by
  obtain ⟨l, lk, h⟩ := call_ret (C117_atomic_partial hN hH s s' h xs hk _ he) hn
  exact ⟨l, by rw [h]; exact reads_results N lk l ks⟩

/-- **C126, nothing comes between.** Between its own `lock_write_rw()` and `unlock_write_rw()` a client's `unprotected_read`, `unprotected_insert` and `unprotected_erase` return what they
return when nobody else uses the map: there is a finite map `l`, with `lk` lost entries, such that the results are those of the operations made one after the other from `l`.  Missing: as
for `C126_snapshot_partial`. -/
theorem C126_undisturbed_partial (hN : N < 2 ^ 31) (hH : 0 < H) (s s' : Sys V) (h : Start H s) (xs : List (Act V)) (hk : SafeKills N H s xs) (i : Nat) (us : List (Unprot V)) (rs : List (Ret V))
    (es1 es2 es3 : List (Event V)) (he : exec N H s xs = some (s', es1 ++ .call i (.writeSection us) :: (es2 ++ .ret i rs :: es3))) (hn : ∀ e ∈ es2, (∀ rs, e ≠ .ret i rs) ∧ e ≠ .killed i) :
    ∃ (l : ShmMap.Spec.Bindings V) (lk : Nat), rs = (Spec.stepsL N lk l (Spec.meaning (.writeSection us))).2.2 := by
  obtain ⟨l, lk, h⟩ := call_ret (C117_atomic_partial hN hH s s' h xs hk _ he) hn
  exact ⟨l, lk, h⟩

/-! ## examples -/

/-- Process 0 reads, changes and reads key 4 in a section while 1 waits with a section of its own, which reads the key twice; 0 calls again while 1 reads. -/
def sections : List (Act Nat) :=
  whole 0 (.op (.insert 4 40)) ++ [.call 0 (.writeSection [.read 4, .insert 4 41, .read 4]), .lock 0] ++ List.replicate 6 (.body 0) ++ [.call 1 (.readSection [4, 4])] ++ List.replicate 24 (.body 0) ++
    [.unlock 0, .lock 1] ++ List.replicate 6 (.body 1) ++ [.ret 0, .call 0 (.op (.insert 4 42))] ++ List.replicate 20 (.body 1) ++ [.unlock 1, .ret 1]

example : (exec 4 2 s0 sections).map (·.2) = some [.call 0 (.op (.insert 4 40)), .ret 0 [.bool true], .call 0 (.writeSection [.read 4, .insert 4 41, .read 4]), .call 1 (.readSection [4, 4]),
    .ret 0 [.val (some 40), .bool true, .val (some 41)], .call 0 (.op (.insert 4 42)), .ret 1 [.val (some 41), .val (some 41)]] := by decide +kernel

/-- The premises of the theorems above are met by `sections`. -/
example : SafeKills 4 2 s0 sections := safe_of (by decide +kernel)

/-- Without a section two reads need not agree: process 1 reads key 4 twice with two calls, and 0 inserts in between. -/
example : (exec 4 2 s0 (whole 0 (.op (.insert 4 40)) ++ whole 1 (.op (.read 4)) ++ whole 0 (.op (.insert 4 41)) ++ whole 1 (.op (.read 4)))).map (·.2) =
    some [.call 0 (.op (.insert 4 40)), .ret 0 [.bool true], .call 1 (.op (.read 4)), .ret 1 [.val (some 40)], .call 0 (.op (.insert 4 41)), .ret 0 [.bool true], .call 1 (.op (.read 4)),
      .ret 1 [.val (some 41)]] := by decide +kernel

end Verif.MapSys
