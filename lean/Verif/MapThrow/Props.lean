/-
  C179: exceptions of values.
-/
import Verif.MapThrow.Lemmas
import Verif.ShmMap.Props

namespace Verif.MapThrow
open Verif.ShmPool Verif.ShmMap Verif.RwLock

variable {V : Type} {N H : Nat}

/-- A new map that nobody uses yet. -/
def Start (H : Nat) (s : State V) : Prop := s.sem = ⟨0, 0⟩ ∧ (∀ i, s.adj i = ⟨0, 0⟩) ∧ Init H s.map

/-- **C179, partial**: if every process in which the assignment of a value throws ends at once, the others go on as with a finite map: no call waits, a read
that throws changes nothing, an insert that throws leaves under a bound key what the assignment left.  Missing: processes that go on (`C179_refuted`,
`C179_refuted_read`), and the entry that an insert of a new key loses (`C179_refuted_lost`). -/
theorem C179_ended_partial (hN : N < 2 ^ 31) (hH : 0 < H) (s : State V) (hs : Start H s) (bs : List (Spec.Block V)) :
    ∃ s', run N H s (bs.flatMap Spec.evs) = .ok (s', (Spec.run N 0 [] bs).2.2) := by
  obtain ⟨s', _, _, h, _, _⟩ := run_blocks (N := N) (by unfold NONE; omega) hH bs ⟨hs.1, hs.2.1⟩ (rep_init s.map hs.2.2.1 hs.2.2.2.1 hs.2.2.2.2)
  exact ⟨s', h⟩

theorem reached (hN : N < 2 ^ 31) (hH : 0 < H) (s : State V) (hs : Start H s) (bs : List (Spec.Block V)) (i : Nat) (op : Op V) (part : V) (es : List (Ev V))
    (hx : (Spec.step N (Spec.run N 0 [] bs).2.1 (Spec.run N 0 [] bs).1 (.thrown i op part)).2.2 = .exc) :
    ∃ s1, ((∃ k v, op = .insert k v ∧ Writing i s1) ∨ (∃ k, op = .read k ∧ Reading i s1)) ∧
      run N H s (bs.flatMap Spec.evs ++ .throws i op part :: es) =
        (run N H s1 es >>= fun (s, rs) => .ok (s, (Spec.run N 0 [] bs).2.2 ++ .exc :: rs)) := by
  have hN' : N < NONE := by unfold NONE; omega
  obtain ⟨s', f, fr, h1, h2, h3⟩ := run_blocks (N := N) hN' hH bs ⟨hs.1, hs.2.1⟩ (rep_init s.map hs.2.2.1 hs.2.2.2.1 hs.2.2.2.2)
  obtain ⟨s1, f1, fr1, a1, a2, a3⟩ := throws_free hN' hH h2 h3 i op part
  rw [hx] at a1 a3
  rcases a3 with ⟨a, _⟩ | ⟨_, a⟩
  · exact absurd rfl a
  · refine ⟨s1, a, ?_⟩
    rw [run_append, h1]
    simp only [Res.ok_bind, run, a1]
    cases run N H s1 es with
    | ub => rfl
    | ok p => rfl

/-- **C179 is false**: after every history, when the assignment of an insert throws and its process goes on, every later call of every process, that one included,
waits until that process ends. -/
theorem C179_refuted (hN : N < 2 ^ 31) (hH : 0 < H) (s : State V) (hs : Start H s) (bs : List (Spec.Block V)) (i : Nat) (k : UInt64) (v part : V) (es : List (Ev V))
    (hroom : ShmMap.Spec.has (Spec.run N 0 [] bs).1 k ∨ (Spec.run N 0 [] bs).1.length + (Spec.run N 0 [] bs).2.1 < N)
    (he : ∀ e ∈ es, ∀ j, e = .ends j → j ≠ i) :
    ∃ s', run N H s (bs.flatMap Spec.evs ++ .throws i (.insert k v) part :: es) =
      .ok (s', (Spec.run N 0 [] bs).2.2 ++ .exc :: List.replicate (Spec.calls es) .waits) := by
  have hx : (Spec.step N (Spec.run N 0 [] bs).2.1 (Spec.run N 0 [] bs).1 (.thrown i (.insert k v) part)).2.2 = .exc := by
    unfold Spec.step
    by_cases hk : ShmMap.Spec.has (Spec.run N 0 [] bs).1 k
    · simp only [if_pos hk]
    · simp only [if_neg hk, if_pos (hroom.resolve_left hk)]
  obtain ⟨s1, a, e⟩ := reached hN hH s hs bs i _ part es hx
  rcases a with ⟨_, _, _, a⟩ | ⟨_, a, _⟩
  · obtain ⟨s', e'⟩ := writing_waits (N := N) (H := H) i es a he
    exact ⟨s', by rw [e, e']; rfl⟩
  · cases a

/-- **C179 is false**: when the assignment of a read throws and its process goes on, every later call that changes the map waits until that process ends. -/
theorem C179_refuted_read (hN : N < 2 ^ 31) (hH : 0 < H) (s : State V) (hs : Start H s) (bs : List (Spec.Block V)) (i : Nat) (k : UInt64) (part : V) (es : List (Ev V))
    (hk : ShmMap.Spec.has (Spec.run N 0 [] bs).1 k) (hch : ∀ e ∈ es, changes e = true) (he : ∀ e ∈ es, ∀ j, e = .ends j → j ≠ i) :
    ∃ s', run N H s (bs.flatMap Spec.evs ++ .throws i (.read k) part :: es) =
      .ok (s', (Spec.run N 0 [] bs).2.2 ++ .exc :: List.replicate (Spec.calls es) .waits) := by
  have hx : (Spec.step N (Spec.run N 0 [] bs).2.1 (Spec.run N 0 [] bs).1 (.thrown i (.read k) part)).2.2 = .exc := by
    unfold Spec.step
    simp only [if_pos hk]
  obtain ⟨s1, a, e⟩ := reached hN hH s hs bs i _ part es hx
  rcases a with ⟨_, _, a, _⟩ | ⟨_, _, a⟩
  · cases a
  · obtain ⟨s', e'⟩ := reading_waits (N := N) (H := H) i es a hch he
    exact ⟨s', by rw [e, e']; rfl⟩

/-- **C179 is false**: an insert of a new key that throws loses an entry, even if its process ends: after every history `size` has grown by one, although every
key reads as before. -/
theorem C179_refuted_lost (hN : N < 2 ^ 31) (hH : 0 < H) (s : State V) (hs : Start H s) (bs : List (Spec.Block V)) (i j : Nat) (k k' : UInt64) (v part : V)
    (hk : ¬ ShmMap.Spec.has (Spec.run N 0 [] bs).1 k) (hroom : (Spec.run N 0 [] bs).1.length + (Spec.run N 0 [] bs).2.1 < N) :
    ∃ (n : Nat) (x : Option V) (s' : State V),
      run N H s (bs.flatMap Spec.evs ++ [.call j .size, .call j (.read k'), .throws i (.insert k v) part, .ends i, .call j .size, .call j (.read k')]) =
        .ok (s', (Spec.run N 0 [] bs).2.2 ++ [.ret (.num n), .ret (.val x), .exc, .ret (.num (n + 1)), .ret (.val x)]) := by
  have hN' : N < NONE := by unfold NONE; omega
  obtain ⟨s1, f, fr, h1, h2, h3⟩ := run_blocks (N := N) hN' hH bs ⟨hs.1, hs.2.1⟩ (rep_init s.map hs.2.2.1 hs.2.2.2.1 hs.2.2.2.2)
  obtain ⟨s', _, _, e, _, _⟩ := run_blocks (N := N) hN' hH
    [.call j .size, .call j (.read k'), .thrown i (.insert k v) part, .call j .size, .call j (.read k')] h2 h3
  refine ⟨(Spec.run N 0 [] bs).1.length + (Spec.run N 0 [] bs).2.1, ShmMap.Spec.lookup (Spec.run N 0 [] bs).1 k', s', ?_⟩
  rw [run_append, h1, Res.ok_bind]
  simp only [List.flatMap_cons, List.flatMap_nil, Spec.evs, List.cons_append, List.nil_append] at e
  have hst : Spec.step N (Spec.run N 0 [] bs).2.1 (Spec.run N 0 [] bs).1 (.thrown i (.insert k v) part) =
      ((Spec.run N 0 [] bs).1, (Spec.run N 0 [] bs).2.1 + 1, .exc) := by
    unfold Spec.step
    simp only [if_neg hk, if_pos hroom]
  have hsz : ∀ lk l, Spec.step N lk l (.call j (.size : Op V)) = (l, lk, .ret (.num (l.length + lk))) := fun _ _ => rfl
  have hrd : ∀ lk l, Spec.step N lk l (.call j (.read k' : Op V)) = (l, lk, .ret (.val (ShmMap.Spec.lookup l k'))) := fun _ _ => rfl
  simp only [e, Res.ok_bind, Spec.run, hsz, hrd, hst]
  rfl

/-- A map of three entries; key 5 is bound to 50. -/
def sx : State Nat := ⟨⟨0, 0⟩, fun _ => ⟨0, 0⟩, m0⟩

example : Start 2 sx := ⟨rfl, fun _ => rfl, m0_init 2⟩

example : ShmMap.Spec.has (Spec.run 3 0 [] [.call 0 (.insert 5 (50 : Nat))]).1 5 ∧ ¬ ShmMap.Spec.has (Spec.run 3 0 [] [.call 0 (.insert 5 (50 : Nat))]).1 7 ∧
    (Spec.run 3 0 [] [.call 0 (.insert 5 (50 : Nat))]).1.length + (Spec.run 3 0 [] [.call 0 (.insert 5 (50 : Nat))]).2.1 < 3 := by decide +kernel

/-- The replies of a history. -/
def replies (r : Res (State Nat × List (Reply Nat))) : Option (List (Reply Nat)) :=
  match r with
  | .ok (_, rs) => some rs
  | .ub => none

example : replies (run 3 2 sx [.call 0 (.insert 5 50), .throws 1 (.insert 5 60) 77, .call 0 (.read 5), .ends 1, .call 0 (.read 5), .throws 2 (.insert 7 70) 1,
      .ends 2, .call 0 .size, .call 0 (.read 7), .throws 0 (.read 5) 0, .call 3 (.read 5), .call 3 .clear]) =
    some [.ret (.bool true), .exc, .waits, .ret (.val (some 77)), .exc, .ret (.num 2), .ret (.val none), .exc, .ret (.val (some 77)), .waits] := by decide +kernel

end Verif.MapThrow
