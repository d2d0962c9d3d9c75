import Verif.WeakFree.Props
/-
  Property C188: what can go wrong when stores arrive in another order, and executions to which the theorems apply.
-/
set_option linter.unusedVariables false
set_option linter.unusedSimpArgs false

namespace Verif.WeakFree

open Verif.ShmPool Verif.ShmMap Verif.MapSys
open Verif.MapFree (FAct FEvent completed inProgress answers)
open Verif.MapPeek (Zeroed)

variable {V : Type} {N H : Nat}

/-- A fresh map. -/
def w0 : WSys Nat := ⟨fun _ => MapWeak.m0, fun _ => [], fun _ => none⟩

theorem w0_start : Start 2 w0 MapWeak.m0 := ⟨⟨rfl, rfl, fun _ _ => rfl⟩, fun _ => rfl, fun _ => rfl, fun _ => rfl⟩

/-- `n` steps of process `i`. -/
def goes (n i : Nat) : List (WAct Nat) := List.replicate n (.act (.go i))

/-- Process 0 inserts key 5 with value 50; its stores to the counter of the pool, the key, the value, the next index and the bucket are on their way to process 1. -/
def ins : List (WAct Nat) := [.act (.call 0 (.insert 5 50))] ++ goes 10 0

/-- **C188 is false for stores that arrive in another order: a value that nobody has inserted.** All stores but that of the value have arrived when process 1 reads key 5: it gets 0. -/
theorem C188_refuted : (exec 2 2 w0 (ins ++ [.arrive 1 4, .arrive 1 3, .arrive 1 1, .act (.call 1 (.read 5))] ++ goes 4 1)).map (fun q => answers q.2) =
    some [(0, .bool true), (1, .val (some 0))] := by decide +kernel

/-- Only the store to the bucket has arrived. -/
def stuck : List (WAct Nat) := ins ++ [.arrive 1 4, .act (.call 1 (.read 5)), .act (.go 1)]

theorem exec_append : ∀ (xs ys : List (WAct V)) (s : WSys V), exec N H s (xs ++ ys) = (exec N H s xs).bind (fun q => (exec N H q.1 ys).map (fun r => (r.1, q.2 ++ r.2))) := by
  intro xs
  induction xs with
  | nil => intro ys s; simp [exec]
  | cons x xs ih =>
    intro ys s
    simp only [List.cons_append, exec]
    cases step N H s x with
    | none => rfl
    | some q =>
      simp only [ih]
      cases exec N H q.1 xs with
      | none => rfl
      | some r =>
        simp only [Option.bind_some]
        cases exec N H r.1 ys with
        | none => rfl
        | some u => simp

/-- **C188 is false for stores that arrive in another order: the call goes round.** The bucket leads to node 0, whose next index is still the 0 of the new segment: the call of process 1
does not return, however many steps it takes, until the store of this index arrives. -/
theorem C188_refuted_loop (n : Nat) : ∃ s' es, exec 2 2 w0 (stuck ++ goes (2 * n) 1) = some (s', es) ∧ s'.pc 1 = some (.rdLoop 5 0) ∧ answers es = [(0, .bool true)] := by
  have hx : (exec 2 2 w0 stuck).map (fun q => (match q.1.pc 1 with
      | some (.rdLoop k e) => decide (k = 5 ∧ e = 0)
      | _ => false, (q.1.view 1).key 0, (q.1.view 1).next 0, decide (answers q.2 = [(0, .bool true)]))) = some (true, 0, 0, true) := by decide +kernel
  obtain ⟨⟨s, es⟩, e, hm⟩ := map_some' hx
  simp only [Prod.mk.injEq] at hm
  obtain ⟨h1, h2, h3, h4⟩ := hm
  have hp : s.pc 1 = some (.rdLoop 5 0) := by
    split at h1
    · rename_i k e' he
      have := of_decide_eq_true h1.symm
      rw [he, this.1, this.2]
    · cases h1
  have gen : ∀ (n : Nat) (s : WSys Nat), s.pc 1 = some (.rdLoop 5 0) → (s.view 1).key 0 = 0 → (s.view 1).next 0 = 0 →
      ∃ s', exec 2 2 s (goes (2 * n) 1) = some (s', []) ∧ s'.pc 1 = some (.rdLoop 5 0) := by
    intro n
    induction n with
    | zero => intro s g1 _ _; exact ⟨s, rfl, g1⟩
    | succ n ih =>
      intro s g1 g2 g3
      have e1 : step 2 2 s (.act (.go 1)) = some (s.set 1 (some (.rdNext 5 0)), []) := by
        simp only [step, g1, Pc.step, g2]
        rfl
      have e2 : step 2 2 (s.set 1 (some (.rdNext 5 0))) (.act (.go 1)) = some ((s.set 1 (some (.rdNext 5 0))).set 1 (some (.rdLoop 5 0)), []) := by
        have : (s.set 1 (some (.rdNext 5 0))).pc 1 = some (.rdNext 5 0) := set_self _ _ _
        simp only [step, this, Pc.step]
        rw [show (s.set 1 (some (.rdNext 5 0))).view = s.view from rfl, g3]
        rfl
      obtain ⟨s', e3, e4⟩ := ih ((s.set 1 (some (.rdNext 5 0))).set 1 (some (.rdLoop 5 0))) (set_self _ _ _) g2 g3
      refine ⟨s', ?_, e4⟩
      unfold goes at e3 ⊢
      rw [show 2 * (n + 1) = 2 * n + 1 + 1 by omega, List.replicate_succ, List.replicate_succ]
      simp only [exec, e1, e2, e3]
      rfl
  obtain ⟨s', e1, e2⟩ := gen n s hp h2.symm h3.symm
  refine ⟨s', es, ?_, e2, of_decide_eq_true h4.symm⟩
  rw [exec_append, e]
  simp only [Option.bind_some, e1, Option.map_some, List.append_nil]

/-! ## Executions to which the theorems apply -/

theorem oneWriter_of {xs : List (WAct Nat)} {w : Nat} (h : xs.all (fun | .act (.call j (.read _)) => true | .act (.call j _) => j == w | _ => true) = true) : OneWriter w xs := by
  intro j u hm hj
  have := List.all_eq_true.mp h _ hm
  cases u with
  | read k => exact ⟨k, rfl⟩
  | insert k v => simp at this; exact absurd this hj
  | erase k => simp at this; exact absurd this hj

/-- Key 5 has been inserted and erased, and only some of the stores have arrived, out of order. -/
def mess : List (WAct Nat) := ins ++ [.arrive 1 4, .arrive 1 3, .act (.call 0 (.erase 5))] ++ goes 9 0 ++ [.arrive 1 1, .act (.call 1 (.read 5))] ++ goes 4 1

/-- `C188_writer_partial` and `C188_bounds_partial` are about this execution, among others; both calls of process 0 have returned true. -/
example : ∃ s' es, exec 2 2 w0 mess = some (s', es) ∧ Start 2 w0 MapWeak.m0 ∧ Zeroed MapWeak.m0 ∧ OneWriter 0 mess ∧ completed 0 es = [.insert 5 50, .erase 5] ∧ s'.inc 1 ≠ [] := by
  have hy : (exec 2 2 w0 mess).map (fun q => decide (completed 0 q.2 = [.insert 5 50, .erase 5]) && !(q.1.inc 1).isEmpty) = some true := by decide +kernel
  obtain ⟨⟨s', es⟩, e, hm⟩ := map_some' hy
  have hm := hm.symm
  simp only [Bool.and_eq_true, Bool.not_eq_true', decide_eq_true_eq] at hm
  exact ⟨s', es, e, w0_start, WeakPeek.m0_zeroed, oneWriter_of (by decide +kernel), hm.1, fun h => by rw [h] at hm; simp at hm⟩

/-- Process 0 has inserted key 5, everything has arrived at process 1, and process 0 has begun to insert key 7 of the same bucket. -/
def before : List (WAct Nat) := ins ++ [.arrive 1 4, .arrive 1 3, .arrive 1 1, .arrive 1 1, .arrive 1 0, .act (.call 0 (.insert 7 70))] ++ goes 2 0

/-- It goes on. -/
def between : List (WAct Nat) := goes 9 0 ++ [.arrive 1 0, .arrive 1 0, .arrive 1 0]

/-- The last stores arrive during the read of process 1. -/
def after : List (WAct Nat) := goes 1 1 ++ [.arrive 1 0, .arrive 1 0] ++ goes 5 1

/-- `C188_readers_partial` applies: the read begins before the store to the link arrives and finds the new key. -/
example : ∃ s es0 t es1 s' es, exec 2 2 w0 before = some (s, es0) ∧ s.inc 1 = [] ∧ exec 2 2 s between = some (t, es1) ∧ t.inc 1 ≠ [] ∧
    exec 2 2 t (.act (.call 1 (.read 7)) :: after) = some (s', es) ∧ OneWriter 0 (before ++ between ++ after) ∧ InOrder 1 (between ++ after) ∧ (∀ u, .act (.call 1 u) ∉ after) ∧
    completed 0 es0 = [.insert 5 50] ∧ inProgress 0 es0 = [.insert 7 70] ∧ answers es = [(1, .val (some 70))] := by
  have hy : (exec 2 2 w0 before).bind (fun q => (exec 2 2 q.1 between).bind (fun p => (exec 2 2 p.1 (.act (.call 1 (.read 7)) :: after)).map (fun t =>
      decide (completed 0 q.2 = [.insert 5 50]) && decide (inProgress 0 q.2 = [.insert 7 70]) && decide (answers t.2 = [(1, .val (some 70))]) && (q.1.inc 1).isEmpty && !(p.1.inc 1).isEmpty))) =
      some true := by decide +kernel
  cases h1 : exec 2 2 w0 before with
  | none => rw [h1] at hy; cases hy
  | some q =>
    obtain ⟨s, es0⟩ := q
    rw [h1] at hy
    cases h2 : exec 2 2 s between with
    | none => simp [h2] at hy
    | some p =>
      obtain ⟨t, es1⟩ := p
      cases h3 : exec 2 2 t (.act (.call 1 (.read 7)) :: after) with
      | none => simp [h2, h3] at hy
      | some z =>
        obtain ⟨s', es⟩ := z
        simp only [h2, h3, Option.bind_some, Option.map_some, Option.some.injEq, Bool.and_eq_true, decide_eq_true_eq, List.isEmpty_iff] at hy
        obtain ⟨⟨⟨⟨g1, g2⟩, g3⟩, g4⟩, g5⟩ := hy
        refine ⟨s, es0, t, es1, s', es, rfl, g4, h2, fun e => (by rw [e] at g5; simp at g5), h3, oneWriter_of (by decide +kernel), ?_, ?_, g1, g2, g3⟩
        · intro r hr
          have : (between ++ after).all (fun | .arrive _ r => r == 0 | _ => true) = true := by decide +kernel
          simpa using List.all_eq_true.mp this _ hr
        · intro u hu
          have : after.all (fun | .act (.call _ _) => false | _ => true) = true := by decide +kernel
          have := List.all_eq_true.mp this _ hu
          cases this

end Verif.WeakFree
