/-
  C172: the shared hash map on processors that delay and reorder stores.
-/
import Verif.MapWeak.Lemmas

set_option linter.unusedVariables false

namespace Verif.MapWeak

open Verif.ShmPool Verif.ShmMap Verif.MapSys

variable {V : Type} {N H : Nat}

theorem sim_start {s : Sys V} {m : Map V} (h : Start H s m) : Sim N H s (s.strong m) := by
  obtain ⟨h1, h2, h3, h4⟩ := h
  refine ⟨rfl, rfl, fun j => by rw [(h3 j).2]; exact (h3 j).1, fun j p _ _ => (h3 j).2, ?_⟩
  exact RwLock.inv_start (s := (s.strong m).rw) h1

theorem sim_exec : ∀ (xs : List (Act V)) {s s' : Sys V} {t : MapSys.Sys V} {es : List (Event V)}, Sim N H s t → exec N H s xs = some (s', es) →
    ∃ t', MapSys.exec N H t (acts xs) = some (t', es) ∧ Sim N H s' t' := by
  intro xs
  induction xs with
  | nil => intro s s' t es h e; cases e; exact ⟨t, rfl, h⟩
  | cons x xs ih =>
    intro s s' t es h e
    simp only [exec] at e
    cases hs : step N H s x with
    | none => rw [hs] at e; cases e
    | some q =>
      obtain ⟨s1, es1⟩ := q
      rw [hs] at e
      simp only at e
      cases hx : exec N H s1 xs with
      | none => rw [hx] at e; cases e
      | some q =>
        obtain ⟨s2, es2⟩ := q
        rw [hx] at e
        cases e
        rcases sim_step h hs with ⟨j, k, rfl, rfl, h1⟩ | ⟨a, t1, rfl, e1, h1⟩
        · obtain ⟨t', e2, h2⟩ := ih h1 hx
          exact ⟨t', by simpa [acts] using e2, h2⟩
        · obtain ⟨t', e2, h2⟩ := ih h1 hx
          exact ⟨t', by simp only [acts, MapSys.exec, e1, e2], h2⟩

/-- **C172.** Whatever stores are delayed and reordered, and whichever processes are killed: the processes do and see the same if every store is seen by all at once. -/
theorem C172_same (s s' : Sys V) (m : Map V) (h : Start H s m) (xs : List (Act V)) (es : List (Event V)) (e : exec N H s xs = some (s', es)) :
    ∃ t', MapSys.exec N H (s.strong m) (acts xs) = some (t', es) := by
  obtain ⟨t', e', -⟩ := sim_exec xs (sim_start h) e
  exact ⟨t', e'⟩

/-- C172: in every reachable state, a process inside of a section sees the stores of all sections before: nothing is on its way to it, and when the other stores have arrived,
in any order, all processes see what it sees. -/
theorem C172_views (s s' : Sys V) (m : Map V) (h : Start H s m) (xs : List (Act V)) (es : List (Event V)) (e : exec N H s xs = some (s', es))
    (i : Nat) (p : RwLock.Proc (Loc V)) (hp : s'.lk.procs[i]? = some p) (hm : p.mode = .writing ∨ p.mode = .reading) :
    s'.inc i = [] ∧ ∀ j, (s'.inc j).foldl (store N H) (s'.view j) = s'.view i := by
  obtain ⟨t', -, h'⟩ := sim_exec xs (sim_start h) e
  have hi := h'.none i p hp hm
  refine ⟨hi, fun j => ?_⟩
  have h1 := h'.view i
  rw [hi] at h1
  have h2 := h'.view j
  simp only [storeAll, List.foldl_nil] at h1 h2
  rw [h2, h1]

/-- C172, with C117: if no process is killed between the two writes of `free_nodes.push` or inside `clear`, what the processes see is a history of the atomic map. -/
theorem C172_atomic_partial (hN : N < 2 ^ 31) (hH : 0 < H) (s s' : Sys V) (m : Map V) (h : Start H s m) (xs : List (Act V)) (hk : SafeKills N H s xs) (es : List (Event V))
    (e : exec N H s xs = some (s', es)) : MapSys.Spec.Atomic N MapSys.Spec.State.init es := by
  have gen : ∀ (xs : List (Act V)) {s s' : Sys V} {t : MapSys.Sys V} {a : MapSys.Spec.State V} {es : List (Event V)}, Sim N H s t → MapSys.Sim N H t a → SafeKills N H s xs →
      exec N H s xs = some (s', es) → MapSys.Spec.Atomic N a es := by
    intro xs
    induction xs with
    | nil => intro s s' t a es _ _ _ e; cases e; exact .nil
    | cons x xs ih =>
      intro s s' t a es h ha hk e
      simp only [exec] at e
      cases hs : step N H s x with
      | none => rw [hs] at e; cases e
      | some q =>
        obtain ⟨s1, es1⟩ := q
        rw [hs] at e
        simp only at e
        cases hx : exec N H s1 xs with
        | none => rw [hx] at e; cases e
        | some q =>
          obtain ⟨s2, es2⟩ := q
          rw [hx] at e
          cases e
          rcases sim_step h hs with ⟨j, k, rfl, rfl, h1⟩ | ⟨y, t1, rfl, e1, h1⟩
          · simpa using ih h1 ha (hk.2 _ _ hs) hx
          · have hsafe : MapSys.SafeKill H t y := by
              cases y with
              | kill i =>
                intro p hp hm
                rw [h.rw] at hp
                exact hk.1 i p rfl hp hm
              | _ => trivial
            obtain ⟨a1, h2, hat⟩ := MapSys.sim_step (by unfold NONE; omega) hH ha hsafe e1
            exact hat _ (ih h1 h2 (hk.2 _ _ hs) hx)
  have hstart : MapSys.Start H (s.strong m) := ⟨h.1, h.2.1, h.2.2.2⟩
  exact gen xs (sim_start h) (MapSys.sim_start hstart) hk e

/-- A fresh map of two buckets and two processes. -/
def m0 : Map Nat := ⟨⟨0, ⟨NONE, fun _ => 0⟩⟩, fun _ => 0, fun _ => 0, fun _ => 0, fun _ => NONE⟩
def s0 : Sys Nat := ⟨⟨true, ⟨0, 0⟩, (), [⟨.out, .begin (.op .size), ⟨0, 0⟩⟩, ⟨.out, .begin (.op .size), ⟨0, 0⟩⟩]⟩, fun _ => m0, fun _ => [], fun _ => .idle⟩

theorem s0_start : Start 2 s0 m0 := by
  refine ⟨⟨rfl, rfl, ?_⟩, ⟨rfl, rfl, fun _ _ => rfl⟩, fun _ => ⟨rfl, rfl⟩, fun _ => rfl⟩
  intro p hp
  simp [s0] at hp
  subst hp
  exact ⟨Or.inr rfl, rfl⟩

/-- Process 0 inserts key 5. -/
def xs0 : List (Act Nat) := [.act (.call 0 (.op (.insert 5 50))), .act (.lock 0)] ++ List.replicate 11 (.act (.body 0)) ++ [.act (.unlock 0), .act (.ret 0)]

/-- Its five stores are on their way to process 1; the last one, which links the node, arrives first: process 1 would find a node without its key and value.  It cannot take the
lock before the others have arrived too, in any order, and then reads the value. -/
example :
    ((exec 2 2 s0 xs0).map (fun q => ((q.1.inc 1).map cell, (q.1.view 1).hash 1 = NONE, (q.1.view 0).hash 1))) = some ([.cur, .key 0, .val 0, .next 0, .hash 1], True, 0) ∧
    ((exec 2 2 s0 (xs0 ++ [.arrive 1 4])).map (fun q => ((q.1.view 1).hash 1, (q.1.view 1).key 0))) = some (0, 0) ∧
    (exec 2 2 s0 (xs0 ++ [.arrive 1 4, .act (.call 1 (.op (.read 5))), .act (.lock 1)])).isNone = true ∧
    ((exec 2 2 s0 (xs0 ++ [.arrive 1 4, .arrive 1 2, .act (.call 1 (.op (.read 5))), .arrive 1 0, .arrive 1 1, .arrive 1 0, .act (.lock 1)] ++ List.replicate 5 (.act (.body 1)) ++
      [.act (.unlock 1), .act (.ret 1)])).map (·.2)) =
      some [.call 0 (.op (.insert 5 50)), .ret 0 [.bool true], .call 1 (.op (.read 5)), .ret 1 [.val (some 50)]] := by
  refine ⟨?_, by decide +kernel, by decide +kernel, by decide +kernel⟩
  · have : ((exec 2 2 s0 xs0).map (fun q => ((q.1.inc 1).map cell, (q.1.view 1).hash 1, (q.1.view 0).hash 1))) = some ([.cur, .key 0, .val 0, .next 0, .hash 1], NONE, 0) := by decide +kernel
    rw [Option.map_eq_some_iff] at this ⊢
    obtain ⟨q, e1, e2⟩ := this
    refine ⟨q, e1, ?_⟩
    simp only [Prod.mk.injEq] at e2 ⊢
    exact ⟨e2.1, by simp [e2.2.1], e2.2.2⟩

end Verif.MapWeak
