import Verif.WeakPeek.Props
/-
  Property C184: `unprotected_read` without the lock never leaves the segment, in whatever order stores arrive; and what can go wrong when they arrive in another order.
-/
set_option linter.unusedVariables false
set_option linter.unusedSimpArgs false

namespace Verif.WeakPeek

open Verif.ShmPool Verif.ShmMap Verif.MapSys
open Verif.MapPeek (Ix Tidy Has WrOk tidy_apply has_step start_has Reading reading_step Zeroed)
open Verif.MapWeak (store wstep)

variable {V : Type} {N H : Nat}

theorem tidy_store {m : Map V} {w : Wr V} (h : Tidy N H m) (hw : WrOk N w) : Tidy N H (store N H m w) := by
  unfold MapWeak.store
  split
  · rename_i e; exact tidy_apply h hw e
  · exact h

theorem wstep_has {m : Map V} {l : Loc V} (h : Tidy N H m) (hp : Has N l.pc) : (∀ w, (wstep N H m l).1 = some w → WrOk N w) ∧ Has N (wstep N H m l).2.pc := by
  obtain ⟨h1, h2⟩ := has_step h hp
  unfold MapWeak.wstep
  split
  · exact ⟨fun w e => (by cases e), hp⟩
  · exact ⟨fun w e => (by cases e), start_has _⟩
  · exact ⟨fun w e => (by cases e), trivial⟩
  · split
    · rename_i e
      rw [e] at h2
      exact ⟨fun w e => (by cases e), h2⟩
    · rename_i e
      rw [e] at h1 h2
      split
      · exact ⟨fun w e => (by cases e; exact h1 _ rfl), h2⟩
      · exact ⟨fun w e => (by cases e), trivial⟩

/-- What holds in every reachable state: every index that a process sees, will see or is about to store is that of a node, or none. -/
structure BInv (N H : Nat) (s : MapWeak.Sys V) : Prop where
  view : ∀ j, Tidy N H (s.view j)
  inc : ∀ j, ∀ w ∈ s.inc j, WrOk N w
  has : ∀ (j : Nat) (p : RwLock.Proc (Loc V)), s.lk.procs[j]? = some p → p.mode = .writing → Has N p.loc.pc

theorem binv_step {s s' : MapWeak.Sys V} {x : MapWeak.Act V} {es : List (Event V)} (h : BInv N H s) (hs : MapWeak.step N H s x = some (s', es)) : BInv N H s' := by
  have upd : ∀ (lk : RwLock.State Unit (Loc V)) (i : Nat) (q : RwLock.Proc (Loc V)), lk.procs = s.lk.procs → (q.mode = .writing → Has N q.loc.pc) →
      ∀ (j : Nat) (p : RwLock.Proc (Loc V)), (lk.upd i q).procs[j]? = some p → p.mode = .writing → Has N p.loc.pc := by
    intro lk i q e hq j p hp hm
    by_cases hj : j = i
    · subst hj
      simp only [RwLock.State.upd] at hp
      have hlt := (List.getElem?_eq_some_iff.mp hp).1
      rw [List.getElem?_set_self (by simpa using hlt)] at hp
      cases hp
      exact hq hm
    · rw [upd_other hj, e] at hp
      exact h.has j p hp hm
  have low : ∀ {a : RwLock.Label (Loc V)} {s1 : MapWeak.Sys V}, s.low a = some s1 → ∃ lk, RwLock.step (fun m l => (m, l)) (fun _ l => l) s.lk a = some lk ∧ s1 = { s with lk := lk } := by
    intro a s1 e
    simp only [MapWeak.Sys.low, Option.map_eq_some_iff] at e
    obtain ⟨lk, e1, e2⟩ := e
    exact ⟨lk, e1, e2.symm⟩
  cases x with
  | arrive j k =>
    obtain ⟨s1, h1, h2⟩ := map_some' hs; cases h2
    simp only [MapWeak.Sys.arrive] at h1
    split at h1
    · rename_i w hw
      split at h1
      · cases h1
        refine ⟨?_, ?_, h.has⟩
        · intro i
          simp only
          split
          · exact tidy_store (h.view j) (h.inc j w (List.mem_of_getElem? hw))
          · exact h.view i
        · intro i u hu
          simp only at hu
          split at hu
          · exact h.inc j u (List.mem_of_mem_eraseIdx hu)
          · exact h.inc i u hu
      · cases h1
    · cases h1
  | act x =>
  cases x with
  | connect i =>
    obtain ⟨s1, h1, h2⟩ := map_some' hs; cases h2
    obtain ⟨lk, e, rfl⟩ := low h1
    obtain ⟨p, hp, hm, rfl⟩ := get_some e
    exact ⟨h.view, h.inc, upd _ _ _ rfl (by intro g; cases g)⟩
  | call i c =>
    simp only [MapWeak.step] at hs
    split at hs
    · split at hs
      · cases hs; exact ⟨h.view, h.inc, h.has⟩
      · cases hs
    · cases hs
  | lock i =>
    simp only [MapWeak.step] at hs
    split at hs
    · obtain ⟨s1, h1, h2⟩ := map_some' hs; cases h2
      obtain ⟨lk, e, rfl⟩ := low h1
      split at e
      · obtain ⟨p, v, adj, hp, hm, rfl⟩ := lockR_some e
        exact ⟨h.view, h.inc, upd _ _ _ rfl (by intro g; cases g)⟩
      · obtain ⟨p, v, adj, hp, hm, rfl⟩ := lockW_some e
        exact ⟨h.view, h.inc, upd _ _ _ rfl (fun _ => trivial)⟩
    · cases hs
  | body i =>
    obtain ⟨s1, h1, h2⟩ := map_some' hs; cases h2
    simp only [MapWeak.Sys.body] at h1
    split at h1
    · rename_i p hp
      split at h1
      · rename_i hm
        cases h1
        obtain ⟨g1, g2⟩ := wstep_has (h.view i) (h.has i p hp hm)
        have hu := upd s.lk i { p with loc := (wstep N H (s.view i) p.loc).2 } rfl (fun _ => g2)
        cases hw : (wstep N H (s.view i) p.loc).1 with
        | none => exact ⟨h.view, h.inc, hu⟩
        | some w =>
          have hwok := g1 w hw
          refine ⟨?_, ?_, hu⟩
          · intro j
            simp only [MapWeak.Sys.send]
            split
            · exact tidy_store (h.view j) hwok
            · exact h.view j
          · intro j u hmem
            simp only [MapWeak.Sys.send] at hmem
            split at hmem
            · exact h.inc j u hmem
            · rcases List.mem_append.mp hmem with g | g
              · exact h.inc j u g
              · rw [List.mem_singleton.mp g]; exact hwok
      · split at h1
        · rename_i hm
          cases h1
          exact ⟨h.view, h.inc, upd _ _ _ rfl (by intro g; rw [hm] at g; cases g)⟩
        · cases h1
    · cases h1
  | unlock i =>
    simp only [MapWeak.step] at hs
    split at hs
    · split at hs
      · obtain ⟨s1, h1, h2⟩ := map_some' hs; cases h2
        obtain ⟨lk, e, rfl⟩ := low h1
        obtain ⟨p, v, adj, hp, hm, rfl⟩ := unlock_some e
        exact ⟨h.view, h.inc, upd _ _ _ rfl (by intro g; cases g)⟩
      · cases hs
    · cases hs
  | ret i =>
    simp only [MapWeak.step] at hs
    split at hs
    · cases hs; exact ⟨h.view, h.inc, h.has⟩
    · cases hs
  | kill i =>
    obtain ⟨s1, h1, h2⟩ := map_some' hs; cases h2
    obtain ⟨lk, e, rfl⟩ := low h1
    obtain ⟨p, v, hp, rfl⟩ := kill_some e
    exact ⟨h.view, h.inc, upd _ _ _ rfl (by intro g; cases g)⟩
  | spawn i =>
    obtain ⟨s1, h1, h2⟩ := map_some' hs; cases h2
    obtain ⟨lk, e, rfl⟩ := low h1
    obtain ⟨p, hp, hm, rfl⟩ := spawn_some e
    exact ⟨h.view, h.inc, upd _ _ _ rfl (by intro g; cases g)⟩

/-- **C184, no access outside the segment.** Whatever the others do - insert, erase, clear, get killed anywhere - and in whatever order their stores arrive, `unprotected_read` without the
lock never accesses memory outside of the segment, and returns true or false if it returns. -/
theorem C184_bounds_partial (hN : 0 < N) (hH : 0 < H) (s s' : WSys V) (m : Map V) (h : Start H s m) (hz : Zeroed m) (xs : List (WAct V)) (es : List (WEvent V)) (he : exec N H s xs = some (s', es)) :
    (∀ i, s'.peek i ≠ some .ub) ∧ ∀ i r, .looked i r ∈ es → ∃ v, r = .val v := by
  have gen : ∀ (xs : List (WAct V)) (s s' : WSys V) (es : List (WEvent V)), BInv N H s.sys → (∀ i pc, s.peek i = some pc → Reading N pc) → exec N H s xs = some (s', es) →
      (∀ i pc, s'.peek i = some pc → Reading N pc) ∧ ∀ i r, .looked i r ∈ es → ∃ v, r = .val v := by
    intro xs
    induction xs with
    | nil => intro s s' es hb hr he; cases he; exact ⟨hr, by intro i r hm; cases hm⟩
    | cons x xs ih =>
      intro s s' es hb hr he
      simp only [exec] at he
      cases hs : step N H s x with
      | none => rw [hs] at he; cases he
      | some q =>
        obtain ⟨s1, es1⟩ := q
        rw [hs] at he
        simp only at he
        cases hx : exec N H s1 xs with
        | none => rw [hx] at he; cases he
        | some q =>
          obtain ⟨s2, es2⟩ := q
          rw [hx] at he
          cases he
          have hone : BInv N H s1.sys ∧ (∀ i pc, s1.peek i = some pc → Reading N pc) ∧ ∀ i r, .looked i r ∈ es1 → ∃ v, r = .val v := by
            cases x with
            | sys y =>
              obtain ⟨sy, es', hq, rfl, rfl, hpk⟩ := sys_step hs
              refine ⟨binv_step hb hq, fun i pc hpc => hr i pc (hpk i pc hpc), ?_⟩
              intro i r hm
              obtain ⟨e, _, g⟩ := List.mem_map.mp hm
              cases g
            | peek j k =>
              obtain ⟨rfl, e, _, rfl⟩ := peek_step hs
              refine ⟨hb, ?_, by intro i r hm; cases hm⟩
              intro i pc hpc
              simp only [WSys.set] at hpc
              split at hpc
              · cases hpc; trivial
              · exact hr i pc hpc
            | look j =>
              obtain ⟨pc, hpc, e, ⟨r, rfl, rfl, rfl⟩ | ⟨_, rfl, rfl⟩⟩ := look_step hs
              · refine ⟨hb, ?_, ?_⟩
                · intro i pc' hpc'
                  simp only [WSys.set] at hpc'
                  split at hpc'
                  · cases hpc'
                  · exact hr i pc' hpc'
                · intro i r' hm
                  simp only [List.mem_singleton, WEvent.looked.injEq] at hm
                  obtain ⟨rfl, rfl⟩ := hm
                  have := hr i _ hpc
                  cases r' with
                  | val v => exact ⟨v, rfl⟩
                  | _ => exact this.elim
              · refine ⟨hb, ?_, by intro i r hm; cases hm⟩
                intro i pc' hpc'
                simp only [WSys.set] at hpc'
                split at hpc'
                · cases hpc'; exact reading_step hH (hb.view j) (hr j pc hpc)
                · exact hr i pc' hpc'
          obtain ⟨g1, g2, g3⟩ := hone
          obtain ⟨k1, k2⟩ := ih s1 _ es2 g1 g2 hx
          refine ⟨k1, ?_⟩
          intro i r hm
          rcases List.mem_append.mp hm with hm | hm
          · exact g3 i r hm
          · exact k2 i r hm
  have hb : BInv N H s.sys := by
    refine ⟨?_, ?_, ?_⟩
    · intro j
      rw [(h.1.2.2.1 j).1]
      refine ⟨?_, ?_, ?_⟩
      · intro b hb; exact Or.inl (h.1.2.1.2.2 b hb)
      · intro e; exact Or.inr (by rw [hz.1]; exact hN)
      · intro e; exact Or.inr (by rw [hz.2]; exact hN)
    · intro j w hw
      rw [(h.1.2.2.1 j).2] at hw
      cases hw
    · intro j p hp hm
      have := (h.1.1.2.2 p (List.mem_of_getElem? hp)).1
      rw [hm] at this
      rcases this with g | g <;> cases g
  obtain ⟨g1, g2⟩ := gen xs s s' es hb (by intro i pc hpc; rw [h.2 i] at hpc; cases hpc) he
  exact ⟨fun i hub => (g1 i _ hub).elim, g2⟩

/-! ## examples -/

def w0 : WSys Nat := ⟨MapWeak.s0, fun _ => none⟩

theorem w0_start : Start 2 w0 MapWeak.m0 := ⟨MapWeak.s0_start, fun _ => rfl⟩

theorem m0_zeroed : Zeroed MapWeak.m0 := ⟨fun _ => rfl, fun _ => rfl⟩

/-- Process 0 inserts key 5 with value 50; its stores to the counter of the pool, the key, the value, the next index and the bucket are on their way to process 1. -/
def ins : List (WAct Nat) := MapWeak.xs0.map .sys

def seen : List (WEvent V) → List (Nat × Ret V)
  | [] => []
  | .sys _ :: es => seen es
  | .looked i r :: es => (i, r) :: seen es

/-- **C184 is false for stores that arrive in another order: a value that nobody has inserted.** All stores but that of the value have arrived when process 1 reads key 5: it gets 0. -/
theorem C184_refuted : (exec 2 2 w0 (ins ++ [.sys (.arrive 1 4), .sys (.arrive 1 3), .sys (.arrive 1 1), .peek 1 5, .look 1, .look 1, .look 1, .look 1])).map (fun q => seen q.2) =
    some [(1, .val (some 0))] := by decide +kernel

/-- Only the store to the bucket has arrived. -/
def stuck : List (WAct Nat) := ins ++ [.sys (.arrive 1 4), .peek 1 5, .look 1]

theorem exec_append : ∀ (xs ys : List (WAct V)) (s : WSys V), exec N H s (xs ++ ys) = (exec N H s xs).bind (fun q => (exec N H q.1 ys).map (fun r => (r.1, q.2 ++ r.2))) := by
  intro xs
  induction xs with
  | nil => intro ys s; simp [exec]
  | cons x xs ih =>
    intro ys s
    simp only [List.cons_append, exec]
    cases step N H s x with
    | none => rfl
    | some q =>
      simp only [ih]
      cases exec N H q.1 xs with
      | none => rfl
      | some r =>
        simp only [Option.bind_some]
        cases exec N H r.1 ys with
        | none => rfl
        | some u => simp

/-- **C184 is false for stores that arrive in another order: the call goes round.** The bucket leads to node 0, whose next index is still the 0 of the new segment: the call of process 1
does not return, however many steps it takes, until the store of this index arrives. -/
theorem C184_refuted_loop (n : Nat) : ∃ s' es, exec 2 2 w0 (stuck ++ List.replicate (2 * n) (.look 1)) = some (s', es) ∧ s'.peek 1 = some (.rdLoop 5 0) ∧ seen es = [] := by
  have hx : (exec 2 2 w0 stuck).map (fun q => (match q.1.peek 1 with
      | some (.rdLoop k e) => decide (k = 5 ∧ e = 0)
      | _ => false, (q.1.sys.view 1).key 0, (q.1.sys.view 1).next 0, decide (seen q.2 = []))) = some (true, 0, 0, true) := by decide +kernel
  obtain ⟨⟨s, es⟩, e, hm⟩ := map_some' hx
  simp only [Prod.mk.injEq] at hm
  obtain ⟨h1, h2, h3, h4⟩ := hm
  have hp : s.peek 1 = some (.rdLoop 5 0) := by
    split at h1
    · rename_i k e' he
      have := of_decide_eq_true h1.symm
      rw [he, this.1, this.2]
    · cases h1
  have gen : ∀ (n : Nat) (s : WSys Nat), s.peek 1 = some (.rdLoop 5 0) → (s.sys.view 1).key 0 = 0 → (s.sys.view 1).next 0 = 0 →
      ∃ s', exec 2 2 s (List.replicate (2 * n) (.look 1)) = some (s', []) ∧ s'.peek 1 = some (.rdLoop 5 0) := by
    intro n
    induction n with
    | zero => intro s g1 _ _; exact ⟨s, rfl, g1⟩
    | succ n ih =>
      intro s g1 g2 g3
      have e1 : step 2 2 s (.look 1) = some (s.set 1 (some (.rdNext 5 0)), []) := by
        simp only [step, g1, Pc.step, g2]
        rfl
      have e2 : step 2 2 (s.set 1 (some (.rdNext 5 0))) (.look 1) = some ((s.set 1 (some (.rdNext 5 0))).set 1 (some (.rdLoop 5 0)), []) := by
        have : (s.set 1 (some (.rdNext 5 0))).peek 1 = some (.rdNext 5 0) := by simp [WSys.set]
        simp only [step, this, Pc.step]
        rw [show (s.set 1 (some (.rdNext 5 0))).sys = s.sys from rfl, g3]
      obtain ⟨s', e3, e4⟩ := ih ((s.set 1 (some (.rdNext 5 0))).set 1 (some (.rdLoop 5 0))) (by simp [WSys.set]) g2 g3
      refine ⟨s', ?_, e4⟩
      rw [show 2 * (n + 1) = 2 * n + 1 + 1 by omega, List.replicate_succ, List.replicate_succ]
      simp only [exec, e1, e2, e3]
      rfl
  obtain ⟨s', e1, e2⟩ := gen n s hp h2.symm h3.symm
  refine ⟨s', es, ?_, e2, of_decide_eq_true h4.symm⟩
  rw [exec_append, e]
  simp only [Option.bind_some, e1, Option.map_some, List.append_nil]

/-- The premises of `C184_in_order_partial` are met: process 1 calls before process 0 inserts; the stores arrive in order, with steps of the call between them. -/
def inOrder : List (WAct Nat) := ins ++ [.sys (.arrive 1 0), .sys (.arrive 1 0), .sys (.arrive 1 0), .sys (.arrive 1 0)] ++ [.sys (.arrive 1 0), .look 1, .look 1, .look 1, .look 1]

example : ∃ s' es, exec 2 2 w0 (.peek 1 5 :: inOrder) = some (s', es) ∧ seen es = [(1, .val (some 50))] ∧ w0.sys.inc 1 = [] ∧ Safe 2 2 w0 [] ∧ Start 2 w0 MapWeak.m0 ∧
    (∀ k', WAct.peek 1 k' ∉ inOrder) ∧ (∀ r, WAct.sys (.arrive 1 r) ∈ inOrder → r = 0) ∧ (∀ j c, w0.sys.pend j = .called c → MapPeek.Keeps c) ∧
    ∀ j c, WAct.sys (.act (.call j c)) ∈ inOrder → MapPeek.Keeps c := by
  have hy : (exec 2 2 w0 (.peek 1 5 :: inOrder)).map (fun q => decide (seen q.2 = [(1, .val (some 50))])) = some true := by decide +kernel
  obtain ⟨⟨s', es⟩, e, hm⟩ := map_some' hy
  refine ⟨s', es, e, of_decide_eq_true hm.symm, rfl, trivial, w0_start, ?_, ?_, ?_, ?_⟩
  · intro k'; simp [inOrder, ins]
  · intro r hr
    simp [inOrder, ins, MapWeak.xs0] at hr
    exact hr
  · intro j c hj; cases hj
  · intro j c hj
    simp [inOrder, ins, MapWeak.xs0] at hj
    obtain ⟨_, rfl⟩ := hj
    exact MapPeek.keeps_insert _ _

end Verif.WeakPeek
