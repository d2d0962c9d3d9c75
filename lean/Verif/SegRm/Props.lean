import Verif.SegRm.Lemmas
/-
  Property C174: a map whose memory segment is removed while it is in use.
-/
set_option linter.unusedVariables false
set_option linter.unusedSimpArgs false

namespace Verif.SegRm

open Verif.ShmPool Verif.ShmMap Verif.MapApi

variable {V : Type}

/-- All system calls succeed. -/
def allOk : Env := ⟨true, true, true, true, true⟩

/-- **C174, the part that holds.** Whatever segments are removed and when, the replies of all calls are those of the history without removals in which a key file goes by a new name after each
removal: by C111, the handles that connected between the same two removals share one finite map, which lives on when its segment is removed.  This holds if that history is one of C111.
Missing: the handles of one key file share one map, which is false. -/
theorem C174_generations_partial (par : Nat → Params) (v0 : V) (es : List (Ev V)) {s : MapApi.Spec.State V} {rs : List (Reply V)}
    (h : MapApi.Spec.run par MapApi.Spec.State.init (Spec.rename (fun _ => 0) es) = some (s, rs)) : ∃ w, run par v0 World.init es = .ok (w, rs) := by
  obtain ⟨b, b', hb, _, _⟩ := sim_hist par v0 es _ _ _ _ _ _ Same.init (Rel.init par) h
  exact ⟨_, hb⟩

/-- Two handles of a map, the segment is removed, a third handle connects: the first two still share what they stored, the third has a map of its own. -/
def demo : List (Ev Nat) :=
  [.call (.connect 0 5 allOk), .call (.connect 1 5 allOk), .call (.op 0 (.insert 7 70)), .rm 5, .call (.connect 2 5 allOk), .call (.op 2 (.insert 7 71)), .call (.op 1 (.read 7)),
    .call (.op 2 (.read 7)), .call (.disconnect 1), .call (.connect 1 5 allOk), .call (.op 1 (.read 7)), .call (.op 0 (.read 7))]

example : (MapApi.Spec.run (fun _ => ⟨3, 7, 16, 32⟩) MapApi.Spec.State.init (Spec.rename (fun _ => 0) demo)).map (·.2) =
    some [.unit, .unit, .ret (.bool true), .unit, .ret (.bool true), .ret (.val (some 70)), .ret (.val (some 71)), .unit, .unit, .ret (.val (some 71)), .ret (.val (some 70))] := by
  decide +kernel

theorem rename_append (a b : List (Ev V)) : ∀ gen, Spec.rename gen (a ++ b) = Spec.rename gen a ++ Spec.rename (Spec.gens gen a) b := by
  induction a with
  | nil => intro gen; rfl
  | cons e a ih =>
    intro gen
    cases e with
    | rm k => exact ih _
    | call c => simp only [List.cons_append, Spec.rename, Spec.gens, ih]

theorem run_append {par : Nat → Params} (a b : List (Call V)) : ∀ {s s' s'' : MapApi.Spec.State V} {rs rs' : List (Reply V)}, MapApi.Spec.run par s a = some (s', rs) →
    MapApi.Spec.run par s' b = some (s'', rs') → MapApi.Spec.run par s (a ++ b) = some (s'', rs ++ rs') := by
  induction a with
  | nil => intro s s' s'' rs rs' h1 h2; simp only [MapApi.Spec.run, Option.some.injEq, Prod.mk.injEq] at h1; obtain ⟨rfl, rfl⟩ := h1; exact h2
  | cons c a ih =>
    intro s s' s'' rs rs' h1 h2
    simp only [List.cons_append, MapApi.Spec.run] at h1 ⊢
    cases e : MapApi.Spec.step par s c with
    | none => rw [e] at h1; simp at h1
    | some x =>
      obtain ⟨s1, r1⟩ := x
      rw [e] at h1
      dsimp only at h1 ⊢
      cases e2 : MapApi.Spec.run par s1 a with
      | none => rw [e2] at h1; simp at h1
      | some y =>
        obtain ⟨s2, r2⟩ := y
        rw [e2] at h1
        simp only [Option.some.injEq, Prod.mk.injEq] at h1
        obtain ⟨rfl, rfl⟩ := h1
        rw [ih e2 h2]
        rfl

/-- There is no map of a generation to come. -/
def Old (gen : Nat → Nat) (s : MapApi.Spec.State V) : Prop := ∀ k g, gen k < g → s.ts (segId k g) = none

theorem onTable_old {gen : Nat → Nat} {s s' : MapApi.Spec.State V} {r : Reply V} (O : Old gen s) (h : Nat) (f : MapApi.Spec.Table V → List (UInt64 × V) × Reply V)
    (hs : MapApi.Spec.onTable s h f = some (s', r)) : Old gen s' := by
  unfold MapApi.Spec.onTable at hs
  cases e : s.us h with
  | none => rw [e] at hs; simp only [Option.some.injEq, Prod.mk.injEq] at hs; rw [← hs.1]; exact O
  | some k =>
    rw [e] at hs
    dsimp only at hs
    cases e2 : s.ts k with
    | none => rw [e2] at hs; simp at hs
    | some t =>
      rw [e2] at hs
      simp only [Option.some.injEq, Prod.mk.injEq] at hs
      rw [← hs.1]
      intro k' g hg
      have a := O k' g hg
      by_cases ek : segId k' g = k
      · rw [ek, e2] at a; simp at a
      · simp only [set_other _ _ _ _ ek]; exact a

theorem step_old {par : Nat → Params} {gen : Nat → Nat} {s s' : MapApi.Spec.State V} {r : Reply V} (O : Old gen s) (c : Call V)
    (hs : MapApi.Spec.step par s (Spec.name gen c) = some (s', r)) : Old gen s' := by
  cases c with
  | connect h key env =>
    simp only [Spec.name, MapApi.Spec.step] at hs
    split at hs
    · simp at hs
    · split at hs
      · simp only [Option.some.injEq, Prod.mk.injEq] at hs; rw [← hs.1]; exact O
      · split at hs
        · split at hs
          · simp only [Option.some.injEq, Prod.mk.injEq] at hs
            rw [← hs.1]
            intro k' g hg
            have : segId k' g ≠ segId key (gen key) := by
              intro e
              obtain ⟨rfl, rfl⟩ := segId_inj e
              omega
            simp only [set_other _ _ _ _ this]
            exact O k' g hg
          · split at hs
            · simp only [Option.some.injEq, Prod.mk.injEq] at hs; rw [← hs.1]; exact O
            · split at hs
              · simp only [Option.some.injEq, Prod.mk.injEq] at hs; rw [← hs.1]; exact O
              · simp at hs
        · simp at hs
  | disconnect h => simp only [Spec.name, MapApi.Spec.step, Option.some.injEq, Prod.mk.injEq] at hs; rw [← hs.1]; exact O
  | isConnected h => simp only [Spec.name, MapApi.Spec.step, Option.some.injEq, Prod.mk.injEq] at hs; rw [← hs.1]; exact O
  | capacity h => simp only [Spec.name, MapApi.Spec.step, Option.some.injEq, Prod.mk.injEq] at hs; rw [← hs.1]; exact O
  | op h o => exact onTable_old O _ _ hs
  | insertMany h ps => exact onTable_old O _ _ hs
  | eraseMany h ks => exact onTable_old O _ _ hs
  | nonEmpty h =>
    simp only [Spec.name, MapApi.Spec.step] at hs
    split at hs
    · simp at hs
    · split at hs
      · simp at hs
      · simp only [Option.some.injEq, Prod.mk.injEq] at hs; rw [← hs.1]; exact O

theorem run_old {par : Nat → Params} : ∀ (es : List (Ev V)) (gen : Nat → Nat) (s s' : MapApi.Spec.State V) (rs : List (Reply V)), Old gen s →
    MapApi.Spec.run par s (Spec.rename gen es) = some (s', rs) → Old (Spec.gens gen es) s'
  | [], gen, s, s', rs, O, h => by
    simp only [Spec.rename, MapApi.Spec.run, Option.some.injEq, Prod.mk.injEq] at h
    rw [← h.1]; exact O
  | .rm key :: es, gen, s, s', rs, O, h => by
    refine run_old es _ s s' rs ?_ h
    intro k g hg
    refine O k g ?_
    by_cases e : k = key
    · subst e; simp only [set_same] at hg; omega
    · simpa only [set_other _ _ _ _ e] using hg
  | .call c :: es, gen, s, s', rs, O, h => by
    simp only [Spec.rename, MapApi.Spec.run] at h
    cases h1 : MapApi.Spec.step par s (Spec.name gen c) with
    | none => rw [h1] at h; simp at h
    | some sr =>
      obtain ⟨s1, r⟩ := sr
      rw [h1] at h
      dsimp only at h
      cases h2 : MapApi.Spec.run par s1 (Spec.rename gen es) with
      | none => rw [h2] at h; simp at h
      | some sr2 =>
        obtain ⟨s2, rs2⟩ := sr2
        rw [h2] at h
        simp only [Option.some.injEq, Prod.mk.injEq] at h
        obtain ⟨rfl, rfl⟩ := h
        exact run_old es gen s1 _ rs2 (step_old O c h1) h2

/-- **C174 is false.** After every history, for every handle `a` of a map of the key file `k`: if the segment of `k` is removed, a handle of the same class that connects then to `k` finds an empty
map, and what `a` inserts from then on it does not see, although all calls succeed and both handles say that they are connected. -/
theorem C174_refuted (par : Nat → Params) (v0 : V) (es : List (Ev V)) {s : MapApi.Spec.State V} {rs : List (Reply V)}
    (h : MapApi.Spec.run par MapApi.Spec.State.init (Spec.rename (fun _ => 0) es) = some (s, rs)) (a b k g : Nat) (ha : s.us a = some (segId k g)) (hb : s.us b = none)
    (hab : par a = par b) (hN : 0 < (par a).N) (x : UInt64) (v : V) :
    ∃ w, run par v0 World.init (es ++ [.rm k, .call (.connect b k allOk), .call (.op b .size), .call (.op a .clear), .call (.op a (.insert x v)), .call (.op b (.read x)), .call (.op a (.read x)),
        .call (.isConnected a), .call (.isConnected b)]) =
      .ok (w, rs ++ [.unit, .ret (.num 0), .ret .unit, .ret (.bool true), .ret (.val none), .ret (.val (some v)), .bool true, .bool true]) := by
  have O : Old (Spec.gens (fun _ => 0) es) s := run_old es _ _ _ _ (fun _ _ _ => rfl) h
  obtain ⟨_, w', _, _, R⟩ := sim_hist par v0 es _ _ _ _ _ _ Same.init (Rel.init par) h
  obtain ⟨_, t, ht, hp⟩ := R.inn a _ ha
  have hfit : MapApi.Spec.Fit (par b) := by
    have K := R.key (segId k g)
    rw [ht] at K
    obtain ⟨_, _, _, S⟩ := KRel.some K
    rw [← hab, hp]
    exact S.fit
  generalize segId k g = id at *
  refine C174_generations_partial par v0 _ ?_ (s := ?s)
  case s => exact ⟨set (set s.ts (segId k (Spec.gens (fun _ => 0) es k + 1)) (some ⟨par b, []⟩)) id (some ⟨par a, [(x, v)]⟩), set s.us b (some (segId k (Spec.gens (fun _ => 0) es k + 1)))⟩
  rw [rename_append]
  refine run_append _ _ h ?_
  generalize hg : Spec.gens (fun _ => 0) es k = g' at *
  have hn : s.ts (segId k (g' + 1)) = none := O k (g' + 1) (by omega)
  have hne : id ≠ segId k (g' + 1) := by
    intro e
    rw [← e, ht] at hn
    simp at hn
  have hab' : a ≠ b := by
    intro e
    rw [e, hb] at ha
    simp at ha
  obtain ⟨tp, ti⟩ := t
  dsimp only at hp
  subst hp
  simp only [Spec.rename, Spec.name, set_same, hg, MapApi.Spec.run, MapApi.Spec.step, hb, allOk, hn, MapApi.Spec.onTable, Bool.true_eq_false, if_false, Bool.and_self, Bool.true_and, hfit,
    decide_true, if_true, set_other _ _ _ _ hab', set_other _ _ _ _ hab'.symm, ha, set_other _ _ _ _ hne, set_other _ _ _ _ hne.symm, ht, set_set, ShmMap.Spec.step, ShmMap.Spec.bind,
    ShmMap.Spec.has, ShmMap.Spec.lookup, List.length_nil, hN, List.map_nil, List.not_mem_nil, false_or, List.find?_nil, List.find?_cons, Option.map_none, Option.map_some, Option.isSome_some]
  rw [set_self (set (set s.ts _ _) id _) (segId k (g' + 1)) _ (by rw [set_other _ _ _ _ hne.symm, set_same]), set_set]

/-- The hypotheses are met after the first steps of `demo`. -/
example : ∃ s rs, MapApi.Spec.run (fun _ => ⟨3, 7, 16, 32⟩) MapApi.Spec.State.init (Spec.rename (fun _ => 0) (demo.take 3)) = some (s, rs) ∧ s.us 0 = some (segId 5 0) ∧ s.us 2 = none :=
  ⟨_, _, rfl, by decide +kernel, by decide +kernel⟩

end Verif.SegRm
