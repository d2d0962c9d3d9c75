import Verif.RandomSys.Spec

set_option linter.unusedSimpArgs false

namespace Verif.RandomSys

variable {gen : UInt32 → Nat → Nat}

theorem draws_append (a b : List Obs) : draws (a ++ b) = draws a ++ draws b := by
  induction a with
  | nil => rfl
  | cons o a ih => cases o <;> simp [draws, ih]

theorem after_done {a b : List Obs} (h : Done a) : after (a ++ b) = after a ++ draws b := by
  induction a with
  | nil => obtain ⟨t, ht⟩ := h; cases ht
  | cons o a ih =>
    have tl : (∀ t, o ≠ .ret t 0) → Done a := by
      intro hn
      obtain ⟨t, ht⟩ := h
      rcases List.mem_cons.1 ht with e | e
      · exact absurd e.symm (hn t)
      · exact ⟨t, e⟩
    by_cases ho : ∃ t, o = .ret t 0
    · obtain ⟨t, rfl⟩ := ho
      simp only [List.cons_append, after, draws_append]
    · have hn : ∀ t, o ≠ .ret t 0 := fun t e => ho ⟨t, e⟩
      have := ih (tl hn)
      cases o with
      | call t => simpa [after] using this
      | draw t x => simpa [after] using this
      | got t v => simpa [after] using this
      | ret t rc =>
        have hrc : rc ≠ 0 := fun e => hn t (by rw [e])
        have e1 : ∀ l, after (.ret t rc :: l) = after l := by
          intro l
          rw [after]
          intro u e
          cases e
          exact hrc rfl
        rw [List.cons_append, e1, e1]
        exact this

theorem after_not {a : List Obs} (h : ¬ Done a) : after a = [] := by
  induction a with
  | nil => rfl
  | cons o a ih =>
    have h' : ¬ Done a := fun ⟨t, ht⟩ => h ⟨t, List.mem_cons_of_mem _ ht⟩
    have := ih h'
    rw [after]
    · exact this
    · rintro t rfl
      exact h ⟨t, List.mem_cons_self ..⟩

theorem done_append {a b : List Obs} : Done (a ++ b) ↔ Done a ∨ Done b := by
  constructor
  · rintro ⟨t, h⟩
    rcases List.mem_append.1 h with h | h
    · exact .inl ⟨t, h⟩
    · exact .inr ⟨t, h⟩
  · rintro (⟨t, h⟩ | ⟨t, h⟩)
    · exact ⟨t, List.mem_append_left _ h⟩
    · exact ⟨t, List.mem_append_right _ h⟩

theorem tidy_prefix {a b : List Obs} (h : Tidy (a ++ b)) : Tidy a := by
  intro pre t post e
  exact h pre t (post ++ b) (by rw [e]; simp)

theorem inCall_append (t : Nat) (a b : List Obs) : inCall t (a ++ b) = b.foldl (enters t) (inCall t a) := by
  unfold inCall
  rw [List.foldl_append]

theorem goto_pc (s : Sys) (t u : Nat) (p : Pc) : (s.goto t p).pc u = if u = t then p else s.pc u := rfl

/-- The observations tell who is inside of a call. -/
theorem inCall_pc {s : Sys} {tr : List Obs} (h : Reach gen s tr) (t : Nat) : inCall t tr = true ↔ s.pc t ≠ .idle := by
  induction h with
  | init => simp [inCall, Sys.init]
  | @step s tr s' o a hr hs ih =>
    rw [inCall_append]
    cases a with
    | call u =>
      simp only [step] at hs
      split at hs <;> cases hs
      simp only [List.foldl_cons, List.foldl_nil, enters, goto_pc]
      by_cases e : u = t
      · simp [e]
      · simp only [if_neg e, if_neg (Ne.symm e)]; exact ih
    | draw u =>
      simp only [step] at hs
      split at hs <;> cases hs
      exact ih
    | go u v =>
      simp only [step, advance] at hs
      by_cases e : t = u
      · subst e
        split at hs <;> (try split at hs) <;> cases hs <;> simp_all [goto_pc, enters]
      · have e' : ¬ u = t := fun h => e h.symm
        split at hs <;> (try split at hs) <;> cases hs <;>
          simp only [List.foldl_cons, List.foldl_nil, enters, goto_pc, if_neg e, if_neg e'] <;> exact ih

/-- Values that the device gave. -/
def Got (tr : List Obs) (v : UInt32) : Prop := ∃ t, Obs.got t v ∈ tr

theorem got_append {a b : List Obs} {v} (h : Got a v) : Got (a ++ b) v := by
  obtain ⟨t, h⟩ := h
  exact ⟨t, List.mem_append_left _ h⟩

/-- Holds in all executions: threads carry values of the device, and after the flag is set, or a thread is about to set it, so does the generator. -/
structure Seeded (s : Sys) (tr : List Obs) : Prop where
  car : ∀ t v, s.pc t = .cls v ∨ s.pc t = .seed v → Got tr v
  gen : s.inited = true ∨ (∃ t, s.pc t = .set ∨ s.pc t = .fin) → Got tr s.seed
  fin : ∀ t, s.pc t = .fin → s.inited = true
  done : Done tr → s.inited = true

theorem seeded {s : Sys} {tr : List Obs} (h : Reach gen s tr) : Seeded s tr := by
  induction h with
  | init => exact ⟨by simp [Sys.init], by simp [Sys.init], by simp [Sys.init], by rintro ⟨t, ht⟩; cases ht⟩
  | @step s tr s' o a hr hs ih =>
    cases a with
    | call u =>
      simp only [step] at hs
      split at hs <;> cases hs
      refine ⟨fun t v ht => got_append (ih.car t v ?_), fun ht => got_append (ih.gen ?_), fun t ht => ih.fin t ?_, fun hd => ih.done ?_⟩
      · simp only [goto_pc] at ht
        split at ht
        · simp at ht
        · exact ht
      · rcases ht with ht | ⟨t, ht⟩
        · exact .inl ht
        · simp only [goto_pc] at ht
          split at ht
          · simp at ht
          · exact .inr ⟨t, ht⟩
      · simp only [goto_pc] at ht
        split at ht
        · cases ht
        · exact ht
      · rcases done_append.1 hd with h | ⟨t, h⟩
        · exact h
        · simp at h
    | draw u =>
      simp only [step] at hs
      split at hs <;> cases hs
      refine ⟨fun t v ht => got_append (ih.car t v ht), fun ht => got_append (ih.gen ht), fun t ht => ih.fin t ht, fun hd => ih.done ?_⟩
      rcases done_append.1 hd with h | ⟨t, h⟩
      · exact h
      · simp at h
    | go u v =>
      have key : ∀ (p : Pc) (o : List Obs), (∀ v, p ≠ .cls v) → (∀ v, p = .seed v → s.pc u = .cls v) → p ≠ .set → p ≠ .fin → (Done o → s.inited = true) →
          Seeded (s.goto u p) (tr ++ o) := by
        intro p o h1 h2 h3 h4 h5
        refine ⟨fun t v ht => got_append ?_, fun ht => got_append (ih.gen ?_), fun t ht => ih.fin t ?_, fun hd => ?_⟩
        · simp only [goto_pc] at ht
          split at ht
          · rename_i e
            rcases ht with ht | ht
            · exact absurd ht (h1 v)
            · exact ih.car u v (.inl (h2 v ht))
          · exact ih.car t v ht
        · rcases ht with ht | ⟨t, ht⟩
          · exact .inl ht
          · simp only [goto_pc] at ht
            split at ht
            · simp [h3, h4] at ht
            · exact .inr ⟨t, ht⟩
        · simp only [goto_pc] at ht
          split at ht
          · exact absurd ht h4
          · exact ht
        · rcases done_append.1 hd with h | h
          · exact ih.done h
          · exact h5 h
      have nd : ∀ t rc, rc ≠ 0 → Done [Obs.ret t rc] → s.inited = true := by
        rintro t rc h ⟨t', h'⟩
        simp at h'
        exact absurd h'.2.symm h
      have nd0 : Done [] → s.inited = true := by rintro ⟨t, h⟩; cases h
      simp only [step, advance] at hs
      split at hs
      · cases hs
      · split at hs <;> cases hs
        · rename_i hi
          exact key _ _ (by simp) (by simp) (by simp) (by simp) (fun _ => hi)
        · exact key _ _ (by simp) (by simp) (by simp) (by simp) nd0
      · split at hs <;> cases hs
        · exact key _ _ (by simp) (by simp) (by simp) (by simp) (nd u (-1) (by decide))
        · exact key _ _ (by simp) (by simp) (by simp) (by simp) nd0
      · split at hs <;> cases hs
        · exact key _ _ (by simp) (by simp) (by simp) (by simp) (nd u (-1) (by decide))
        · rename_i x
          refine ⟨fun t v ht => ?_, fun ht => got_append (ih.gen ?_), fun t ht => ih.fin t ?_, fun hd => ih.done ?_⟩
          · simp only [goto_pc] at ht
            split at ht
            · simp at ht
              subst ht
              exact ⟨u, by simp⟩
            · exact got_append (ih.car t v ht)
          · rcases ht with ht | ⟨t, ht⟩
            · exact .inl ht
            · simp only [goto_pc] at ht
              split at ht
              · simp at ht
              · exact .inr ⟨t, ht⟩
          · simp only [goto_pc] at ht
            split at ht
            · cases ht
            · exact ht
          · rcases done_append.1 hd with h | ⟨t, h⟩
            · exact h
            · simp at h
      · rename_i x hx
        cases hs
        exact key _ _ (by simp) (by rintro v ⟨⟩; exact hx) (by simp) (by simp) nd0
      · rename_i x hx
        cases hs
        refine ⟨fun t v ht => got_append (ih.car t v ?_), fun ht => got_append (ih.car u x (.inr hx)), fun t ht => ih.fin t ?_, fun hd => ih.done (by simpa using hd)⟩
        · simp only [goto_pc] at ht
          split at ht
          · simp at ht
          · exact ht
        · simp only [goto_pc] at ht
          split at ht
          · cases ht
          · exact ht
      · rename_i hx
        cases hs
        refine ⟨fun t v ht => got_append (ih.car t v ?_), fun _ => got_append (ih.gen (.inr ⟨u, .inl hx⟩)), fun t ht => rfl, fun hd => rfl⟩
        simp only [goto_pc] at ht
        split at ht
        · simp at ht
        · exact ht
      · rename_i hx
        cases hs
        exact key _ _ (by simp) (by simp) (by simp) (by simp) (fun _ => ih.fin u hx)

/-- Without overlapping first calls. -/
def Quiet (gen : UInt32 → Nat → Nat) (s : Sys) (tr : List Obs) : Prop :=
  (s.inited = false ∧ ¬ Done tr ∧ ∀ t u, s.pc t ≠ .idle → s.pc u ≠ .idle → t = u) ∨
  (s.inited = true ∧ (∀ t, s.pc t = .idle ∨ s.pc t = .flag ∨ s.pc t = .fin) ∧
    ∃ n k, n + k = s.pos ∧ after tr = (List.range k).map fun i => gen s.seed (n + i))

theorem quiet {s : Sys} {tr : List Obs} (h : Reach gen s tr) (ht : Tidy tr) : Quiet gen s tr := by
  induction h with
  | init => exact .inl ⟨rfl, (by rintro ⟨t, h⟩; cases h), by simp [Sys.init]⟩
  | @step s tr s' o a hr hs ih =>
    have sd := seeded hr
    have q := ih (tidy_prefix ht)
    have hidle : ∀ t, inCall t tr = false → s.pc t = .idle := by
      intro t e
      by_contra hc
      rw [(inCall_pc hr t).2 hc] at e
      cases e
    -- what has been drawn does not change
    have keep : ∀ o : List Obs, draws o = [] → ∀ n k, n + k = s.pos → after tr = (List.range k).map (fun i => gen s.seed (n + i)) →
        ∃ n k, n + k = s.pos ∧ after (tr ++ o) = (List.range k).map fun i => gen s.seed (n + i) := by
      intro o ho n k hk e
      by_cases hd : Done tr
      · exact ⟨n, k, hk, by rw [after_done hd, ho, List.append_nil, e]⟩
      · by_cases hd' : Done (tr ++ o)
        · refine ⟨s.pos, 0, by simp, ?_⟩
          have := done_append.1 hd'
          have h2 : ∀ (a b : List Obs), ¬ Done a → draws b = [] → after (a ++ b) = [] := by
            intro a b ha hb
            induction a with
            | nil =>
              clear hd' this
              induction b with
              | nil => rfl
              | cons x b ihb =>
                cases x with
                | draw t y => simp [draws] at hb
                | call t => simpa [after] using ihb (by simpa [draws] using hb)
                | got t v => simpa [after] using ihb (by simpa [draws] using hb)
                | ret t rc =>
                  have hb' : draws b = [] := by simpa [draws] using hb
                  by_cases e : rc = 0
                  · subst e
                    simpa [after] using hb'
                  · rw [List.nil_append, after]
                    · simpa using ihb hb'
                    · intro u e'
                      cases e'
                      exact e rfl
            | cons x a iha =>
              have ha' : ¬ Done a := fun ⟨t, ht⟩ => ha ⟨t, List.mem_cons_of_mem _ ht⟩
              rw [List.cons_append, after]
              · exact iha ha'
              · rintro t rfl
                exact ha ⟨t, List.mem_cons_self ..⟩
          simpa using h2 tr o hd ho
        · exact ⟨s.pos, 0, by simp, by rw [after_not hd']; rfl⟩
    cases a with
    | call u =>
      simp only [step] at hs
      split at hs <;> cases hs
      rcases q with ⟨hi, hd, hu⟩ | ⟨hi, hp, n, k, hk, he⟩
      · refine .inl ⟨hi, ?_, ?_⟩
        · intro h
          rcases done_append.1 h with h | ⟨t, h⟩
          · exact hd h
          · simp at h
        · have hall := (ht tr u [] rfl).resolve_left hd
          intro t v h1 h2
          simp only [goto_pc] at h1 h2
          split at h1 <;> split at h2
          · simp_all
          · exact absurd (hidle v (hall v)) h2
          · exact absurd (hidle t (hall t)) h1
          · exact absurd (hidle t (hall t)) h1
      · refine .inr ⟨hi, fun t => ?_, keep _ rfl n k hk he⟩
        simp only [goto_pc]
        split
        · simp
        · exact hp t
    | draw u =>
      simp only [step] at hs
      split at hs <;> cases hs
      rcases q with ⟨hi, hd, hu⟩ | ⟨hi, hp, n, k, hk, he⟩
      · refine .inl ⟨hi, ?_, hu⟩
        intro h
        rcases done_append.1 h with h | ⟨t, h⟩
        · exact hd h
        · simp at h
      · refine .inr ⟨hi, hp, ?_⟩
        by_cases hd : Done tr
        · refine ⟨n, k + 1, by show _ = s.pos + 1; omega, ?_⟩
          rw [after_done hd, he, List.range_succ, List.map_append]
          simp [draws, hk]
        · refine ⟨s.pos + 1, 0, rfl, ?_⟩
          rw [after_not]
          · rfl
          · intro h
            rcases done_append.1 h with h | ⟨t, h⟩
            · exact hd h
            · simp at h
    | go u v =>
      simp only [step] at hs
      rcases q with ⟨hi, hd, hu⟩ | ⟨hi, hp, n, k, hk, he⟩
      · have one : ∀ (p : Pc) (s0 : Sys), s0.pc = s.pc → s.pc u ≠ .idle → ∀ t w, (s0.goto u p).pc t ≠ .idle → (s0.goto u p).pc w ≠ .idle → t = w := by
          intro p s0 e0 hnu t w h1 h2
          simp only [goto_pc, e0] at h1 h2
          split at h1 <;> split at h2
          · simp_all
          · rename_i h3 h4; exact h3.trans (hu u w hnu h2)
          · rename_i h3 h4; exact (hu t u h1 hnu).trans h4.symm
          · exact hu t w h1 h2
        have nd : ∀ o : List Obs, ¬ Done o → ¬ Done (tr ++ o) := fun o ho h => (done_append.1 h).elim hd ho
        have nd0 : ¬ Done [] := by rintro ⟨t, h⟩; cases h
        have nd1 : ¬ Done [Obs.ret u (-1)] := by rintro ⟨t, h⟩; simp at h
        simp only [advance] at hs
        split at hs
        · cases hs
        · rename_i hx
          rw [hi] at hs
          cases hs
          exact .inl ⟨hi, nd _ nd0, one _ s rfl (by rw [hx]; simp)⟩
        · rename_i hx
          split at hs <;> cases hs
          · exact .inl ⟨hi, nd _ nd1, one _ s rfl (by rw [hx]; simp)⟩
          · exact .inl ⟨hi, nd _ nd0, one _ s rfl (by rw [hx]; simp)⟩
        · rename_i hx
          split at hs <;> cases hs
          · exact .inl ⟨hi, nd _ nd1, one _ s rfl (by rw [hx]; simp)⟩
          · refine .inl ⟨hi, nd _ ?_, one _ s rfl (by rw [hx]; simp)⟩
            rintro ⟨t, h⟩
            simp at h
        · rename_i hx
          cases hs
          exact .inl ⟨hi, nd _ nd0, one _ s rfl (by rw [hx]; simp)⟩
        · rename_i hx
          cases hs
          exact .inl ⟨hi, nd _ nd0, one _ { s with seed := _, pos := 0 } rfl (by rw [hx]; simp)⟩
        · rename_i hx
          cases hs
          refine .inr ⟨rfl, fun t => ?_, s.pos, 0, rfl, by rw [List.append_nil, after_not hd]; rfl⟩
          simp only [goto_pc]
          split
          · simp
          · rename_i h
            refine .inl ?_
            by_contra hc
            exact h (hu t u hc (by rw [hx]; simp))
        · rename_i hx
          rw [sd.fin u hx] at hi
          cases hi
      · have go : ∀ t, (s.goto u .idle).pc t = .idle ∨ (s.goto u .idle).pc t = .flag ∨ (s.goto u .idle).pc t = .fin := by
          intro t
          simp only [goto_pc]
          split
          · simp
          · exact hp t
        simp only [advance] at hs
        rcases hp u with h | h | h
        · rw [h] at hs; cases hs
        · rw [h] at hs
          simp only [hi, if_true] at hs
          cases hs
          exact .inr ⟨hi, go, keep _ rfl n k hk he⟩
        · rw [h] at hs
          cases hs
          exact .inr ⟨hi, go, keep _ rfl n k hk he⟩

/-- Executions of given steps. -/
def exec (gen : UInt32 → Nat → Nat) : Sys × List Obs → List Act → Option (Sys × List Obs)
  | c, [] => some c
  | c, a :: as => match step gen c.1 a with
    | none => none
    | some (s, o) => exec gen (s, c.2 ++ o) as

theorem exec_reach {as : List Act} : ∀ {c c'}, Reach gen c.1 c.2 → exec gen c as = some c' → Reach gen c'.1 c'.2 := by
  induction as with
  | nil => intro c c' h e; cases e; exact h
  | cons a as ih =>
    intro c c' h e
    simp only [exec] at e
    cases hs : step gen c.1 a with
    | none => rw [hs] at e; cases e
    | some p =>
      rw [hs] at e
      exact ih (.step a h hs) e

end Verif.RandomSys
