import Verif.LogFile.Spec

namespace Verif.LogFile

/-! ### Updates -/

theorem put_eq {α : Type} (f : Nat → α) (a : Nat) (v : α) : put f a v a = v := by simp [put]
theorem put_ne {α : Type} (f : Nat → α) {a x : Nat} (v : α) (h : x ≠ a) : put f a v x = f x := by simp [put, h]
theorem put2_eq {α : Type} (f : Nat → Nat → α) (a b : Nat) (v : α) : put2 f a b v a b = v := by simp [put2]
theorem put2_ne {α : Type} (f : Nat → Nat → α) {a b x y : Nat} (v : α) (h : ¬ (x = a ∧ y = b)) : put2 f a b v x y = f x y := by simp [put2, h]

/-! ### The writes of a run -/

/-- The write of one step. -/
def wrote (w : World) : Act → List Entry
  | .write p t ok =>
    match w.pc p t, w.tab p STDERR with
    | .writing l i (d :: _), some s => if ok then [⟨s.file, ⟨p, t, l, i, d⟩⟩] else []
    | _, _ => []
  | _ => []

def trace (w : World) : List Act → List Entry
  | [] => []
  | a :: as => wrote w a ++ (match step w a with | some w' => trace w' as | none => [])

theorem trace_cons {w w' : World} {a : Act} (as : List Act) (h : step w a = some w') : trace w (a :: as) = wrote w a ++ trace w' as := by rw [trace, h]

theorem run_cons {w w' : World} {a : Act} {as : List Act} (h : run w (a :: as) = some w') : ∃ v, step w a = some v ∧ run v as = some w' := by
  rw [run] at h
  cases hs : step w a with
  | none => rw [hs] at h; cases h
  | some v => rw [hs] at h; exact ⟨v, rfl, h⟩

theorem run_append (w : World) (a b : List Act) : run w (a ++ b) = (run w a).bind (run · b) := by
  induction a generalizing w with
  | nil => rfl
  | cons x a ih =>
    rw [List.cons_append, run, run]
    cases step w x with
    | none => rfl
    | some v => exact ih v

theorem run_split {w w' : World} {a b : List Act} (h : run w (a ++ b) = some w') : ∃ v, run w a = some v ∧ run v b = some w' := by
  rw [run_append] at h
  cases hv : run w a with
  | none => rw [hv] at h; cases h
  | some v => rw [hv] at h; exact ⟨v, rfl, h⟩

theorem into_append (f : Nat) (a b : List Entry) : into f (a ++ b) = into f a ++ into f b := by simp [into]

theorem write_files (w : World) (p t l i : Nat) (d : List UInt8) (r : List (List UInt8)) (ok : Bool) (hpc : w.pc p t = .writing l i (d :: r)) (f : Nat) :
    (write w p ⟨p, t, l, i, d⟩ ok).files f = w.files f ++ into f (wrote w (.write p t ok)) := by
  unfold write
  simp only [wrote, hpc]
  cases hs : w.tab p STDERR with
  | none => simp [into]
  | some s =>
    cases ok with
    | false => simp [into]
    | true =>
      simp only [if_true]
      by_cases hf : f = s.file
      · subst hf; simp [put_eq, into]
      · rw [put_ne _ _ hf]
        have : ¬ s.file = f := fun h => hf h.symm
        simp [into, this]

theorem write_rest (w : World) (p : Nat) (r : Rec) (ok : Bool) : (write w p r ok).tab = w.tab ∧ (write w p r ok).dir = w.dir ∧ (write w p r ok).lines = w.lines ∧
    (write w p r ok).rets = w.rets ∧ (write w p r ok).log_level = w.log_level ∧ (write w p r ok).lock = w.lock := by
  unfold write
  cases w.tab p STDERR with
  | none => exact ⟨rfl, rfl, rfl, rfl, rfl, rfl⟩
  | some s => cases ok <;> exact ⟨rfl, rfl, rfl, rfl, rfl, rfl⟩

theorem openLog_rest (w : World) (p path d : Nat) : (openLog w p path d).files = w.files ∧ (openLog w p path d).lines = w.lines ∧ (openLog w p path d).rets = w.rets ∧
    (openLog w p path d).log_level = w.log_level ∧ (openLog w p path d).lock = w.lock ∧
    ∃ f, (openLog w p path d).dir path = some f ∧ (openLog w p path d).tab = put2 w.tab p d (some ⟨f, true⟩) := by
  unfold openLog
  cases h : w.dir path with
  | some f => exact ⟨rfl, rfl, rfl, rfl, rfl, f, h, rfl⟩
  | none => exact ⟨rfl, rfl, rfl, rfl, rfl, w.fresh, put_eq _ _ _, rfl⟩

/-- What every step does to the files. -/
theorem step_files {w v : World} {a : Act} (h : step w a = some v) (f : Nat) : v.files f = w.files f ++ into f (wrote w a) := by
  cases a with
  | log p t parts => simp only [step] at h; split at h <;> cases h; simp [wrote, into]
  | write p t ok =>
    simp only [step] at h
    cases hpc : w.pc p t with
    | writing l i rest =>
      rw [hpc] at h
      cases rest with
      | nil => cases h
      | cons d r => cases h; exact write_files w p t l i d r ok hpc f
    | _ => rw [hpc] at h; cases h
  | logged p t => simp only [step] at h; split at h <;> cases h; simp [wrote, into]
  | create p t path l => simp only [step] at h; split at h <;> cases h; simp [wrote, into]
  | mkpath p t ok =>
    simp only [step] at h
    split at h <;> cases h
    cases ok <;> simp [wrote, into, ret]
  | «open» p t d =>
    simp only [step] at h
    split at h
    · cases d with
      | none => cases h; simp [wrote, into, ret]
      | some d =>
        simp only at h
        split at h <;> cases h
        simp [wrote, into, (openLog_rest w p _ d).1]
    · cases h
  | dup p t ok =>
    simp only [step] at h
    split at h
    · split at h
      · cases h; simp [wrote, into, ret]
      · cases h; cases ok <;> simp [wrote, into, ret]
    · cases h
  | close p t ok =>
    simp only [step] at h
    split at h <;> cases h
    cases ok <;> simp [wrote, into, ret]
  | level p t => simp only [step] at h; split at h <;> cases h; simp [wrote, into, ret]
  | rename a b => simp only [step] at h; split at h <;> cases h; simp [wrote, into]
  | unlink a => cases h; simp [wrote, into]
  | openOther p d g => simp only [step] at h; split at h <;> cases h; simp [wrote, into]
  | closeOther p d =>
    simp only [step] at h
    split at h
    · split at h <;> cases h; simp [wrote, into]
    · cases h

theorem run_files : ∀ (as : List Act) {w v : World}, run w as = some v → ∀ f, v.files f = w.files f ++ into f (trace w as) := by
  intro as
  induction as with
  | nil => intro w v h f; cases h; simp [trace, into]
  | cons a as ih =>
    intro w v h f
    obtain ⟨x, hx, hr⟩ := run_cons h
    rw [trace_cons as hx, into_append, ih hr f, step_files hx f, List.append_assoc]

/-! ### Descriptor 2 -/

/-- Descriptor 2 is open, and nobody is about to close it. -/
def Inv (w : World) : Prop := (∀ p, w.tab p STDERR ≠ none) ∧ ∀ p t td l, (w.pc p t = .moving td l ∨ w.pc p t = .closing td l) → td ≠ STDERR

theorem pc_put {w : World} {p t : Nat} {c : Pc} (h : ∀ p t td l, (w.pc p t = .moving td l ∨ w.pc p t = .closing td l) → td ≠ STDERR)
    (hc : ∀ td l, (c = .moving td l ∨ c = .closing td l) → td ≠ STDERR) :
    ∀ q u td l, (put2 w.pc p t c q u = .moving td l ∨ put2 w.pc p t c q u = .closing td l) → td ≠ STDERR := by
  intro q u td l hq
  by_cases he : q = p ∧ u = t
  · obtain ⟨rfl, rfl⟩ := he
    rw [put2_eq] at hq
    exact hc td l hq
  · rw [put2_ne _ _ he] at hq
    exact h q u td l hq

theorem tab_put {w : World} {p d : Nat} {s : Option Slot} (h : ∀ p, w.tab p STDERR ≠ none) (hs : d = STDERR → s ≠ none) : ∀ q, put2 w.tab p d s q STDERR ≠ none := by
  intro q
  by_cases he : q = p ∧ STDERR = d
  · rw [he.1, ← he.2, put2_eq]; exact hs he.2.symm
  · rw [put2_ne _ _ he]; exact h q

theorem inv_calm {w : World} (h : Calm w) : Inv w := ⟨h.2.2, fun p t td l hq => by rw [h.1 p t] at hq; rcases hq with hq | hq <;> cases hq⟩

theorem step_inv {w v : World} {a : Act} (h : step w a = some v) (hi : Inv w) : Inv v := by
  obtain ⟨h1, h2⟩ := hi
  cases a with
  | log p t parts => simp only [step] at h; split at h <;> cases h; exact ⟨h1, pc_put h2 (by simp)⟩
  | write p t ok =>
    simp only [step] at h
    split at h <;> cases h
    exact ⟨by rw [(write_rest w p _ ok).1]; exact h1, pc_put h2 (by simp)⟩
  | logged p t => simp only [step] at h; split at h <;> cases h; exact ⟨h1, pc_put h2 (by simp)⟩
  | create p t path l => simp only [step] at h; split at h <;> cases h; exact ⟨h1, pc_put h2 (by simp)⟩
  | mkpath p t ok =>
    simp only [step] at h
    split at h <;> cases h
    cases ok
    · exact ⟨h1, pc_put h2 (by simp)⟩
    · exact ⟨h1, pc_put h2 (by simp)⟩
  | «open» p t d =>
    simp only [step] at h
    split at h
    · rename_i path l hpc
      cases d with
      | none => cases h; exact ⟨h1, pc_put h2 (by simp)⟩
      | some d =>
        simp only at h
        split at h <;> cases h
        obtain ⟨-, -, -, -, -, f, -, e⟩ := openLog_rest w p path d
        refine ⟨by simp only; rw [e]; exact tab_put h1 (by simp), pc_put h2 ?_⟩
        intro td l hq
        split at hq
        · rcases hq with hq | hq <;> cases hq
        · rcases hq with hq | hq <;> cases hq
          assumption
    · cases h
  | dup p t ok =>
    simp only [step] at h
    split at h
    · rename_i td l hpc
      split at h
      · cases h; exact ⟨h1, pc_put h2 (by simp)⟩
      · cases h
        cases ok
        · exact ⟨h1, pc_put h2 (by simp)⟩
        · refine ⟨tab_put h1 (by simp), pc_put h2 ?_⟩
          intro td' l' hq
          rcases hq with hq | hq <;> cases hq
          exact h2 p t td l (Or.inl hpc)
    · cases h
  | close p t ok =>
    simp only [step] at h
    split at h
    · rename_i td l hpc
      cases h
      have ht := h2 p t td l (Or.inr hpc)
      have h1' : ∀ q, put2 w.tab p td none q STDERR ≠ none := tab_put h1 (fun h => absurd h ht)
      cases ok
      · exact ⟨h1', pc_put (w := { w with tab := put2 w.tab p td none }) h2 (by simp)⟩
      · exact ⟨h1', pc_put (w := { w with tab := put2 w.tab p td none }) h2 (by simp)⟩
    · cases h
  | level p t => simp only [step] at h; split at h <;> cases h; exact ⟨h1, pc_put (w := { w with log_level := _ }) h2 (by simp)⟩
  | rename a b => simp only [step] at h; split at h <;> cases h; exact ⟨h1, h2⟩
  | unlink a => cases h; exact ⟨h1, h2⟩
  | openOther p d g => simp only [step] at h; split at h <;> cases h; exact ⟨tab_put h1 (by simp), h2⟩
  | closeOther p d =>
    simp only [step] at h
    split at h
    · split at h
      · rename_i hd
        cases h
        exact ⟨tab_put h1 (fun h => absurd h hd), h2⟩
      · cases h
    · cases h

/-! ### What a thread writes -/

/-- Thread `t` of `p` is where `d` says. -/
def At (w : World) (p t : Nat) (d : Due) : Prop :=
  d.lines = w.lines p t ∧ (match w.pc p t with | .writing l i rest => l + 1 = d.lines ∧ d.part = i ∧ d.rest = rest | _ => d.rest = [])

/-- `d` after an act. -/
def next (p t : Nat) (d : Due) : Act → Due
  | .log q u parts => if q = p ∧ u = t then ⟨d.lines + 1, 0, parts⟩ else d
  | .write q u _ => if q = p ∧ u = t then (match d.rest with | [] => d | _ :: r => ⟨d.lines, d.part + 1, r⟩) else d
  | _ => d

/-- What is due by an act. -/
def dues (p t : Nat) (d : Due) : Act → List Rec
  | .write q u ok => if q = p ∧ u = t then (match d.rest with | [] => [] | x :: _ => if ok then [⟨p, t, d.lines - 1, d.part, x⟩] else []) else []
  | _ => []

theorem due_cons (p t : Nat) (a : Act) (as : List Act) (d : Due) : due p t (a :: as) d = dues p t d a ++ due p t as (next p t d a) := by
  cases a with
  | log q u parts =>
    by_cases h : q = p ∧ u = t
    · simp [due, dues, next, h]
    · simp [due, dues, next, h]
  | write q u ok =>
    by_cases h : q = p ∧ u = t
    · simp only [due, dues, next, h]
      cases d.rest with
      | nil => simp
      | cons x r => simp
    · simp [due, dues, next, h]
  | _ => simp [due, dues, next]

theorem by_append (p t : Nat) (a b : List Entry) : by' p t (a ++ b) = by' p t a ++ by' p t b := by simp [by']

/-- The thread is in no fprintf. -/
def NotWriting (c : Pc) : Prop := ∀ l i r, c ≠ .writing l i r

theorem at_rest {w : World} {p t : Nat} {d : Due} (h : At w p t d) (hn : NotWriting (w.pc p t)) : d.rest = [] := by
  obtain ⟨-, h⟩ := h
  cases hpc : w.pc p t with
  | writing l i r => exact absurd hpc (hn l i r)
  | _ => rw [hpc] at h; exact h

theorem at_of {w : World} {p t : Nat} {d : Due} (hl : d.lines = w.lines p t) (hr : d.rest = []) (hn : NotWriting (w.pc p t)) : At w p t d := by
  refine ⟨hl, ?_⟩
  cases hpc : w.pc p t with
  | writing l i r => exact absurd hpc (hn l i r)
  | _ => exact hr

/-- A step in which (q, u) goes from one place outside of fprintf to another. -/
theorem at_move {w v : World} {p t q u : Nat} {d : Due} {c : Pc} (hd : At w p t d) (hq : NotWriting (w.pc q u)) (hc : NotWriting c) (hv : v.pc = put2 w.pc q u c)
    (hl : v.lines = w.lines) : At v p t d := by
  by_cases he : p = q ∧ t = u
  · obtain ⟨rfl, rfl⟩ := he
    exact at_of (by rw [hl]; exact hd.1) (at_rest hd hq) (by rw [hv, put2_eq]; exact hc)
  · unfold At
    rw [hv, hl, put2_ne _ _ he]
    exact hd

theorem at_same {w v : World} {p t : Nat} {d : Due} (hd : At w p t d) (hv : v.pc = w.pc) (hl : v.lines = w.lines) : At v p t d := by
  unfold At
  rw [hv, hl]
  exact hd

theorem nw {w : World} {p t : Nat} {c : Pc} (h : w.pc p t = c) (hc : NotWriting c) : NotWriting (w.pc p t) := by rw [h]; exact hc

theorem step_due {w v : World} {a : Act} (h : step w a = some v) (hi : Inv w) (p t : Nat) (d : Due) (hd : At w p t d) :
    by' p t (wrote w a) = dues p t d a ∧ At v p t (next p t d a) := by
  cases a with
  | log q u parts =>
    simp only [step] at h
    split at h
    · rename_i hq
      cases h
      refine ⟨rfl, ?_⟩
      by_cases he : q = p ∧ u = t
      · obtain ⟨rfl, rfl⟩ := he
        simp [next, At, put2_eq, hd.1]
      · have he' : ¬ (p = q ∧ t = u) := fun h => he ⟨h.1.symm, h.2.symm⟩
        simp only [next, if_neg he]
        unfold At
        simp only [put2_ne _ _ he']
        exact hd
    · cases h
  | write q u ok =>
    simp only [step] at h
    cases hpc : w.pc q u with
    | writing l i rest =>
      rw [hpc] at h
      cases rest with
      | nil => cases h
      | cons x r =>
        cases h
        cases hs : w.tab q STDERR with
        | none => exact absurd hs (hi.1 q)
        | some s =>
          by_cases he : q = p ∧ u = t
          · obtain ⟨rfl, rfl⟩ := he
            obtain ⟨hl, hd⟩ := hd
            rw [hpc] at hd
            obtain ⟨h1, h2, h3⟩ := hd
            refine ⟨?_, ?_⟩
            · simp only [wrote, hpc, hs, dues, h3]
              cases ok <;> simp [by', h2, ← h1]
            · simp only [next, h3, and_self, if_true]
              refine ⟨by rw [(write_rest _ _ _ _).2.2.1]; exact hl, ?_⟩
              simp only [put2_eq]
              exact ⟨h1, by rw [h2], trivial⟩
          · have he' : ¬ (p = q ∧ t = u) := fun h => he ⟨h.1.symm, h.2.symm⟩
            refine ⟨?_, ?_⟩
            · simp only [wrote, hpc, hs, dues, if_neg he]
              cases ok <;> simp [by', he]
            · simp only [next, if_neg he]
              unfold At
              simp only [put2_ne _ _ he', (write_rest _ _ _ _).2.2.1]
              exact hd
    | _ => rw [hpc] at h; cases h
  | logged q u =>
    simp only [step] at h
    split at h
    · rename_i hpc
      cases h
      refine ⟨rfl, ?_⟩
      simp only [next]
      by_cases he : p = q ∧ t = u
      · obtain ⟨rfl, rfl⟩ := he
        obtain ⟨hl, hd⟩ := hd
        rw [hpc] at hd
        exact at_of hl hd.2.2 (by simp only [put2_eq]; exact fun _ _ _ => by simp)
      · unfold At
        simp only [put2_ne _ _ he]
        exact hd
    · cases h
  | create q u path l =>
    simp only [step] at h
    split at h
    · rename_i hpc
      cases h
      exact ⟨rfl, at_move hd (nw hpc (by simp [NotWriting])) (by simp [NotWriting]) rfl rfl⟩
    · cases h
  | mkpath q u ok =>
    simp only [step] at h
    split at h
    · rename_i hpc
      cases h
      cases ok <;> exact ⟨rfl, at_move hd (nw hpc (by simp [NotWriting])) (by simp [NotWriting]) rfl rfl⟩
    · cases h
  | «open» q u f =>
    simp only [step] at h
    split at h
    · rename_i path l hpc
      cases f with
      | none => cases h; exact ⟨rfl, at_move hd (nw hpc (by simp [NotWriting])) (by simp [NotWriting]) rfl rfl⟩
      | some f =>
        simp only at h
        split at h
        · cases h
          refine ⟨rfl, at_move hd (nw hpc (by simp [NotWriting])) ?_ rfl (openLog_rest w q path f).2.1⟩
          split <;> simp [NotWriting]
        · cases h
    · cases h
  | dup q u ok =>
    simp only [step] at h
    split at h
    · rename_i hpc
      split at h
      · cases h; exact ⟨rfl, at_move hd (nw hpc (by simp [NotWriting])) (by simp [NotWriting]) rfl rfl⟩
      · cases h
        cases ok <;> exact ⟨rfl, at_move hd (nw hpc (by simp [NotWriting])) (by simp [NotWriting]) rfl rfl⟩
    · cases h
  | close q u ok =>
    simp only [step] at h
    split at h
    · rename_i hpc
      cases h
      cases ok <;> exact ⟨rfl, at_move hd (nw hpc (by simp [NotWriting])) (by simp [NotWriting]) rfl rfl⟩
    · cases h
  | level q u =>
    simp only [step] at h
    split at h
    · rename_i hpc
      cases h
      exact ⟨rfl, at_move hd (nw hpc (by simp [NotWriting])) (by simp [NotWriting]) rfl rfl⟩
    · cases h
  | rename a b => simp only [step] at h; split at h <;> cases h; exact ⟨rfl, hd⟩
  | unlink a => cases h; exact ⟨rfl, hd⟩
  | openOther p d g => simp only [step] at h; split at h <;> cases h; exact ⟨rfl, hd⟩
  | closeOther p d =>
    simp only [step] at h
    split at h
    · split at h <;> cases h; exact ⟨rfl, hd⟩
    · cases h

theorem run_due : ∀ (as : List Act) {w v : World}, run w as = some v → Inv w → ∀ p t d, At w p t d → by' p t (trace w as) = due p t as d := by
  intro as
  induction as with
  | nil => intro w v _ _ p t d _; rfl
  | cons a as ih =>
    intro w v h hi p t d hd
    obtain ⟨x, hx, hr⟩ := run_cons h
    obtain ⟨e, hd'⟩ := step_due hx hi p t d hd
    rw [trace_cons as hx, by_append, due_cons, e, ih hr (step_inv hx hi) p t _ hd']

end Verif.LogFile
