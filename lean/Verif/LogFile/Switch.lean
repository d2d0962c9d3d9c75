import Verif.LogFile.Lemmas

namespace Verif.LogFile

/-! ### One call of log_create -/

/-- Inside log_create. -/
def InCreate : Pc → Prop
  | .idle => False
  | .writing _ _ _ => False
  | _ => True

/-- No thread of `p` but `t` is inside log_create. -/
def Others (w : World) (p t : Nat) : Prop := ∀ u, u ≠ t → ¬ InCreate (w.pc p u)

/-- An act that is not a call of log_create in process `p`. -/
def NoCreate (p : Nat) (a : Act) : Prop := ∀ u path l, a ≠ .create p u path l

/-- An act inside log_create of thread `t` of process `p`. -/
def Own (p t : Nat) : Act → Prop
  | .mkpath q u _ => q = p ∧ u = t
  | .open q u _ => q = p ∧ u = t
  | .dup q u _ => q = p ∧ u = t
  | .close q u _ => q = p ∧ u = t
  | .level q u => q = p ∧ u = t
  | _ => False

/-- What the acts of others leave alone. -/
structure Frame (w v : World) (p t : Nat) : Prop where
  tab : ∀ d, (d = STDERR ∨ ∃ f, w.tab p d = some ⟨f, true⟩) → v.tab p d = w.tab p d
  rets : v.rets p t = w.rets p t
  level : v.log_level p = w.log_level p
  others : Others v p t
  pc : v.pc p t = w.pc p t ∨ (¬ InCreate (w.pc p t) ∧ ¬ InCreate (v.pc p t))

theorem frame_pc {w v : World} {p t q u : Nat} {c : Pc} (hc : ¬ InCreate c) (hw : ¬ InCreate (w.pc q u)) (ho : Others w p t) (hv : v.pc = put2 w.pc q u c) :
    Others v p t ∧ (v.pc p t = w.pc p t ∨ (¬ InCreate (w.pc p t) ∧ ¬ InCreate (v.pc p t))) := by
  refine ⟨fun x hx => ?_, ?_⟩
  · rw [hv]
    by_cases he : p = q ∧ x = u
    · rw [he.1, he.2, put2_eq]; exact hc
    · rw [put2_ne _ _ he]; exact ho x hx
  · rw [hv]
    by_cases he : p = q ∧ t = u
    · rw [he.1, he.2, put2_eq]; exact Or.inr ⟨hw, hc⟩
    · rw [put2_ne _ _ he]; exact Or.inl rfl

/-- An act in another process. -/
theorem frame_far {w v : World} {p t q u : Nat} {c : Pc} (hq : q ≠ p) (ho : Others w p t) (hv : v.pc = put2 w.pc q u c) :
    Others v p t ∧ (v.pc p t = w.pc p t ∨ (¬ InCreate (w.pc p t) ∧ ¬ InCreate (v.pc p t))) := by
  have h : ∀ x, v.pc p x = w.pc p x := fun x => by rw [hv, put2_ne _ _ (fun h => hq h.1.symm)]
  exact ⟨fun x hx => by rw [h]; exact ho x hx, Or.inl (h t)⟩

theorem far {w : World} {p t q u : Nat} (ho : Others w p t) (hw : InCreate (w.pc q u)) (hn : ¬ (q = p ∧ u = t)) : q ≠ p := by
  rintro rfl
  exact ho u (fun h => hn ⟨rfl, h⟩) hw

theorem tab_far {α : Type} {f : Nat → Nat → α} {p q d : Nat} {s : α} (hq : q ≠ p) (x : Nat) : put2 f q d s p x = f p x := put2_ne _ _ (fun h => hq h.1.symm)

theorem step_frame {w v : World} {a : Act} {p t : Nat} (h : step w a = some v) (ho : Others w p t) (hc : NoCreate p a) (hn : ¬ Own p t a) : Frame w v p t := by
  cases a with
  | log q u parts =>
    simp only [step] at h
    split at h
    · rename_i hq
      cases h
      obtain ⟨h1, h2⟩ := frame_pc (c := .writing (w.lines q u) 0 parts) (v := { w with pc := put2 w.pc q u (.writing (w.lines q u) 0 parts), lock := put w.lock q (some u), lines := put2 w.lines q u (w.lines q u + 1) }) (by simp [InCreate]) (by rw [hq.1]; simp [InCreate]) ho rfl
      exact ⟨fun _ _ => rfl, rfl, rfl, h1, h2⟩
    · cases h
  | write q u ok =>
    simp only [step] at h
    split at h
    · rename_i l i d r hpc
      cases h
      obtain ⟨h1, h2⟩ := frame_pc (c := .writing l (i + 1) r) (v := { write w q ⟨q, u, l, i, d⟩ ok with pc := put2 w.pc q u (.writing l (i + 1) r) }) (by simp [InCreate])
        (by rw [hpc]; simp [InCreate]) ho rfl
      obtain ⟨e1, -, -, e2, e3, -⟩ := write_rest w q ⟨q, u, l, i, d⟩ ok
      exact ⟨fun _ _ => by simp only [e1], by simp only [e2], by simp only [e3], h1, h2⟩
    · cases h
  | logged q u =>
    simp only [step] at h
    split at h
    · rename_i hpc
      cases h
      obtain ⟨h1, h2⟩ := frame_pc (c := .idle) (v := { w with pc := put2 w.pc q u .idle, lock := put w.lock q none }) (by simp [InCreate]) (by rw [hpc]; simp [InCreate]) ho rfl
      exact ⟨fun _ _ => rfl, rfl, rfl, h1, h2⟩
    · cases h
  | create q u path l =>
    have hq : q ≠ p := by rintro rfl; exact hc u path l rfl
    simp only [step] at h
    split at h
    · cases h
      obtain ⟨h1, h2⟩ := frame_far (v := { w with pc := put2 w.pc q u (.mkpath path l) }) hq ho rfl
      exact ⟨fun _ _ => rfl, rfl, rfl, h1, h2⟩
    · cases h
  | mkpath q u ok =>
    simp only [step] at h
    split at h
    · rename_i hpc
      have hq := far ho (by rw [hpc]; trivial) hn
      cases h
      cases ok
      · obtain ⟨h1, h2⟩ := frame_far (v := ret w q u (-1)) hq ho rfl
        exact ⟨fun _ _ => rfl, tab_far hq _, rfl, h1, h2⟩
      · obtain ⟨h1, h2⟩ := frame_far (v := { w with pc := put2 w.pc q u (.opening _ _) }) hq ho rfl
        exact ⟨fun _ _ => rfl, rfl, rfl, h1, h2⟩
    · cases h
  | «open» q u d =>
    simp only [step] at h
    split at h
    · rename_i path l hpc
      have hq := far ho (by rw [hpc]; trivial) hn
      cases d with
      | none =>
        cases h
        obtain ⟨h1, h2⟩ := frame_far (v := ret w q u (-1)) hq ho rfl
        exact ⟨fun _ _ => rfl, tab_far hq _, rfl, h1, h2⟩
      | some d =>
        simp only at h
        split at h
        · cases h
          obtain ⟨-, -, e1, e2, -, f, -, e3⟩ := openLog_rest w q path d
          obtain ⟨h1, h2⟩ := frame_far (v := { openLog w q path d with pc := put2 w.pc q u (if d = STDERR then .level l else .moving d l) }) hq ho rfl
          exact ⟨fun _ _ => by simp only [e3]; exact tab_far hq _, by simp only [e1], by simp only [e2], h1, h2⟩
        · cases h
    · cases h
  | dup q u ok =>
    simp only [step] at h
    split at h
    · rename_i hpc
      have hq := far ho (by rw [hpc]; trivial) hn
      split at h
      · cases h
        obtain ⟨h1, h2⟩ := frame_far (v := ret w q u (-1)) hq ho rfl
        exact ⟨fun _ _ => rfl, tab_far hq _, rfl, h1, h2⟩
      · cases h
        cases ok
        · obtain ⟨h1, h2⟩ := frame_far (v := ret w q u (-1)) hq ho rfl
          exact ⟨fun _ _ => rfl, tab_far hq _, rfl, h1, h2⟩
        · obtain ⟨h1, h2⟩ := frame_far (v := { w with tab := put2 w.tab q STDERR (some _), pc := put2 w.pc q u (.closing _ _) }) hq ho rfl
          exact ⟨fun _ _ => tab_far hq _, rfl, rfl, h1, h2⟩
    · cases h
  | close q u ok =>
    simp only [step] at h
    split at h
    · rename_i td l hpc
      have hq := far ho (by rw [hpc]; trivial) hn
      cases h
      cases ok
      · obtain ⟨h1, h2⟩ := frame_far (v := ret { w with tab := put2 w.tab q td none } q u (-1)) hq ho rfl
        exact ⟨fun _ _ => tab_far hq _, tab_far hq _, rfl, h1, h2⟩
      · obtain ⟨h1, h2⟩ := frame_far (v := { w with tab := put2 w.tab q td none, pc := put2 w.pc q u (.level l) }) hq ho rfl
        exact ⟨fun _ _ => tab_far hq _, rfl, rfl, h1, h2⟩
    · cases h
  | level q u =>
    simp only [step] at h
    split at h
    · rename_i l hpc
      have hq := far ho (by rw [hpc]; trivial) hn
      cases h
      obtain ⟨h1, h2⟩ := frame_far (v := ret { w with log_level := put w.log_level q l } q u STDERR) hq ho rfl
      exact ⟨fun _ _ => rfl, tab_far hq _, put_ne _ _ (fun h => hq h.symm), h1, h2⟩
    · cases h
  | rename a b => simp only [step] at h; split at h <;> cases h; exact ⟨fun _ _ => rfl, rfl, rfl, ho, Or.inl rfl⟩
  | unlink a => cases h; exact ⟨fun _ _ => rfl, rfl, rfl, ho, Or.inl rfl⟩
  | openOther q d g =>
    simp only [step] at h
    split at h
    · rename_i hd
      cases h
      refine ⟨fun x hx => ?_, rfl, rfl, ho, Or.inl rfl⟩
      apply put2_ne
      rintro ⟨rfl, rfl⟩
      rcases hx with hx | ⟨f, hx⟩
      · exact hd.2 hx
      · rw [hd.1] at hx; cases hx
    · cases h
  | closeOther q d =>
    simp only [step] at h
    split at h
    · rename_i f htab
      split at h
      · rename_i hd
        cases h
        refine ⟨fun x hx => ?_, rfl, rfl, ho, Or.inl rfl⟩
        apply put2_ne
        rintro ⟨rfl, rfl⟩
        rcases hx with hx | ⟨f, hx⟩
        · exact hd hx
        · rw [htab] at hx; cases hx
      · cases h
    · cases h

/-! ### Nobody inside log_create -/

theorem wrote_file {w : World} {a : Act} {p : Nat} {e : Entry} (he : e ∈ wrote w a) (hp : e.item.proc = p) : (w.tab p STDERR).map (·.file) = some e.file := by
  cases a with
  | write q u ok =>
    simp only [wrote] at he
    split at he
    · rename_i hs
      cases ok with
      | false => simp at he
      | true =>
        simp only [if_true, List.mem_singleton] at he
        subst he
        simp only at hp
        subst hp
        rw [hs]
        rfl
    · simp at he
  | _ => simp [wrote] at he

theorem own_step {w v : World} {a : Act} {p t : Nat} (h : step w a = some v) (ho : Own p t a) : InCreate (w.pc p t) := by
  cases a <;> simp only [Own] at ho
  all_goals
    obtain ⟨rfl, rfl⟩ := ho
    simp only [step] at h
    split at h
    · rename_i hpc; rw [hpc]; trivial
    · cases h

/-- While nobody in `p` calls log_create, its log stays where it is. -/
theorem quiet : ∀ (as : List Act) {w v : World} {p : Nat}, run w as = some v → (∀ u, ¬ InCreate (w.pc p u)) → (∀ a ∈ as, NoCreate p a) →
    v.tab p STDERR = w.tab p STDERR ∧ v.log_level p = w.log_level p ∧ (∀ u, ¬ InCreate (v.pc p u)) ∧ (∀ u, v.rets p u = w.rets p u) ∧
    ∀ e ∈ trace w as, e.item.proc = p → (w.tab p STDERR).map (·.file) = some e.file := by
  intro as
  induction as with
  | nil => intro w v p h hi _; cases h; exact ⟨rfl, rfl, hi, fun _ => rfl, by simp [trace]⟩
  | cons a as ih =>
    intro w v p h hi hc
    obtain ⟨x, hx, hr⟩ := run_cons h
    have hF : ∀ u, Frame w x p u := fun u => step_frame hx (fun y _ => hi y) (hc a (by simp)) (fun ho => hi u (own_step hx ho))
    have hi' : ∀ u, ¬ InCreate (x.pc p u) := by
      intro u
      rcases (hF u).pc with h | h
      · rw [h]; exact hi u
      · exact h.2
    obtain ⟨h1, h2, h3, h4, h5⟩ := ih hr hi' (fun a ha => hc a (by simp [ha]))
    have ht := (hF 0).tab STDERR (Or.inl rfl)
    refine ⟨h1.trans ht, h2.trans (hF 0).level, h3, fun u => (h4 u).trans (hF u).rets, ?_⟩
    intro e he hp
    rw [trace_cons as hx, List.mem_append] at he
    rcases he with he | he
    · exact wrote_file he hp
    · rw [← ht]; exact h5 e he hp

/-! ### The call -/

/-- The acts so far contain the open of the call, which gave file `f`, the one that `path` named then. -/
def Opened (w0 : World) (p t path : Nat) (pre : List Act) (f : Nat) : Prop :=
  ∃ b1 d b2 wm, pre = b1 ++ .open p t (some d) :: b2 ∧ run w0 (b1 ++ [.open p t (some d)]) = some wm ∧ wm.dir path = some f

theorem Opened.more {w0 : World} {p t path : Nat} {pre : List Act} {f : Nat} (h : Opened w0 p t path pre f) (a : Act) : Opened w0 p t path (pre ++ [a]) f := by
  obtain ⟨b1, d, b2, wm, rfl, h1, h2⟩ := h
  exact ⟨b1, d, b2 ++ [a], wm, by simp, h1, h2⟩

/-- What was written so far went to the old log. -/
def Old (w0 : World) (p : Nat) (pre : List Act) : Prop := ∀ e ∈ trace w0 pre, e.item.proc = p → (w0.tab p STDERR).map (·.file) = some e.file

/-- The call so far. -/
structure Call (w0 : World) (p t path : Nat) (level : Int) (pre : List Act) (w : World) : Prop where
  others : Others w p t
  at' : match w.pc p t with
    | .mkpath pa l => pa = path ∧ l = level ∧ w.rets p t = w0.rets p t ∧ w.tab p STDERR = w0.tab p STDERR ∧ w.log_level p = w0.log_level p ∧ Old w0 p pre
    | .opening pa l => pa = path ∧ l = level ∧ w.rets p t = w0.rets p t ∧ w.tab p STDERR = w0.tab p STDERR ∧ w.log_level p = w0.log_level p ∧ Old w0 p pre
    | .moving td l => l = level ∧ w.rets p t = w0.rets p t ∧ w.tab p STDERR = w0.tab p STDERR ∧ w.log_level p = w0.log_level p ∧ Old w0 p pre ∧ td ≠ STDERR ∧
        ∃ f, Opened w0 p t path pre f ∧ w.tab p td = some ⟨f, true⟩
    | .closing td l => l = level ∧ w.rets p t = w0.rets p t ∧ w.log_level p = w0.log_level p ∧ td ≠ STDERR ∧ ∃ f, Opened w0 p t path pre f ∧ w.tab p STDERR = some ⟨f, true⟩
    | .level l => l = level ∧ w.rets p t = w0.rets p t ∧ ∃ f, Opened w0 p t path pre f ∧ w.tab p STDERR = some ⟨f, true⟩
    | _ => (w.rets p t = w0.rets p t ++ [-1] ∧ w.log_level p = w0.log_level p ∧ ((w.tab p STDERR = w0.tab p STDERR ∧ Old w0 p pre) ∨ .close p t false ∈ pre)) ∨
        (w.rets p t = w0.rets p t ++ [2] ∧ w.log_level p = level ∧ ∃ f, Opened w0 p t path pre f ∧ w.tab p STDERR = some ⟨f, true⟩)

theorem trace_append : ∀ (a b : List Act) {w v : World}, run w a = some v → trace w (a ++ b) = trace w a ++ trace v b := by
  intro a
  induction a with
  | nil => intro b w v h; cases h; rfl
  | cons x a ih =>
    intro b w v h
    obtain ⟨y, hy, hr⟩ := run_cons h
    rw [List.cons_append, trace_cons _ hy, trace_cons _ hy, ih b hr, List.append_assoc]

theorem Old.more {w0 w : World} {p : Nat} {pre : List Act} {a : Act} (h : Old w0 p pre) (hr : run w0 pre = some w) (ht : w.tab p STDERR = w0.tab p STDERR) :
    Old w0 p (pre ++ [a]) := by
  intro e he hp
  rw [trace_append pre [a] hr, List.mem_append] at he
  rcases he with he | he
  · exact h e he hp
  · simp only [trace] at he
    have : e ∈ wrote w a := by
      rw [List.mem_append] at he
      rcases he with he | he
      · exact he
      · split at he <;> simp at he
    rw [← ht]
    exact wrote_file this hp

theorem call_step {w0 w v : World} {p t path : Nat} {level : Int} {pre : List Act} {a : Act} (hr : run w0 pre = some w) (hC : Call w0 p t path level pre w) (hc : NoCreate p a)
    (h : step w a = some v) : Call w0 p t path level (pre ++ [a]) v := by
  obtain ⟨ho, hat⟩ := hC
  by_cases hown : Own p t a
  · -- the thread itself
    have hoth : ∀ (x : World) (c : Pc), x.pc = put2 w.pc p t c → Others x p t := by
      intro x c hx u hu
      rw [hx, put2_ne _ _ (fun h => hu h.2)]
      exact ho u hu
    cases a <;> simp only [Own] at hown
    case mkpath q u ok =>
      obtain ⟨rfl, rfl⟩ := hown
      simp only [step] at h
      split at h
      · rename_i pa l hpc
        rw [hpc] at hat
        obtain ⟨rfl, rfl, h1, h2, h3, h4⟩ := hat
        cases h
        cases ok with
        | true =>
          refine ⟨hoth _ _ rfl, ?_⟩
          simp only [if_true, put2_eq]
          exact ⟨trivial, trivial, h1, h2, h3, h4.more hr h2⟩
        | false =>
          refine ⟨hoth _ .idle rfl, ?_⟩
          simp only [Bool.false_eq_true, if_false, ret, put2_eq, h1]
          exact Or.inl ⟨trivial, h3, Or.inl ⟨h2, h4.more hr h2⟩⟩
      · cases h
    case «open» q u d =>
      obtain ⟨rfl, rfl⟩ := hown
      have h0 := h
      simp only [step] at h
      split at h
      · rename_i pa l hpc
        rw [hpc] at hat
        obtain ⟨rfl, rfl, h1, h2, h3, h4⟩ := hat
        cases d with
        | none =>
          cases h
          refine ⟨hoth _ .idle rfl, ?_⟩
          simp only [ret, put2_eq, h1]
          exact Or.inl ⟨trivial, h3, Or.inl ⟨h2, h4.more hr h2⟩⟩
        | some d =>
          simp only at h
          split at h
          · cases h
            obtain ⟨-, -, e1, e2, -, f, e3, e4⟩ := openLog_rest w q pa d
            have hop : Opened w0 q u pa (pre ++ [.open q u (some d)]) f := by
              have hrun : ∀ x, step w (.open q u (some d)) = some x → run w0 (pre ++ [.open q u (some d)]) = some x := by
                intro x hx
                rw [run_append, hr]
                simp only [Option.bind_some, run, hx]
              exact ⟨pre, d, [], _, rfl, hrun _ h0, e3⟩
            refine ⟨hoth _ _ rfl, ?_⟩
            by_cases hd : d = STDERR
            · subst hd
              simp only [if_true, put2_eq, e1, e4]
              exact ⟨trivial, h1, f, hop, rfl⟩
            · have e5 : put2 w.tab q d (some ⟨f, true⟩) q STDERR = w0.tab q STDERR := by rw [put2_ne _ _ (fun h => hd h.2.symm)]; exact h2
              simp only [if_neg hd, put2_eq, e1, e2, e4, e5]
              exact ⟨trivial, h1, trivial, h3, h4.more hr h2, hd, f, hop, rfl⟩
          · cases h
      · cases h
    case dup q u ok =>
      obtain ⟨rfl, rfl⟩ := hown
      simp only [step] at h
      split at h
      · rename_i td l hpc
        rw [hpc] at hat
        obtain ⟨rfl, h1, h2, h3, h4, h5, f, h6, h7⟩ := hat
        rw [h7] at h
        cases h
        cases ok with
        | true =>
          refine ⟨hoth _ _ rfl, ?_⟩
          simp only [if_true, put2_eq]
          exact ⟨trivial, h1, h3, h5, f, h6.more _, rfl⟩
        | false =>
          refine ⟨hoth _ .idle rfl, ?_⟩
          simp only [Bool.false_eq_true, if_false, ret, put2_eq, h1]
          exact Or.inl ⟨trivial, h3, Or.inl ⟨h2, h4.more hr h2⟩⟩
      · cases h
    case close q u ok =>
      obtain ⟨rfl, rfl⟩ := hown
      simp only [step] at h
      split at h
      · rename_i td l hpc
        rw [hpc] at hat
        obtain ⟨rfl, h1, h3, h5, f, h6, h7⟩ := hat
        cases h
        have e : put2 w.tab q td none q STDERR = some ⟨f, true⟩ := by rw [put2_ne _ _ (fun h => h5 h.2.symm)]; exact h7
        cases ok with
        | true =>
          refine ⟨hoth _ _ rfl, ?_⟩
          simp only [if_true, put2_eq, e]
          exact ⟨trivial, h1, f, h6.more _, rfl⟩
        | false =>
          refine ⟨hoth _ .idle rfl, ?_⟩
          simp only [Bool.false_eq_true, if_false, ret, put2_eq, h1]
          exact Or.inl ⟨trivial, h3, Or.inr (by simp)⟩
      · cases h
    case level q u =>
      obtain ⟨rfl, rfl⟩ := hown
      simp only [step] at h
      split at h
      · rename_i l hpc
        rw [hpc] at hat
        obtain ⟨rfl, h1, f, h6, h7⟩ := hat
        cases h
        refine ⟨hoth _ .idle rfl, ?_⟩
        simp only [ret, put2_eq, h1, put_eq]
        exact Or.inr ⟨rfl, trivial, f, h6.more _, h7⟩
      · cases h
  · have F := step_frame h ho hc hown
    have ht := F.tab STDERR (Or.inl rfl)
    refine ⟨F.others, ?_⟩
    have hback : ¬ InCreate (w.pc p t) → ¬ InCreate (v.pc p t) →
        match v.pc p t with
        | .mkpath pa l => pa = path ∧ l = level ∧ v.rets p t = w0.rets p t ∧ v.tab p STDERR = w0.tab p STDERR ∧ v.log_level p = w0.log_level p ∧ Old w0 p (pre ++ [a])
        | .opening pa l => pa = path ∧ l = level ∧ v.rets p t = w0.rets p t ∧ v.tab p STDERR = w0.tab p STDERR ∧ v.log_level p = w0.log_level p ∧ Old w0 p (pre ++ [a])
        | .moving td l => l = level ∧ v.rets p t = w0.rets p t ∧ v.tab p STDERR = w0.tab p STDERR ∧ v.log_level p = w0.log_level p ∧ Old w0 p (pre ++ [a]) ∧ td ≠ STDERR ∧
            ∃ f, Opened w0 p t path (pre ++ [a]) f ∧ v.tab p td = some ⟨f, true⟩
        | .closing td l => l = level ∧ v.rets p t = w0.rets p t ∧ v.log_level p = w0.log_level p ∧ td ≠ STDERR ∧
            ∃ f, Opened w0 p t path (pre ++ [a]) f ∧ v.tab p STDERR = some ⟨f, true⟩
        | .level l => l = level ∧ v.rets p t = w0.rets p t ∧ ∃ f, Opened w0 p t path (pre ++ [a]) f ∧ v.tab p STDERR = some ⟨f, true⟩
        | _ => (v.rets p t = w0.rets p t ++ [-1] ∧ v.log_level p = w0.log_level p ∧
            ((v.tab p STDERR = w0.tab p STDERR ∧ Old w0 p (pre ++ [a])) ∨ .close p t false ∈ pre ++ [a])) ∨
            (v.rets p t = w0.rets p t ++ [2] ∧ v.log_level p = level ∧ ∃ f, Opened w0 p t path (pre ++ [a]) f ∧ v.tab p STDERR = some ⟨f, true⟩) := by
      intro hw hv
      have hw' : (w.rets p t = w0.rets p t ++ [-1] ∧ w.log_level p = w0.log_level p ∧ ((w.tab p STDERR = w0.tab p STDERR ∧ Old w0 p pre) ∨ .close p t false ∈ pre)) ∨
          (w.rets p t = w0.rets p t ++ [2] ∧ w.log_level p = level ∧ ∃ f, Opened w0 p t path pre f ∧ w.tab p STDERR = some ⟨f, true⟩) := by
        cases hpc : w.pc p t <;> rw [hpc] at hw hat
        case idle => exact hat
        case writing => exact hat
        all_goals exact absurd trivial hw
      have hres : (v.rets p t = w0.rets p t ++ [-1] ∧ v.log_level p = w0.log_level p ∧
            ((v.tab p STDERR = w0.tab p STDERR ∧ Old w0 p (pre ++ [a])) ∨ .close p t false ∈ pre ++ [a])) ∨
            (v.rets p t = w0.rets p t ++ [2] ∧ v.log_level p = level ∧ ∃ f, Opened w0 p t path (pre ++ [a]) f ∧ v.tab p STDERR = some ⟨f, true⟩) := by
        rcases hw' with ⟨h1, h2, h3⟩ | ⟨h1, h2, f, h3, h4⟩
        · refine Or.inl ⟨F.rets.trans h1, F.level.trans h2, ?_⟩
          rcases h3 with ⟨h3, h4⟩ | h3
          · exact Or.inl ⟨ht.trans h3, h4.more hr h3⟩
          · exact Or.inr (by simp [h3])
        · exact Or.inr ⟨F.rets.trans h1, F.level.trans h2, f, h3.more a, ht.trans h4⟩
      cases hpc : v.pc p t <;> rw [hpc] at hv
      case idle => exact hres
      case writing => exact hres
      all_goals exact absurd trivial hv
    rcases F.pc with hpc | ⟨h1, h2⟩
    · by_cases hin : InCreate (w.pc p t)
      · rw [hpc]
        cases hw : w.pc p t <;> rw [hw] at hat hin
        case idle => exact hin.elim
        case writing => exact hin.elim
        case mkpath pa l =>
          obtain ⟨h1, h2, h3, h4, h5, h6⟩ := hat
          exact ⟨h1, h2, F.rets.trans h3, ht.trans h4, F.level.trans h5, h6.more hr h4⟩
        case opening pa l =>
          obtain ⟨h1, h2, h3, h4, h5, h6⟩ := hat
          exact ⟨h1, h2, F.rets.trans h3, ht.trans h4, F.level.trans h5, h6.more hr h4⟩
        case moving td l =>
          obtain ⟨h2, h3, h4, h5, h6, h7, f, h8, h9⟩ := hat
          exact ⟨h2, F.rets.trans h3, ht.trans h4, F.level.trans h5, h6.more hr h4, h7, f, h8.more a, (F.tab td (Or.inr ⟨f, h9⟩)).trans h9⟩
        case closing td l =>
          obtain ⟨h2, h3, h5, h7, f, h8, h9⟩ := hat
          exact ⟨h2, F.rets.trans h3, F.level.trans h5, h7, f, h8.more a, ht.trans h9⟩
        case level l =>
          obtain ⟨h2, h3, f, h8, h9⟩ := hat
          exact ⟨h2, F.rets.trans h3, f, h8.more a, ht.trans h9⟩
      · exact hback hin (by rw [hpc]; exact hin)
    · exact hback h1 h2

theorem call_run {w0 : World} {p t path : Nat} {level : Int} : ∀ (as pre : List Act) {w v : World}, run w0 pre = some w → Call w0 p t path level pre w →
    (∀ a ∈ as, NoCreate p a) → run w as = some v → Call w0 p t path level (pre ++ as) v := by
  intro as
  induction as with
  | nil => intro pre w v _ hC _ h; cases h; rw [List.append_nil]; exact hC
  | cons a as ih =>
    intro pre w v hr hC hc h
    obtain ⟨x, hx, hr'⟩ := run_cons h
    have hrx : run w0 (pre ++ [a]) = some x := by
      rw [run_append, hr]
      simp only [Option.bind_some, run, hx]
    have := ih (pre ++ [a]) hrx (call_step hr hC (hc a (by simp)) hx) (fun b hb => hc b (by simp [hb])) hr'
    rw [List.append_assoc] at this
    exact this

theorem call_begin {w0 w : World} {p t path : Nat} {level : Int} (hi : ∀ u, u ≠ t → ¬ InCreate (w0.pc p u)) (h : step w0 (.create p t path level) = some w) :
    Call w0 p t path level [.create p t path level] w := by
  simp only [step] at h
  split at h
  · cases h
    refine ⟨fun u hu => ?_, ?_⟩
    · simp only; rw [put2_ne _ _ (fun h => hu h.2)]; exact hi u hu
    · simp only [put2_eq]
      refine ⟨trivial, trivial, trivial, trivial, trivial, ?_⟩
      intro e he
      simp only [trace, wrote, List.nil_append] at he
      split at he <;> simp at he
  · cases h

end Verif.LogFile
