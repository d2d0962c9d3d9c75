import Verif.LogTrunc.Spec
/-
  Property C192: logs that are copied and truncated while they are written.
-/
set_option linter.unusedSimpArgs false
set_option linter.unusedVariables false

namespace Verif.LogTrunc

theorem writeAt_end (b d : List UInt8) : writeAt b b.length d = b ++ d := by
  simp [writeAt]

theorem writeAt_gap (d : List UInt8) (n : Nat) : writeAt [] n d = List.replicate n 0 ++ d := by
  simp [writeAt]

theorem put_same {α : Type} (f : Nat → α) (a : Nat) (v : α) : put f a v a = v := by simp [put]

theorem put_ne {α : Type} (f : Nat → α) {a x : Nat} (v : α) (h : x ≠ a) : put f a v x = f x := by simp [put, h]

theorem run_append : ∀ (a b : List Act) (w : World), run w (a ++ b) = run (run w a) b := by
  intro a
  induction a with
  | nil => intro b w; rfl
  | cons x a ih => intro b w; exact ih b _

theorem linesTo_append (f : Nat) : ∀ (a b : List Act) (cur : Nat → Nat), linesTo f cur (a ++ b) = linesTo f cur a ++ linesTo f (logsTo cur a) b := by
  intro a
  induction a with
  | nil => intro b cur; rfl
  | cons x a ih =>
    intro b cur
    cases x <;> simp only [List.cons_append, linesTo, logsTo, ih, List.append_assoc]

theorem logs_create (w : World) (h : ∀ p, w.err p < w.fresh) (p f : Nat) : (create w p f).logs = put w.logs p f := by
  funext x
  unfold create World.logs
  simp only
  by_cases e : x = p
  · subst e; simp [put]
  · have := h x
    rw [put_ne _ _ e, put_ne _ _ e, put_ne _ _ (by omega)]

theorem logs_log (w : World) (p : Nat) (line : List UInt8) : (log w p line).logs = w.logs := by
  funext x
  unfold log World.logs
  simp only
  by_cases e : w.err x = w.err p
  · rw [e]; simp [put]
  · rw [put_ne _ _ e]

theorem logs_fork (w : World) (p q : Nat) : (step w (.fork p q)).logs = put w.logs q (w.logs p) := by
  funext x
  unfold step World.logs
  simp only
  by_cases e : x = q
  · subst e; simp [put]
  · rw [put_ne _ _ e, put_ne _ _ e]

theorem created_step {w : World} {f : Nat} (h : Created w f) (a : Act) : Created (step w a) f := by
  obtain ⟨h1, h2⟩ := h
  cases a with
  | create p g =>
    refine ⟨fun x => ?_, fun x hx => ?_⟩
    · show put w.err p w.fresh x < w.fresh + 1
      by_cases e : x = p
      · subst e; simp [put]
      · rw [put_ne _ _ e]; have := h1 x; omega
    · have hx' : put w.logs p g x = f := by rw [← logs_create w h1]; exact hx
      show (put w.desc w.fresh ⟨g, true, 0⟩ (put w.err p w.fresh x)).append = true
      by_cases e : x = p
      · subst e; simp [put]
      · rw [put_ne _ _ e] at hx' ⊢
        rw [put_ne _ _ (by have := h1 x; omega)]
        exact h2 x hx'
  | log p line =>
    refine ⟨h1, fun x hx => ?_⟩
    have hx' : w.logs x = f := by rw [← logs_log w p line]; exact hx
    have := h2 x hx'
    show (put w.desc (w.err p) _ (w.err x)).append = true
    by_cases e : w.err x = w.err p
    · rw [e, put_same]; rw [e] at this; exact this
    · rw [put_ne _ _ e]; exact this
  | fork p q =>
    refine ⟨fun x => ?_, fun x hx => ?_⟩
    · show put w.err q (w.err p) x < w.fresh
      by_cases e : x = q
      · subst e; rw [put_same]; exact h1 p
      · rw [put_ne _ _ e]; exact h1 x
    · rw [logs_fork] at hx
      show (w.desc (put w.err q (w.err p) x)).append = true
      by_cases e : x = q
      · subst e; rw [put_same] at hx ⊢; exact h2 p hx
      · rw [put_ne _ _ e] at hx ⊢; exact h2 x hx
  | copy g => exact ⟨h1, h2⟩
  | truncate g => exact ⟨h1, h2⟩

theorem created_run {f : Nat} : ∀ (as : List Act) {w : World}, Created w f → Created (run w as) f := by
  intro as
  induction as with
  | nil => intro w h; exact h
  | cons a as ih => intro w h; exact ih (created_step h a)

theorem logs_run : ∀ (as : List Act) {w : World} {f : Nat}, Created w f → (run w as).logs = logsTo w.logs as := by
  intro as
  induction as with
  | nil => intro w f _; rfl
  | cons a as ih =>
    intro w f h
    have := ih (created_step h a)
    cases a with
    | create p g => rw [run, this]; simp only [logsTo]; rw [show step w (.create p g) = create w p g from rfl, logs_create w h.1]
    | log p line => rw [run, this]; simp only [logsTo]; rw [show step w (.log p line) = log w p line from rfl, logs_log]
    | fork p q => rw [run, this]; simp only [logsTo]; rw [logs_fork]
    | copy g => rw [run, this]; rfl
    | truncate g => rw [run, this]; rfl

/-- **C192, no truncation.** If every process that logs to file `f` has got its descriptor from log_create then, as long as nobody truncates the file, all lines logged to it by all processes
are at its end, each whole, in the order of the calls, whatever is forked, copied or truncated besides. -/
theorem C192_append (w : World) (f : Nat) (h : Created w f) (as : List Act) (hn : .truncate f ∉ as) : (run w as).files f = w.files f ++ (linesTo f w.logs as).flatten := by
  induction as generalizing w with
  | nil => simp [run, linesTo]
  | cons a as ih =>
    have hi := ih (step w a) (created_step h a) (fun hm => hn (List.mem_cons_of_mem _ hm))
    rw [run, hi]
    cases a with
    | create p g => rw [show step w (.create p g) = create w p g from rfl, logs_create w h.1]; rfl
    | fork p q => rw [logs_fork]; rfl
    | copy g => rfl
    | truncate g =>
      have : f ≠ g := by rintro rfl; exact hn (by simp)
      show put w.files g [] f ++ _ = _
      rw [put_ne _ _ this]; rfl
    | log p line =>
      rw [show step w (.log p line) = log w p line from rfl, logs_log]
      simp only [linesTo, List.flatten_append]
      rw [← List.append_assoc]
      congr 1
      by_cases e : w.logs p = f
      · have ha := h.2 p e
        rw [if_pos e]
        have e' : (w.desc (w.err p)).file = f := e
        simp only [log, ha, if_true, e', put_same, writeAt_end]
        simp
      · rw [if_neg e]
        show put w.files (w.logs p) _ f = _
        rw [put_ne _ _ (fun h => e h.symm)]
        simp

/-- **C192, truncation.** After a truncation the file has exactly the lines logged since then: no hole, no rest of an older line, nothing torn. -/
theorem C192_truncated (w : World) (f : Nat) (h : Created w f) (as bs : List Act) (hn : .truncate f ∉ bs) :
    (run w (as ++ .truncate f :: bs)).files f = (linesTo f (logsTo w.logs as) bs).flatten := by
  rw [run_append]
  have hc := created_run as h
  have := C192_append (step (run w as) (.truncate f)) f (created_step hc _) bs hn
  rw [run, this]
  have e1 : (step (run w as) (.truncate f)).files f = [] := put_same _ _ _
  have e2 : (step (run w as) (.truncate f)).logs = logsTo w.logs as := by rw [← logs_run as h]; rfl
  rw [e1, e2, List.nil_append]

/-- **C192, copy and truncation, in part.** Somebody copies the file and truncates it later: the copy has all lines logged before it, after what the file had at first, and the file has all lines
logged after the truncation.  Missing: the lines logged between the two are in neither (`C192_refuted`). -/
theorem C192_rotated_partial (w : World) (f : Nat) (h : Created w f) (as bs cs : List Act) (ha : .truncate f ∉ as) (hb : .copy f ∉ bs) (hc : .truncate f ∉ cs) (hc' : .copy f ∉ cs) :
    (run w (as ++ .copy f :: bs ++ .truncate f :: cs)).copies f = (run w as).copies f ++ [w.files f ++ (linesTo f w.logs as).flatten] ∧
    (run w (as ++ .copy f :: bs ++ .truncate f :: cs)).files f = (linesTo f (logsTo w.logs (as ++ .copy f :: bs)) cs).flatten := by
  refine ⟨?_, C192_truncated w f h _ cs hc⟩
  have keep : ∀ (xs : List Act) (u : World), .copy f ∉ xs → (run u xs).copies f = u.copies f := by
    intro xs
    induction xs with
    | nil => intro u _; rfl
    | cons x xs ih =>
      intro u hx
      rw [run, ih _ (fun hm => hx (List.mem_cons_of_mem _ hm))]
      cases x with
      | copy g =>
        have : f ≠ g := by rintro rfl; exact hx (by simp)
        exact put_ne _ _ this
      | _ => rfl
  rw [run_append, run_append, run, run, keep cs _ hc']
  show (run (step (run w as) (.copy f)) bs).copies f = _
  rw [keep bs _ hb]
  show put _ f _ f = _
  rw [put_same, C192_append w f h as ha]

/-- All processes that log to file `f` share description `d`, opened without O_APPEND, whose offset is the end of the file. -/
def Alone (w : World) (f d : Nat) : Prop :=
  (∀ p, w.err p < w.fresh) ∧ d < w.fresh ∧ w.desc d = ⟨f, false, (w.files f).length⟩ ∧ ∀ p, w.logs p = f → w.err p = d

/-- **C192, a log that was not opened by log_create, in part.** Processes that share one inherited descriptor: as long as nobody truncates the file and nobody opens it with log_create, all
lines logged to it are at its end, each whole, in the order of the calls.  Missing: truncation (`C192_refuted_hole`) and several descriptions (`C192_refuted_over`). -/
theorem C192_inherited_partial (w : World) (f d : Nat) (h : Alone w f d) (as : List Act) (hn : .truncate f ∉ as) (hc : ∀ p, .create p f ∉ as) :
    (run w as).files f = w.files f ++ (linesTo f w.logs as).flatten := by
  induction as generalizing w with
  | nil => simp [run, linesTo]
  | cons a as ih =>
    have hi := fun hs => ih (step w a) hs (fun hm => hn (List.mem_cons_of_mem _ hm)) (fun p hm => hc p (List.mem_cons_of_mem _ hm))
    obtain ⟨h1, h2, h3, h4⟩ := h
    rw [run]
    cases a with
    | create p g =>
      have hg : g ≠ f := by rintro rfl; exact hc p (by simp)
      have el : (step w (.create p g)).logs = put w.logs p g := logs_create w h1 p g
      rw [hi ?_, el]
      · rfl
      · refine ⟨fun x => ?_, Nat.lt_succ_of_lt h2, ?_, fun x hx => ?_⟩
        · show put w.err p w.fresh x < w.fresh + 1
          by_cases e : x = p
          · subst e; simp [put]
          · rw [put_ne _ _ e]; have := h1 x; omega
        · show put w.desc w.fresh _ d = _
          rw [put_ne _ _ (by omega)]; exact h3
        · rw [el] at hx
          show put w.err p w.fresh x = d
          by_cases e : x = p
          · subst e; rw [put_same] at hx; exact absurd hx hg
          · rw [put_ne _ _ e] at hx ⊢; exact h4 x hx
    | fork p q =>
      rw [hi ?_, logs_fork]
      · rfl
      · refine ⟨fun x => ?_, h2, h3, fun x hx => ?_⟩
        · show put w.err q (w.err p) x < w.fresh
          by_cases e : x = q
          · subst e; rw [put_same]; exact h1 p
          · rw [put_ne _ _ e]; exact h1 x
        · rw [logs_fork] at hx
          show put w.err q (w.err p) x = d
          by_cases e : x = q
          · subst e; rw [put_same] at hx ⊢; exact h4 p hx
          · rw [put_ne _ _ e] at hx ⊢; exact h4 x hx
    | copy g => rw [hi ⟨h1, h2, h3, h4⟩]; rfl
    | truncate g =>
      have : f ≠ g := by rintro rfl; exact hn (by simp)
      have ef : (step w (.truncate g)).files f = w.files f := put_ne _ _ this
      rw [hi ⟨h1, h2, by rw [ef]; exact h3, h4⟩, ef]; rfl
    | log p line =>
      have el : (step w (.log p line)).logs = w.logs := logs_log w p line
      by_cases e : w.logs p = f
      · have ed := h4 p e
        have ef : (step w (.log p line)).files f = w.files f ++ line := by
          simp only [step, log, ed, h3, put_same, Bool.false_eq_true, if_false, writeAt_end]
        rw [hi ?_, el, ef]
        · simp [linesTo, e]
        · refine ⟨h1, h2, ?_, fun x hx => h4 x (by rw [← el]; exact hx)⟩
          rw [ef]
          simp only [step, log, ed, h3, put_same, Bool.false_eq_true, if_false, List.length_append]
      · have ef : (step w (.log p line)).files f = w.files f := put_ne _ _ (fun h => e h.symm)
        rw [hi ?_, el, ef]
        · simp [linesTo, e]
        · refine ⟨h1, h2, ?_, fun x hx => h4 x (by rw [← el]; exact hx)⟩
          rw [ef]
          show put w.desc (w.err p) _ d = _
          have : d ≠ w.err p := by
            rintro rfl
            exact e (by show (w.desc (w.err p)).file = f; rw [h3])
          rw [put_ne _ _ this]; exact h3

/-- **C192 is false for lines logged between the copy and the truncation**, in every state and for every line: it is in the file at first, but then the copy and the file are as if it had not been logged. -/
theorem C192_refuted (w : World) (f p : Nat) (h : Created w f) (hp : w.logs p = f) (line : List UInt8) :
    (run w [.copy f, .log p line]).files f = w.files f ++ line ∧
    (run w [.copy f, .log p line, .truncate f]).copies f = w.copies f ++ [w.files f] ∧ (run w [.copy f, .log p line, .truncate f]).files f = [] := by
  refine ⟨?_, put_same _ _ _, put_same _ _ _⟩
  rw [C192_append w f h _ (by simp)]
  simp [linesTo, hp]

/-- **C192 is false for a log that was not opened by log_create** (descriptor 2 as the process has inherited it, opened without O_APPEND): the first line after a truncation is behind a hole of
zeros as long as the offset. -/
theorem C192_refuted_hole (w : World) (f p : Nat) (hp : w.logs p = f) (ha : (w.desc (w.err p)).append = false) (line : List UInt8) :
    (run w [.truncate f, .log p line]).files f = List.replicate (w.desc (w.err p)).off 0 ++ line := by
  have e : (w.desc (w.err p)).file = f := hp
  simp only [run, step, log, ha, e, put_same, writeAt_gap, Bool.false_eq_true, if_false]

/-- **C192 is false for two processes with such descriptors**: the line of the second is written over that of the first. -/
theorem C192_refuted_over (w : World) (f p q : Nat) (hp : w.logs p = f) (hq : w.logs q = f) (hpq : w.err p ≠ w.err q) (hap : (w.desc (w.err p)).append = false)
    (haq : (w.desc (w.err q)).append = false) (hop : (w.desc (w.err p)).off = (w.files f).length) (hoq : (w.desc (w.err q)).off = (w.files f).length) (a b : List UInt8)
    (hab : a.length = b.length) : (run w [.log p a, .log q b]).files f = w.files f ++ b := by
  have e : (w.desc (w.err p)).file = f := hp
  have e' : (w.desc (w.err q)).file = f := hq
  have hne : w.err q ≠ w.err p := fun h => hpq h.symm
  simp only [run, step, log, hap, e, Bool.false_eq_true, if_false, put_same, put_ne _ _ hne, haq, e', hop, hoq, writeAt_end]
  simp [writeAt, ← hab]

/-! ## Examples -/

/-- Process 0 logs to what it has inherited (file 0, opened without O_APPEND), process 1 to file 1, which log_create has opened. -/
def w0 : World := ⟨fun _ => [], fun _ => [], fun d => if d = 0 then ⟨0, false, 0⟩ else ⟨1, true, 0⟩, 2, fun p => if p = 0 then 0 else 1⟩

theorem w0_created : Created w0 1 := by
  refine ⟨fun p => ?_, fun p hp => ?_⟩
  · show (if p = 0 then 0 else 1) < 2
    split <;> decide
  · by_cases e : p = 0
    · subst e; cases hp
    · simp [w0, e]

/-- Process 0 calls log_create on file 1; both log; the file is copied and truncated in between. -/
def mixed : List Act := [.log 0 [97, 10], .log 1 [98, 10], .create 0 1, .log 0 [99, 10], .fork 0 2, .copy 1, .log 2 [100, 10], .truncate 1, .log 1 [101, 10], .log 2 [102, 10]]

/-- The theorems about `Created` apply to this execution. -/
example : Created w0 1 ∧ (run w0 mixed).files 1 = [101, 10, 102, 10] ∧ (run w0 mixed).copies 1 = [[98, 10, 99, 10]] ∧ (run w0 mixed).files 0 = [97, 10] := by
  refine ⟨w0_created, ?_, ?_, ?_⟩ <;> decide +kernel

/-- `C192_inherited_partial` applies to file 0. -/
example : Alone w0 0 0 ∧ (run w0 [.log 0 [97, 10], .fork 0 3, .log 3 [98, 10], .log 0 [99, 10]]).files 0 = [97, 10, 98, 10, 99, 10] := by
  refine ⟨⟨w0_created.1, by decide, by decide, fun p hp => ?_⟩, by decide +kernel⟩
  by_cases e : p = 0
  · subst e; rfl
  · exact absurd hp (by simp [World.logs, w0, e])

/-- `C192_refuted_hole` applies after the first line of process 0. -/
example : (run w0 [.log 0 [97, 10], .truncate 0, .log 0 [98, 10]]).files 0 = [0, 0, 98, 10] := by decide +kernel

/-- `C192_refuted_over` applies to two descriptions of one file. -/
example : ∃ w : World, w.logs 0 = 5 ∧ w.logs 1 = 5 ∧ w.err 0 ≠ w.err 1 ∧ (run w [.log 0 [97, 10], .log 1 [98, 10]]).files 5 = [98, 10] :=
  ⟨⟨fun _ => [], fun _ => [], fun _ => ⟨5, false, 0⟩, 2, fun p => p⟩, by decide +kernel, by decide +kernel, by decide +kernel, by decide +kernel⟩

end Verif.LogTrunc
