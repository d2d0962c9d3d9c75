/-
  C141: log lines while logs are rotated.  C142: log_create switches the log or leaves it.
-/
import Verif.LogText.Lemmas
import Verif.LogFile.Switch

namespace Verif.LogFile

theorem at_calm {w : World} (hw : Calm w) (p t : Nat) : At w p t ⟨w.lines p t, 0, []⟩ := at_of rfl rfl (by rw [hw.1 p t]; simp [NotWriting])

/-! ### C141 -/

theorem due_calls (p t : Nat) : ∀ (as : List Act) {w v : World} (d : Due), run w as = some v → Inv w → At w p t d → (.write p t false ∉ as) →
    ∃ r, (due p t as d).map (·.data) ++ r = d.rest ++ (calls p t as).flatten ∧ (v.pc p t = .idle → r = []) := by
  intro as
  induction as with
  | nil =>
    intro w v d h _ hd _
    cases h
    refine ⟨d.rest, by simp [due, calls], fun hi => at_rest hd (by rw [hi]; simp [NotWriting])⟩
  | cons a as ih =>
    intro w v d h hi hd hf
    obtain ⟨x, hx, hr⟩ := run_cons h
    obtain ⟨-, hd'⟩ := step_due hx hi p t d hd
    obtain ⟨r, h1, h2⟩ := ih (next p t d a) hr (step_inv hx hi) hd' (fun h => hf (by simp [h]))
    refine ⟨r, ?_, h2⟩
    rw [due_cons, List.map_append, List.append_assoc, h1]
    cases a with
    | log q u parts =>
      by_cases he : q = p ∧ u = t
      · obtain ⟨rfl, rfl⟩ := he
        have hrest : d.rest = [] := by
          apply at_rest hd
          simp only [step] at hx
          split at hx
          · rename_i hq; rw [hq.1]; simp [NotWriting]
          · cases hx
        simp [next, dues, calls, hrest]
      · simp [next, dues, calls, he]
    | write q u ok =>
      by_cases he : q = p ∧ u = t
      · obtain ⟨rfl, rfl⟩ := he
        have hok : ok = true := by
          cases ok with
          | true => rfl
          | false => exact absurd (by simp) hf
        subst hok
        cases hrest : d.rest with
        | nil => simp [next, dues, calls, hrest]
        | cons y ys => simp [next, dues, calls, hrest]
      · simp [next, dues, calls, he]
    | _ => simp [next, dues, calls]

theorem due_data (p t : Nat) : ∀ (as : List Act) (d : Due) (r : Rec), r ∈ due p t as d → r.data ∈ d.rest ∨ ∃ parts, .log p t parts ∈ as ∧ r.data ∈ parts := by
  intro as
  induction as with
  | nil => intro d r h; simp [due] at h
  | cons a as ih =>
    intro d r h
    rw [due_cons, List.mem_append] at h
    have lift : (r.data ∈ (next p t d a).rest ∨ ∃ parts, .log p t parts ∈ as ∧ r.data ∈ parts) → r.data ∈ d.rest ∨ ∃ parts, .log p t parts ∈ a :: as ∧ r.data ∈ parts := by
      rintro (h | ⟨parts, h1, h2⟩)
      · cases a with
        | log q u parts =>
          by_cases he : q = p ∧ u = t
          · obtain ⟨rfl, rfl⟩ := he
            simp only [next, and_self, if_true] at h
            exact Or.inr ⟨parts, by simp, h⟩
          · simp only [next, if_neg he] at h; exact Or.inl h
        | write q u ok =>
          by_cases he : q = p ∧ u = t
          · cases hrest : d.rest with
            | nil => simp [next, he, hrest] at h
            | cons y ys => simp only [next, he, hrest, and_self, if_true] at h; exact Or.inl (by simp [h])
          · simp only [next, if_neg he] at h; exact Or.inl h
        | _ => exact Or.inl h
      · exact Or.inr ⟨parts, by simp [h1], h2⟩
    rcases h with h | h
    · cases a with
      | write q u ok =>
        by_cases he : q = p ∧ u = t
        · cases hrest : d.rest with
          | nil => simp [dues, he, hrest] at h
          | cons y ys =>
            cases ok with
            | false => simp [dues, he, hrest] at h
            | true =>
              simp only [dues, he, hrest, and_self, if_true, List.mem_singleton] at h
              subst h
              exact Or.inl (by simp)
        · simp [dues, he] at h
      | _ => simp [dues] at h
    · exact lift (ih _ r h)

/-- **C141, in part.** Whatever threads and processes log, call log_create or log_rotate, and whatever files are renamed or removed meanwhile: there is an order of all writes such
that what is added to each file is what was written to it, in this order, and the writes of each thread are exactly the parts of its lines in the order of its calls, except those
whose write failed. So each part is in one file, once. For all runs, also those that end in the middle. Missing: parts of one line may be apart (C141_refuted_torn). -/
theorem C141_once_partial (w0 w : World) (hw : Calm w0) (as : List Act) (h : run w0 as = some w) :
    ∃ hist : List Entry, (∀ f, w.files f = w0.files f ++ into f hist) ∧ (∀ p t, by' p t hist = due p t as ⟨w0.lines p t, 0, []⟩) ∧
      ∀ p t, .write p t false ∉ as → w.pc p t = .idle → (by' p t hist).map (·.data) = (calls p t as).flatten := by
  have hi := inv_calm hw
  refine ⟨trace w0 as, run_files as h, fun p t => run_due as h hi p t _ (at_calm hw p t), fun p t hf hpc => ?_⟩
  obtain ⟨r, h1, h2⟩ := due_calls p t as _ h hi (at_calm hw p t) hf
  rw [run_due as h hi p t _ (at_calm hw p t)]
  rw [h2 hpc, List.append_nil] at h1
  exact h1

theorem lines_text : ∀ (rs : List Rec), (∀ r ∈ rs, ∃ l, r.data = l ++ [10] ∧ 10 ∉ l) → LogText.lines (text rs) = rs.map (·.data.dropLast) := by
  intro rs
  induction rs with
  | nil => intro _; rfl
  | cons r rs ih =>
    intro h
    obtain ⟨l, h1, h2⟩ := h r (by simp)
    have e : text (r :: rs) = l ++ 10 :: text rs := by simp [text, h1]
    rw [e, LogText.lines_line _ _ h2, ih (fun r' hr' => h r' (by simp [hr'])), List.map_cons, h1, List.dropLast_concat]

/-- And if each line is written in one part, then every file gets whole lines only: no line is torn or mixed with another. -/
theorem C141_lines_partial (w0 w : World) (hw : Calm w0) (as : List Act) (h : run w0 as = some w)
    (hl : ∀ p t parts, .log p t parts ∈ as → ∃ l, parts = [l ++ [10]] ∧ 10 ∉ l) (f : Nat) :
    ∃ new, w.files f = w0.files f ++ new ∧ LogText.lines (text new) = new.map (·.data.dropLast) ∧ ∀ r ∈ new, ∃ l, r.data = l ++ [10] ∧ .log r.proc r.thr [l ++ [10]] ∈ as := by
  have hi := inv_calm hw
  have key : ∀ r ∈ into f (trace w0 as), ∃ l, r.data = l ++ [10] ∧ 10 ∉ l ∧ .log r.proc r.thr [l ++ [10]] ∈ as := by
    intro r hr
    have hm : r ∈ by' r.proc r.thr (trace w0 as) := by
      unfold into at hr
      obtain ⟨e, he, rfl⟩ := List.mem_map.1 hr
      unfold by'
      rw [List.mem_filter]
      exact ⟨List.mem_map.2 ⟨e, (List.mem_filter.1 he).1, rfl⟩, by simp⟩
    rw [run_due as h hi r.proc r.thr _ (at_calm hw r.proc r.thr)] at hm
    rcases due_data _ _ _ _ _ hm with h' | ⟨parts, h1, h2⟩
    · simp at h'
    · obtain ⟨l, rfl, h3⟩ := hl _ _ _ h1
      simp only [List.mem_singleton] at h2
      exact ⟨l, h2, h3, h1⟩
  refine ⟨_, run_files as h f, lines_text _ (fun r hr => ?_), fun r hr => ?_⟩
  · obtain ⟨l, h1, h2, -⟩ := key r hr; exact ⟨l, h1, h2⟩
  · obtain ⟨l, h1, -, h2⟩ := key r hr; exact ⟨l, h1, h2⟩

/-- All processes log to file 0, which is named 10. -/
def sample : World where
  dir := fun n => if n = 10 then some 0 else none
  files := fun _ => []
  fresh := 1
  tab := fun _ d => if d = 2 then some ⟨0, false⟩ else none
  lock := fun _ => none
  pc := fun _ _ => .idle
  lines := fun _ _ => 0
  log_level := fun _ => 7
  rets := fun _ _ => []

theorem sample_calm : Calm sample := ⟨fun _ _ => rfl, fun _ => rfl, fun _ => by simp [sample, STDERR]⟩

/-- Two threads of process 1 log, the file is renamed, thread 3 rotates the log, in steps between those of the others. -/
def sampleRun : List Act :=
  [.log 1 1 [[97, 10]], .rename 10 11, .create 1 3 10 7, .write 1 1 true, .mkpath 1 3 true, .logged 1 1, .log 1 2 [[98, 10]], .open 1 3 (some 3), .write 1 2 true, .logged 1 2,
   .dup 1 3 true, .log 1 1 [[99, 10]], .write 1 1 true, .close 1 3 true, .logged 1 1, .level 1 3]

example : (run sample sampleRun).map (fun w => (text (w.files 0), text (w.files 1), w.dir 10, w.dir 11, w.rets 1 3)) = some ([97, 10, 98, 10], [99, 10], some 1, some 0, [2]) := by
  decide +kernel

/-- A line that the C library writes in two parts: the log is switched between them, and each file has half of the line. -/
theorem C141_refuted_torn :
    (run sample [.log 1 1 [[97, 98], [99, 10]], .write 1 1 true, .create 1 2 10 7, .mkpath 1 2 true, .rename 10 11, .open 1 2 (some 3), .dup 1 2 true, .close 1 2 true, .level 1 2,
      .write 1 1 true, .logged 1 1]).map (fun w => (text (w.files 0), text (w.files 1))) = some ([97, 98], [99, 10]) := by
  decide +kernel

/-- Or another process writes between them. -/
theorem C141_refuted_mixed :
    (run sample [.log 1 1 [[97, 98], [99, 10]], .write 1 1 true, .log 2 1 [[100, 10]], .write 2 1 true, .write 1 1 true, .logged 1 1, .logged 2 1]).map
      (fun w => text (w.files 0)) = some [97, 98, 100, 10, 99, 10] := by
  decide +kernel

/-! ### C142 -/

/-- **C142, in part.** A call of log_create that returns 2: the level is set; the log is the file that `path` named when it was opened, which was during the call; and from then on,
as long as nobody calls log_create in this process, all that its threads log is added to this file, nothing of it elsewhere. Other processes may do as they like, and so may
those who rename files. Missing: calls of several threads at once. -/
theorem C142_switch_partial (w0 w1 w2 : World) (hw : Calm w0) (p t path : Nat) (level : Int) (b c : List Act) (hb : ∀ a ∈ b, ∀ u pa l, a ≠ .create p u pa l)
    (hc : ∀ a ∈ c, ∀ u pa l, a ≠ .create p u pa l) (h1 : run w0 (.create p t path level :: b) = some w1) (hidle : w1.pc p t = .idle) (hret : w1.rets p t = w0.rets p t ++ [2])
    (h2 : run w1 c = some w2) :
    w2.log_level p = level ∧ ∃ b1 d b2 wm f, b = b1 ++ .open p t (some d) :: b2 ∧ run w0 (.create p t path level :: b1 ++ [.open p t (some d)]) = some wm ∧ wm.dir path = some f ∧
      ∃ hist : List Entry, (∀ g, w2.files g = w1.files g ++ into g hist) ∧ (∀ e ∈ hist, e.item.proc = p → e.file = f) ∧
        ∀ q u, w1.pc q u = .idle → by' q u hist = due q u c ⟨w1.lines q u, 0, []⟩ := by
  obtain ⟨x, hx, hr⟩ := run_cons h1
  have hC0 := call_begin (path := path) (level := level) (fun u _ => by rw [hw.1 p u]; simp [InCreate]) hx
  have hrx : run w0 [.create p t path level] = some x := by simp only [run, hx, Option.bind_some]
  have hC := call_run b _ hrx hC0 hb hr
  obtain ⟨ho, hat⟩ := hC
  rw [hidle] at hat
  simp only at hat
  have hq : ∀ u, ¬ InCreate (w1.pc p u) := by
    intro u
    by_cases hu : u = t
    · subst hu; rw [hidle]; simp [InCreate]
    · exact ho u hu
  have hi1 : Inv w1 := by
    have hi : ∀ (as : List Act) (w v : World), run w as = some v → Inv w → Inv v := by
      intro as
      induction as with
      | nil => intro w v h hi; cases h; exact hi
      | cons a as ih => intro w v h hi; obtain ⟨y, hy, hr⟩ := run_cons h; exact ih y v hr (step_inv hy hi)
    exact hi _ _ _ h1 (inv_calm hw)
  rcases hat with ⟨h, -⟩ | ⟨-, hlev, f, hop, ht⟩
  · rw [hret, List.append_cancel_left_eq] at h
    cases h
  · obtain ⟨q1, q2, -, -, q5⟩ := quiet c h2 hq hc
    refine ⟨q2.trans hlev, ?_⟩
    obtain ⟨b1, d, b2, wm, e1, e2, e3⟩ := hop
    cases b1 with
    | nil => simp at e1
    | cons y b1 =>
      simp only [List.cons_append, List.nil_append, List.cons.injEq] at e1
      obtain ⟨rfl, e1⟩ := e1
      refine ⟨b1, d, b2, wm, f, e1, e2, e3, trace w1 c, run_files c h2, fun e he hp => ?_, fun q u hqu => ?_⟩
      · have := q5 e he hp
        rw [ht] at this
        simpa using this.symm
      · exact run_due c h2 hi1 q u _ (at_of rfl rfl (by rw [hqu]; simp [NotWriting]))

example :
    (run sample [.create 1 3 10 5, .mkpath 1 3 true, .rename 10 11, .log 1 1 [[97, 10]], .open 1 3 (some 3), .dup 1 3 true, .write 1 1 true, .close 1 3 true, .level 1 3]).map
      (fun w => (w.pc 1 3, w.rets 1 3, w.log_level 1, w.dir 10)) = some (.idle, [2], 5, some 1) := by
  decide +kernel

/-- A call of log_create that returns -1, no close having failed: the level and the log are what they were, also for what is logged during the call. -/
theorem C142_failed_partial (w0 w1 w2 : World) (hw : Calm w0) (p t path : Nat) (level : Int) (b c : List Act) (hb : ∀ a ∈ b, ∀ u pa l, a ≠ .create p u pa l)
    (hc : ∀ a ∈ c, ∀ u pa l, a ≠ .create p u pa l) (h1 : run w0 (.create p t path level :: b) = some w1) (hidle : w1.pc p t = .idle) (hret : w1.rets p t = w0.rets p t ++ [-1])
    (hcl : .close p t false ∉ b) (h2 : run w1 c = some w2) :
    w2.log_level p = w0.log_level p ∧ ∃ s, w0.tab p 2 = some s ∧ ∃ hist : List Entry, (∀ g, w2.files g = w0.files g ++ into g hist) ∧
      (∀ e ∈ hist, e.item.proc = p → e.file = s.file) ∧ ∀ q u, by' q u hist = due q u (.create p t path level :: b ++ c) ⟨w0.lines q u, 0, []⟩ := by
  obtain ⟨x, hx, hr⟩ := run_cons h1
  have hC0 := call_begin (path := path) (level := level) (fun u _ => by rw [hw.1 p u]; simp [InCreate]) hx
  have hrx : run w0 [.create p t path level] = some x := by simp only [run, hx, Option.bind_some]
  obtain ⟨ho, hat⟩ := call_run b _ hrx hC0 hb hr
  rw [hidle] at hat
  simp only at hat
  have hq : ∀ u, ¬ InCreate (w1.pc p u) := by
    intro u
    by_cases hu : u = t
    · subst hu; rw [hidle]; simp [InCreate]
    · exact ho u hu
  rcases hat with ⟨-, hlev, hold⟩ | ⟨h, -⟩
  · have hold : w1.tab p STDERR = w0.tab p STDERR ∧ Old w0 p ([.create p t path level] ++ b) := by
      rcases hold with h | h
      · exact h
      · simp only [List.cons_append, List.nil_append, List.mem_cons] at h
        rcases h with h | h
        · cases h
        · exact absurd h hcl
    obtain ⟨q1, q2, -, -, q5⟩ := quiet c h2 hq hc
    have hrun : run w0 (.create p t path level :: b ++ c) = some w2 := by rw [run_append, h1]; exact h2
    obtain ⟨s, hs⟩ : ∃ s, w0.tab p 2 = some s := Option.ne_none_iff_exists'.1 (hw.2.2 p)
    refine ⟨q2.trans hlev, s, hs, trace w0 (.create p t path level :: b ++ c), run_files _ hrun, fun e he hp => ?_, fun q u => run_due _ hrun (inv_calm hw) q u _ (at_calm hw q u)⟩
    have hse : (w0.tab p STDERR).map (·.file) = some e.file := by
      rw [trace_append _ c h1, List.mem_append] at he
      rcases he with he | he
      · exact hold.2 e he hp
      · rw [← hold.1]; exact q5 e he hp
    have hs' : w0.tab p STDERR = some s := hs
    rw [hs'] at hse
    simpa using hse.symm
  · rw [hret, List.append_cancel_left_eq] at h
    cases h

example : (run sample [.create 1 3 10 5, .mkpath 1 3 true, .open 1 3 (some 3), .dup 1 3 false]).map (fun w => (w.pc 1 3, w.rets 1 3, w.tab 1 2)) =
    some (.idle, [-1], some ⟨0, false⟩) := by
  decide +kernel

/-- Two calls at once, for path 20 with level 5 and for path 30 with level 8: both return 2, the log is that of the second, the level that of the first. -/
theorem C142_refuted_two :
    (run sample [.create 1 3 20 5, .create 1 4 30 8, .mkpath 1 3 true, .mkpath 1 4 true, .open 1 3 (some 3), .open 1 4 (some 4), .dup 1 3 true, .dup 1 4 true, .close 1 3 true,
      .close 1 4 true, .level 1 4, .level 1 3]).map (fun w => ((w.rets 1 3, w.rets 1 4, w.log_level 1), w.dir 20, w.dir 30, w.tab 1 2)) =
      some (([2], [2], 5), some 1, some 2, some ⟨2, true⟩) := by
  decide +kernel

/-- If close reports an error, log_create returns -1 and does not set the level, but the log has been switched. In every calm state, for every path, level and free descriptor. -/
theorem C142_refuted_close (w0 : World) (hw : Calm w0) (p t path d : Nat) (level : Int) (hd : w0.tab p d = none) :
    ∃ w f, run w0 [.create p t path level, .mkpath p t true, .open p t (some d), .dup p t true, .close p t false] = some w ∧ w.rets p t = w0.rets p t ++ [-1] ∧
      w.log_level p = w0.log_level p ∧ w.dir path = some f ∧ w.tab p 2 = some ⟨f, true⟩ := by
  have hd2 : d ≠ STDERR := by rintro rfl; exact hw.2.2 p hd
  obtain ⟨-, -, e1, e2, -, f, e3, e4⟩ := openLog_rest { w0 with pc := put2 (put2 w0.pc p t (.mkpath path level)) p t (.opening path level) } p path d
  have hne : ¬ (p = p ∧ (2 : Nat) = d) := fun h => hd2 h.2.symm
  have hrun : ∀ o, run w0 [.create p t path level, .mkpath p t true, .open p t (some d), .dup p t true, .close p t false] = o →
      ∃ w, o = some w ∧ w.rets p t = w0.rets p t ++ [-1] ∧ w.log_level p = w0.log_level p ∧ w.dir path = some f ∧ w.tab p 2 = some ⟨f, true⟩ := by
    intro o ho
    simp only [run, step, hw.1 p t, if_true, Option.bind_some, put2_eq, hd, if_neg hd2, e4, ret] at ho
    refine ⟨_, ho.symm, ?_, ?_, e3, ?_⟩
    · simp [put2_eq, e1]
    · simp [e2]
    · simp only [Bool.false_eq_true, if_false]
      rw [put2_ne _ _ hne]
      simp [put2, STDERR]
  obtain ⟨w, h1, h2⟩ := hrun _ rfl
  exact ⟨w, f, h1, h2⟩

end Verif.LogFile
