/-
  C120, C121: log files; C122: texts of exceptions.
-/
import Verif.LogText.Lemmas

namespace Verif.LogText

open Logger (Level)

/-! C120 -/

/-- What is known of the program goes with the state of the logger. -/
structure Match (w : World) (v : View) : Prop where
  level : w.log_level = v.level
  mem : w.mem = v.mem
  names : ∀ thr, w.names thr = (v.names thr).map (·.1)
  at_ : ∀ thr p n, v.names thr = some (p, n) → v.mem p = some n ∧ 10 ∉ n ∧ 32 ∉ n

theorem match_init : Match init View.init := ⟨rfl, rfl, fun _ => rfl, fun _ _ _ h => by cases h⟩

theorem thread_words {w : World} {v : View} (h : Match w v) (thr : Nat) : 10 ∉ v.thread thr ∧ 32 ∉ v.thread thr := by
  unfold View.thread
  cases e : v.names thr with
  | none => exact ⟨not_digit (dec_mem thr) (by decide), not_digit (dec_mem thr) (by decide)⟩
  | some x => exact (h.at_ thr x.1 x.2 e).2

/-- A message adds its line, or nothing. -/
theorem log_fmt_eq {w : World} {v : View} (h : Match w v) (thr : Nat) (l : Level) (fmt : List UInt8) (args : List Arg) (t : Clock) (m : List UInt8)
    (hm : printf .text fmt args = .ok (m, [])) :
    log_fmt w thr l fmt args t = .ok (if l.num ≤ v.level then { w with out := w.out ++ line t l (v.thread thr) m } else w) := by
  unfold log_fmt Logger.written
  rw [h.level]
  by_cases hl : l.num ≤ v.level
  · rw [if_pos (by simpa using hl), if_pos hl, h.names]
    cases e : v.names thr with
    | none =>
      simp only [Option.map_none]
      rw [printf_line_num t l thr fmt m args hm]
      simp only [map_ok, View.thread, e]
    | some x =>
      simp only [Option.map_some]
      rw [h.mem, (h.at_ thr x.1 x.2 e).1]
      simp only []
      rw [printf_line_name t l x.2 fmt m args hm]
      simp only [map_ok, View.thread, e]
  · rw [if_neg (by simpa using hl), if_neg hl]

theorem levelName_nl (l : Level) : 10 ∉ levelName l := by cases l <;> decide

theorem line_eq (t : Clock) (l : Level) (th m : List UInt8) : line t l th m = stamp t ++ (levelName l ++ 32 :: (th ++ 32 :: m)) ++ 10 :: [] := rfl

theorem body_nl (t : Clock) (ht : t.Valid) (l : Level) (th m : List UInt8) (h1 : 10 ∉ th) (h2 : 10 ∉ m) :
    10 ∉ stamp t ++ (levelName l ++ 32 :: (th ++ 32 :: m)) := by
  have a := stamp_nl t ht
  have b := levelName_nl l
  simp only [List.mem_append, List.mem_cons, not_or]
  exact ⟨a, b, by decide, h1, by decide, h2⟩

/-- The log grows at its end. -/
theorem lines_append : ∀ (a b : List UInt8), (∃ c, a = c ++ [10]) ∨ a = [] → lines (a ++ b) = lines a ++ lines b := by
  intro a
  induction a with
  | nil => intro b _; rfl
  | cons c a ih =>
    intro b h
    by_cases ha : a = []
    · subst ha
      rcases h with ⟨d, h⟩ | h
      · have : c = 10 := by
          cases d with
          | nil => simpa using h
          | cons x d => simp only [List.cons_append, List.cons.injEq] at h; exact absurd h.2.symm (by simp)
        subst this
        simp [lines]
      · cases h
    · have h' : ∃ c, a = c ++ [10] := by
        rcases h with ⟨d, h⟩ | h
        · cases d with
          | nil => simp only [List.nil_append, List.cons.injEq] at h; exact absurd h.2 ha
          | cons x d => simp only [List.cons_append, List.cons.injEq] at h; exact ⟨d, h.2⟩
        · cases h
      rw [List.cons_append, lines, lines, ih b (Or.inl h')]
      by_cases hc : c = 10
      · rw [if_pos hc, if_pos hc]; rfl
      · rw [if_neg hc, if_neg hc]
        obtain ⟨d, hd⟩ := h'
        have : lines a ≠ [] := by
          rw [hd]
          cases d with
          | nil => simp [lines]
          | cons x d =>
            rw [List.cons_append, lines]
            by_cases hx : x = 10
            · rw [if_pos hx]; simp
            · rw [if_neg hx]; cases lines (d ++ [10]) <;> simp
        cases e : lines a with
        | nil => exact absurd e this
        | cons l ls => rfl

/-- All lines but the last are ended. -/
def Ended (a : List UInt8) : Prop := (∃ c, a = c ++ [10]) ∨ a = []

/-- What a reader finds in the lines one after the other; log_err writes an empty line after its entry. -/
def trace (v : View) : List Op → List (Option Entry)
  | [] => []
  | .msg thr l fmt args t :: r =>
    (if l.num ≤ v.level then [some (entry t l (v.thread thr) (printed fmt args))] else []) ++ trace v r
  | .err thr e text fmt args t :: r =>
    (if 4 ≤ v.level then
      [some (entry t .error (v.thread thr) (printed fmt args ++ [32, 40] ++ intText e ++ [58, 32] ++ text ++ [41])), none] else []) ++ trace v r
  | .level l :: r => trace (v.step (.level l)) r
  | .name thr p :: r => trace (v.step (.name thr p)) r
  | .poke p t :: r => trace (v.step (.poke p t)) r

/-- An empty line, or what a reader finds in it. -/
def look (l : List UInt8) : Option (Option Entry) := if l = [] then none else some (readEntry l)

theorem look_line (t : Clock) (h : t.Valid) (l : Level) (th m : List UInt8) (hth : 32 ∉ th) :
    look (stamp t ++ (levelName l ++ 32 :: (th ++ 32 :: m))) = some (some (entry t l th m)) := by
  unfold look
  rw [read_line t h l th m hth, if_neg]
  intro e
  have := stamp_length t h
  rw [List.append_eq_nil_iff.mp e |>.1] at this
  cases this

theorem run_lines :
    ∀ (ops : List Op) (w : World) (v : View), Match w v → Ended w.out → Proper v ops →
      ∃ w', run w ops = .ok w' ∧ (lines w'.out).map look = (lines w.out).map look ++ (trace v ops).map (Option.map some) := by
  have hnone : look [] = none := rfl
  intro ops
  induction ops with
  | nil => intro w v _ _ _; exact ⟨w, rfl, by rw [trace, List.map_nil, List.append_nil]⟩
  | cons o r ih =>
    intro w v hm hen hp
    cases o with
    | level l =>
      obtain ⟨w', h1, h2⟩ := ih { w with log_level := l } (v.step (.level l)) ⟨rfl, hm.mem, hm.names, hm.at_⟩ hen hp
      exact ⟨w', h1, by rw [h2, trace]⟩
    | name thr p =>
      obtain ⟨⟨tx, ht, hn⟩, hp⟩ := hp
      obtain ⟨w', h1, h2⟩ := ih { w with names := fun i => if i = thr then some p else w.names i } (v.step (.name thr p))
        ⟨hm.level, hm.mem, fun i => by
          simp only [View.step]
          by_cases hi : i = thr
          · rw [if_pos hi, if_pos hi, ht]; rfl
          · rw [if_neg hi, if_neg hi]; exact hm.names i,
        fun i q n h => by
          simp only [View.step] at h ⊢
          by_cases hi : i = thr
          · rw [if_pos hi, ht] at h
            simp only [Option.map_some, Option.some.injEq, Prod.mk.injEq] at h
            obtain ⟨rfl, rfl⟩ := h
            exact ⟨ht, hn⟩
          · rw [if_neg hi] at h; exact hm.at_ i q n h⟩ hen hp
      exact ⟨w', h1, by rw [h2, trace]⟩
    | poke p t =>
      obtain ⟨hno, hp⟩ := hp
      obtain ⟨w', h1, h2⟩ := ih { w with mem := fun q => if q = p then some t else w.mem q } (v.step (.poke p t))
        ⟨hm.level, by simp only [View.step, hm.mem], hm.names, fun i q n h => by
          simp only [View.step] at h ⊢
          have hq : q ≠ p := by
            intro e
            rw [e] at h
            exact hno i n h
          rw [if_neg hq]
          exact hm.at_ i q n h⟩ hen hp
      exact ⟨w', h1, by rw [h2, trace]⟩
    | msg thr l fmt args t =>
      obtain ⟨⟨m, hpr, hnl⟩, ht, hp⟩ := hp
      have hs := log_fmt_eq hm thr l fmt args t m hpr
      have hpm : printed fmt args = m := by simp [printed, hpr]
      obtain ⟨w1, w2⟩ := thread_words hm thr
      rw [run, step, hs]
      simp only [Res.bind]
      rw [trace, List.map_append, hpm]
      by_cases hl : l.num ≤ v.level
      · rw [if_pos hl, if_pos hl]
        obtain ⟨w', h1, h2⟩ := ih { w with out := w.out ++ line t l (v.thread thr) m } v ⟨hm.level, hm.mem, hm.names, hm.at_⟩
          (Or.inl ⟨w.out ++ (stamp t ++ (levelName l ++ 32 :: (v.thread thr ++ 32 :: m))), by simp only [line, List.append_assoc]⟩) hp
        refine ⟨w', h1, ?_⟩
        rw [h2]
        simp only []
        rw [lines_append _ _ hen, line_eq, lines_line _ _ (body_nl t ht l _ m w1 hnl), List.map_append, List.map_cons,
          look_line t ht l _ m w2]
        simp [lines]
      · rw [if_neg hl, if_neg hl]
        obtain ⟨w', h1, h2⟩ := ih w v hm hen hp
        exact ⟨w', h1, by rw [h2]; rfl⟩
    | err thr er text fmt args t =>
      obtain ⟨⟨m, hpr, hnl⟩, htx, ht, hp⟩ := hp
      have hpm : printed fmt args = m := by simp [printed, hpr]
      have hpe := printf_err fmt m text [10] args er hpr (by decide)
      have hs := log_fmt_eq hm thr .error (fmt ++ errSuffix ++ [10]) (args ++ [.int er, .str text]) t _ hpe
      obtain ⟨w1, w2⟩ := thread_words hm thr
      rw [run, step, log_err, hs]
      simp only [Res.bind]
      rw [trace, List.map_append, hpm]
      by_cases hl : 4 ≤ v.level
      · rw [if_pos hl, if_pos (show Level.error.num ≤ v.level from hl)]
        have hit : 10 ∉ intText er := by
          unfold intText
          by_cases h0 : 0 ≤ er
          · rw [if_pos h0]; exact not_digit (dec_mem _) (by decide)
          · rw [if_neg h0]
            simp only [List.mem_cons, not_or]
            exact ⟨by decide, not_digit (dec_mem _) (by decide)⟩
        have hmm : 10 ∉ m ++ [32, 40] ++ intText er ++ [58, 32] ++ text ++ [41] := by
          simp only [List.mem_append, not_or]
          exact ⟨⟨⟨⟨⟨hnl, by decide⟩, hit⟩, by decide⟩, htx⟩, by decide⟩
        generalize m ++ [32, 40] ++ intText er ++ [58, 32] ++ text ++ [41] = M at hmm hs ⊢
        obtain ⟨w', h1, h2⟩ := ih { w with out := w.out ++ line t .error (v.thread thr) (M ++ [10]) } v
          ⟨hm.level, hm.mem, hm.names, hm.at_⟩
          (Or.inl ⟨w.out ++ (stamp t ++ (levelName .error ++ 32 :: (v.thread thr ++ 32 :: (M ++ [10])))),
            by simp only [line, List.append_assoc]⟩) hp
        refine ⟨w', h1, ?_⟩
        rw [h2]
        simp only []
        have e : line t .error (v.thread thr) (M ++ [10]) =
            stamp t ++ (levelName .error ++ 32 :: (v.thread thr ++ 32 :: M)) ++ 10 :: [10] := by simp [line]
        rw [lines_append _ _ hen, e, lines_line _ _ (body_nl t ht .error _ M w1 hmm), List.map_append, List.map_cons,
          look_line t ht .error _ M w2]
        simp [lines, hnone]
      · rw [if_neg hl, if_neg (show ¬ Level.error.num ≤ v.level from hl)]
        obtain ⟨w', h1, h2⟩ := ih w v hm hen hp
        exact ⟨w', h1, by rw [h2]; rfl⟩

theorem filter_look : ∀ (ls : List (List UInt8)), (ls.filter (· ≠ [])).map readEntry = (ls.map look).filterMap id := by
  intro ls
  induction ls with
  | nil => rfl
  | cons l ls ih =>
    by_cases h : l = []
    · subst h
      rw [List.filter_cons_of_neg (by decide), ih]
      rfl
    · rw [List.filter_cons_of_pos (by simpa using h), List.map_cons, List.map_cons, ih]
      simp only [look]
      rw [if_neg h]
      rfl

theorem trace_expected : ∀ (ops : List Op) (v : View), ((trace v ops).map (Option.map some)).filterMap id = (expected v ops).map some := by
  intro ops
  induction ops with
  | nil => intro v; rfl
  | cons o r ih =>
    intro v
    cases o with
    | level l => exact ih _
    | name thr p => exact ih _
    | poke p t => exact ih _
    | msg thr l fmt args t =>
      rw [trace, expected, List.map_append, List.filterMap_append, ih v, List.map_append]
      by_cases hl : l.num ≤ v.level
      · rw [if_pos hl, if_pos hl]; rfl
      · rw [if_neg hl, if_neg hl]; rfl
    | err thr er text fmt args t =>
      rw [trace, expected, List.map_append, List.filterMap_append, ih v, List.map_append]
      by_cases hl : 4 ≤ v.level
      · rw [if_pos hl, if_pos hl]; rfl
      · rw [if_neg hl, if_neg hl]; rfl

/-- **C120.**  The entries of the log — its lines except empty ones — are those of the calls whose level was enabled, in their order, with time,
level, the name that the thread had given itself (or its number) and the message. -/
theorem C120_entries_partial (ops : List Op) (h : Proper View.init ops) :
    ∃ w, run init ops = .ok w ∧ ((lines w.out).filter (· ≠ [])).map readEntry = (expected View.init ops).map some := by
  obtain ⟨w, h1, h2⟩ := run_lines ops init View.init match_init (Or.inr rfl) h
  refine ⟨w, h1, ?_⟩
  rw [filter_look, h2, List.filterMap_append, trace_expected]
  rfl

/-- Is no log_err. -/
def Op.plain : Op → Bool
  | .err .. => false
  | _ => true

theorem trace_plain : ∀ (ops : List Op) (v : View), (∀ o ∈ ops, o.plain) → trace v ops = (expected v ops).map some := by
  intro ops
  induction ops with
  | nil => intro v _; rfl
  | cons o r ih =>
    intro v h
    have hr : ∀ o ∈ r, o.plain := fun o ho => h o (List.mem_cons_of_mem _ ho)
    cases o with
    | level l => exact ih _ hr
    | name thr p => exact ih _ hr
    | poke p t => exact ih _ hr
    | msg thr l fmt args t =>
      rw [trace, expected, ih v hr, List.map_append]
      by_cases hl : l.num ≤ v.level
      · rw [if_pos hl, if_pos hl]; rfl
      · rw [if_neg hl, if_neg hl]; rfl
    | err thr er text fmt args t => exact absurd (h _ (List.mem_cons_self ..)) (by simp [Op.plain])

theorem look_some {l : List UInt8} {e : Entry} (h : look l = some (some e)) : readEntry l = some e := by
  unfold look at h
  by_cases hl : l = []
  · rw [if_pos hl] at h; cases h
  · rw [if_neg hl] at h
    exact Option.some.inj h

theorem map_look : ∀ (ls : List (List UInt8)) (es : List Entry), ls.map look = (es.map some).map (Option.map some) →
    ls.map readEntry = es.map some := by
  intro ls
  induction ls with
  | nil => intro es h; cases es with
    | nil => rfl
    | cons e es => cases h
  | cons l ls ih =>
    intro es h
    cases es with
    | nil => cases h
    | cons e es =>
      simp only [List.map_cons, List.cons.injEq] at h
      rw [List.map_cons, List.map_cons, ih es h.2, look_some h.1]

/-- Without log_err every such call makes exactly one line. -/
theorem C120_one_line_partial (ops : List Op) (h : Proper View.init ops) (hp : ∀ o ∈ ops, o.plain) :
    ∃ w, run init ops = .ok w ∧ (lines w.out).map readEntry = (expected View.init ops).map some := by
  obtain ⟨w, h1, h2⟩ := run_lines ops init View.init match_init (Or.inr rfl) h
  refine ⟨w, h1, ?_⟩
  rw [trace_plain ops _ hp] at h2
  exact map_look _ _ h2

/-- 2026-01-02 03:04:05.678 -/
def aTime : Clock := ⟨126, 0, 2, 3, 4, 5, 678901⟩

/-- A program: it names a thread, logs two messages and an error, lowers the level and logs again. -/
def demo : List Op :=
  [.poke 100 (chars ['m', 'a', 'i', 'n']), .name 1 100,
   .msg 1 .info (chars ['x', '=', '%', 'd', ' ', '%', 's']) [.int (-7), .str (chars ['a', ' ', 'b'])] aTime,
   .msg 2 .debug (chars ['n', 'o']) [] aTime,
   .err 2 2 (chars ['E']) (chars ['b', 'a', 'd']) [] aTime,
   .level 3,
   .msg 1 .warn (chars ['n', 'o']) [] aTime,
   .msg 1 .crit (chars ['1', '0', '0', '%', '%']) [] aTime]

/-- The text that a program leaves in its log. -/
def logOf (ops : List Op) : List UInt8 :=
  match run init ops with
  | .ok w => w.out
  | .ub => []

example : Proper View.init demo := by
  refine ⟨(fun _ _ h => by cases h), ⟨_, rfl, by decide, by decide⟩, ?_⟩
  refine ⟨⟨chars ['x', '=', '-', '7', ' ', 'a', ' ', 'b'], by decide +kernel, by decide⟩, by decide, ?_⟩
  refine ⟨⟨chars ['n', 'o'], by decide +kernel, by decide⟩, by decide, ?_⟩
  refine ⟨⟨chars ['b', 'a', 'd'], by decide +kernel, by decide⟩, by decide, by decide, ?_⟩
  exact ⟨⟨chars ['n', 'o'], by decide +kernel, by decide⟩, by decide, ⟨chars ['1', '0', '0', '%'], by decide +kernel, by decide⟩, by decide, trivial⟩

/-- The first line of it: `2026-01-02 03:04:05.678 info main x=-7 a b`. -/
example : (lines (logOf demo))[0]? = some (chars ['2', '0', '2', '6', '-', '0', '1', '-', '0', '2', ' ', '0', '3', ':', '0', '4', ':', '0', '5', '.', '6', '7', '8', ' ',
    'i', 'n', 'f', 'o', ' ', 'm', 'a', 'i', 'n', ' ', 'x', '=', '-', '7', ' ', 'a', ' ', 'b']) := by decide +kernel

example : (expected View.init demo).length = 3 ∧ (lines (logOf demo)).length = 4 := by decide +kernel

/-- **C120 is false**: log_err ends its message with a newline of its own, so that it makes two lines, the second one empty; and a newline in an
argument makes lines that look like entries of the program, here one of level `emerg`. -/
theorem C120_refuted :
    (lines (logOf [.err 1 2 (chars ['E']) (chars ['b', 'a', 'd']) [] aTime])).length = 2 ∧
    (lines (logOf [.msg 1 .info (chars ['%', 's'])
      [.str (chars ['x', '\n'] ++ stamp aTime ++ chars ['e', 'm', 'e', 'r', 'g', ' ', '1', ' ', 'f', 'i', 'r', 'e'])] aTime])).map readEntry =
      [some (entry aTime .info (chars ['1']) (chars ['x'])), some (entry aTime .emerg (chars ['1']) (chars ['f', 'i', 'r', 'e']))] := by
  decide +kernel

/-- log_thread_name_set keeps the pointer, not the name: a program that uses its buffer for something else changes the name of the thread. -/
theorem C120_refuted_name :
    (lines (logOf [.poke 100 (chars ['a']), .name 1 100, .poke 100 (chars ['b']), .msg 1 .info (chars ['x']) [] aTime])).map readEntry =
      [some (entry aTime .info (chars ['b']) (chars ['x']))] ∧
    (expected View.init [.poke 100 (chars ['a']), .name 1 100, .poke 100 (chars ['b']), .msg 1 .info (chars ['x']) [] aTime]) =
      [entry aTime .info (chars ['a']) (chars ['x'])] := by
  decide +kernel

/-- **C120 is false for all calls of log_err** that write anything: the text ends with two newlines, that is with an empty line. -/
theorem C120_refuted_err {w : World} {v : View} (h : Match w v) (thr : Nat) (e : Int) (text fmt m : List UInt8) (args : List Arg) (t : Clock) (hm : printf .text fmt args = .ok (m, []))
    (hl : Logger.Level.error.num ≤ v.level) : ∃ w' r, step w (.err thr e text fmt args t) = .ok w' ∧ w'.out = w.out ++ r ++ [10, 10] := by
  have := log_fmt_eq h thr .error _ _ t _ (printf_err fmt m text [10] args e hm (by decide))
  rw [if_pos hl] at this
  exact ⟨_, stamp t ++ levelName .error ++ [32] ++ v.thread thr ++ [32] ++ (m ++ [32, 40] ++ intText e ++ [58, 32] ++ text ++ [41]), this, by simp [line]⟩

/-- **C120 is false for all names whose buffer is used again**: the entry has what stands in the buffer when the message is written. -/
theorem C120_refuted_name_all (w : World) (thr p : Nat) (a b : List UInt8) (l : Level) (fmt m : List UInt8) (args : List Arg) (t : Clock) (hm : printf .text fmt args = .ok (m, []))
    (hl : l.num ≤ w.log_level) : ∃ w', run w [.poke p a, .name thr p, .poke p b, .msg thr l fmt args t] = .ok w' ∧ w'.out = w.out ++ line t l b m := by
  simp only [run, step, Res.bind]
  unfold log_fmt Logger.written
  rw [if_pos (by simpa using hl)]
  simp only [if_true]
  rw [printf_line_name t l b fmt m args hm]
  exact ⟨_, rfl, rfl⟩

/-- The two apply to a program that has just started. -/
example : (∃ w' r, step init (.err 1 2 (chars ['E']) (chars ['b', 'a', 'd']) [] aTime) = .ok w' ∧ w'.out = init.out ++ r ++ [10, 10]) ∧
    ∃ w', run init [.poke 100 (chars ['a']), .name 1 100, .poke 100 (chars ['b']), .msg 1 .info (chars ['x']) [] aTime] = .ok w' ∧ w'.out = init.out ++ line aTime .info (chars ['b']) (chars ['x']) :=
  ⟨C120_refuted_err match_init 1 2 _ _ (chars ['b', 'a', 'd']) [] aTime (by decide +kernel) (by decide), C120_refuted_name_all init 1 100 _ _ .info _ (chars ['x']) [] aTime (by decide +kernel) (by decide)⟩

/-! C121 -/

/-- **C121.**  Two messages, of any threads, levels and texts: the lines begin with 23 bytes whose order as text is that of the times they were
logged at (to the millisecond), so that sorting lines sorts them by time. -/
theorem C121_sorted (w1 w1' w2 w2' : World) (thr1 thr2 : Nat) (l1 l2 : Level) (fmt1 fmt2 : List UInt8) (args1 args2 : List Arg) (t1 t2 : Clock)
    (h1 : log_fmt w1 thr1 l1 fmt1 args1 t1 = .ok w1') (h2 : log_fmt w2 thr2 l2 fmt2 args2 t2 = .ok w2')
    (e1 : l1.num ≤ w1.log_level) (e2 : l2.num ≤ w2.log_level) (v1 : t1.Valid) (v2 : t2.Valid) :
    ∃ a b, w1'.out = w1.out ++ a ∧ w2'.out = w2.out ++ b ∧ (a.take 23 < b.take 23 ↔ Before t1 t2) ∧ (Before t1 t2 → a < b) ∧
      (a.take 23 = b.take 23 ↔ ¬ Before t1 t2 ∧ ¬ Before t2 t1) := by
  obtain ⟨r1, o1⟩ := log_fmt_out w1 w1' thr1 l1 fmt1 args1 t1 e1 h1
  obtain ⟨r2, o2⟩ := log_fmt_out w2 w2' thr2 l2 fmt2 args2 t2 e2 h2
  have k1 : (stamp t1 ++ r1).take 23 = core t1 := by
    rw [stamp_core t1 v1, List.append_assoc, List.take_append_of_le_length (by rw [core_length]; omega), List.take_of_length_le (by rw [core_length]; omega)]
  have k2 : (stamp t2 ++ r2).take 23 = core t2 := by
    rw [stamp_core t2 v2, List.append_assoc, List.take_append_of_le_length (by rw [core_length]; omega), List.take_of_length_le (by rw [core_length]; omega)]
  refine ⟨_, _, o1, o2, ?_, ?_, ?_⟩
  · rw [k1, k2, core_lt t1 t2 v1 v2]
  · intro hb
    rw [stamp_core t1 v1, stamp_core t2 v2, List.append_assoc, List.append_assoc,
      lex_append _ _ _ _ (by rw [core_length, core_length])]
    exact Or.inl ((core_lt t1 t2 v1 v2).mpr hb)
  · rw [k1, k2, ← core_lt t1 t2 v1 v2, ← core_lt t2 t1 v2 v1]
    constructor
    · intro e; rw [e]; exact ⟨List.lt_irrefl _, List.lt_irrefl _⟩
    · rintro ⟨p, q⟩
      exact List.le_antisymm (List.not_lt.mp q) (List.not_lt.mp p)

example : Before aTime { aTime with tv_usec := 679000 } ∧ ¬ Before aTime { aTime with tv_usec := 678000 } ∧ aTime.Valid ∧
    Clock.Valid { aTime with tv_usec := 679000 } := by
  refine ⟨?_, ?_, by decide, by decide⟩ <;> unfold Before <;> decide

/-- The limit to four digits is needed: the year 10000 comes before the year 9999. -/
theorem C121_refuted_year : stamp { aTime with tm_year := 8100 } < stamp { aTime with tm_year := 8099 } := by
  decide +kernel

theorem dec_step (n : Nat) (h : 10 ≤ n) (c : UInt8) (r : List UInt8) (e : dec (n / 10) = c :: r) : ∃ r', dec n = c :: r' ∧ r'.length = r.length + 1 := by
  rw [dec, if_neg (by omega), e]
  exact ⟨_, rfl, by simp⟩

theorem dec_head (k : Nat) : ∀ (n : Nat), n / 10 ^ k ≠ 0 → n / 10 ^ k < 10 → ∃ r, dec n = UInt8.ofNat (48 + n / 10 ^ k) :: r ∧ r.length = k := by
  induction k with
  | zero =>
    intro n _ h
    rw [Nat.pow_zero, Nat.div_one] at h ⊢
    rw [dec, if_pos h]
    exact ⟨[], rfl, rfl⟩
  | succ k ih =>
    intro n h1 h2
    have e : n / 10 ^ (k + 1) = n / 10 / 10 ^ k := by rw [Nat.pow_succ, Nat.mul_comm, Nat.div_div_eq_div_mul]
    rw [e] at h1 h2 ⊢
    obtain ⟨r, hr, hl⟩ := ih (n / 10) h1 h2
    obtain ⟨r', e1, e2⟩ := dec_step n (by
      apply Classical.byContradiction
      intro hn
      have : n / 10 = 0 := by omega
      rw [this, Nat.zero_div] at h1
      exact h1 rfl) _ r hr
    exact ⟨r', e1, by omega⟩

theorem stamp_head (t : Clock) (c : UInt8) (r : List UInt8) (h0 : 0 ≤ t.tm_year + 1900) (h1 : t.tm_year + 1900 < 4294967296) (h : dec (t.tm_year + 1900).toNat = c :: r) (hl : 3 ≤ r.length) :
    ∃ r', stamp t = c :: r' := by
  unfold stamp
  rw [u32_nonneg _ h0 h1, h]
  have : field true 4 (c :: r) = c :: r := by
    unfold field
    rw [show 4 - (c :: r).length = 0 by rw [List.length_cons]; omega]
    simp
  rw [this]
  simp only [List.cons_append]
  exact ⟨_, rfl⟩

/-- **C121 is false for all years from 10000 to 19999**: what is logged then sorts before everything that is logged in the years from 2000 to 9999. -/
theorem C121_refuted_all (t1 t2 : Clock) (h1 : 10000 ≤ t1.tm_year + 1900 ∧ t1.tm_year + 1900 ≤ 19999) (h2 : 2000 ≤ t2.tm_year + 1900 ∧ t2.tm_year + 1900 ≤ 9999) :
    Before t2 t1 ∧ stamp t1 < stamp t2 := by
  refine ⟨by unfold Before; omega, ?_⟩
  have d1 : (t1.tm_year + 1900).toNat / 10 ^ 4 = 1 := by rw [show 10 ^ 4 = 10000 by decide]; omega
  have d2 : 2 ≤ (t2.tm_year + 1900).toNat / 10 ^ 3 ∧ (t2.tm_year + 1900).toNat / 10 ^ 3 ≤ 9 := by rw [show 10 ^ 3 = 1000 by decide]; omega
  obtain ⟨r1, e1, l1⟩ := dec_head 4 (t1.tm_year + 1900).toNat (by omega) (by omega)
  obtain ⟨r2, e2, l2⟩ := dec_head 3 (t2.tm_year + 1900).toNat (by omega) (by omega)
  obtain ⟨s1, g1⟩ := stamp_head t1 _ r1 (by omega) (by omega) e1 (by omega)
  obtain ⟨s2, g2⟩ := stamp_head t2 _ r2 (by omega) (by omega) e2 (by omega)
  rw [g1, g2, d1]
  apply List.Lex.rel
  rw [UInt8.lt_iff_toNat_lt, UInt8.toNat_ofNat', UInt8.toNat_ofNat']
  omega

example : Before { aTime with tm_year := 8099 } { aTime with tm_year := 8100 } ∧ stamp { aTime with tm_year := 8100 } < stamp { aTime with tm_year := 8099 } :=
  C121_refuted_all { aTime with tm_year := 8100 } { aTime with tm_year := 8099 } (by decide) (by decide)

/-! C122 -/

/-- **C122.**  `what()` of a coda_error gives the text of its format and arguments, as far as it fits into 4095 bytes; whatever was in its memory
before. -/
theorem C122_what_partial (garbage fmt : List UInt8) (args : List Arg) (m : List UInt8) (hg : garbage.length = 4096)
    (h : printf .text fmt args = .ok (m, [])) (hm : 0 ∉ m) :
    ∃ msg, coda_error garbage fmt args = .ok msg ∧ msg.length = 4096 ∧ what msg = .ok (m.take 4095) := by
  refine ⟨_, by rw [coda_error, vsnprintf, h]; rfl, ?_, ?_⟩
  · simp only [CODA_ERROR_BUFSZ, List.length_append, List.length_take, List.length_drop, List.length_singleton, hg]
    omega
  · rw [what, List.append_assoc]
    exact cstr_nul _ _ (fun c => hm (List.mem_of_mem_take c))

/-- With coda_errno: the message, the error number and its text, when they fit. -/
theorem C122_errno_partial (garbage fmt text : List UInt8) (e : Int) (args : List Arg) (m : List UInt8) (hg : garbage.length = 4096)
    (h : printf .text fmt args = .ok (m, [])) (hm : 0 ∉ m) (ht : 0 ∉ text) :
    ∃ msg, coda_errno garbage e text fmt args = .ok msg ∧
      what msg = .ok ((m ++ [32, 40] ++ intText e ++ [58, 32] ++ text ++ [41]).take 4095) := by
  have hp := printf_err fmt m text [] args e h (by simp)
  rw [List.append_nil, List.append_nil] at hp
  have hn : 0 ∉ m ++ [32, 40] ++ intText e ++ [58, 32] ++ text ++ [41] := by
    have hit : 0 ∉ intText e := by
      unfold intText
      by_cases h0 : 0 ≤ e
      · rw [if_pos h0]; exact not_digit (dec_mem _) (by decide)
      · rw [if_neg h0]
        simp only [List.mem_cons, not_or]
        exact ⟨by decide, not_digit (dec_mem _) (by decide)⟩
    simp only [List.mem_append, not_or]
    exact ⟨⟨⟨⟨⟨hm, by decide⟩, hit⟩, by decide⟩, ht⟩, by decide⟩
  obtain ⟨msg, h1, _, h3⟩ := C122_what_partial garbage _ _ _ hg hp hn
  exact ⟨msg, h1, h3⟩

example : ∃ msg, coda_errno (List.replicate 4096 170) (-2) (chars ['E']) (chars ['o', 'p', 'e', 'n', ' ', '%', 's']) [.str (chars ['f'])] = .ok msg ∧
    what msg = .ok (chars ['o', 'p', 'e', 'n', ' ', 'f', ' ', '(', '-', '2', ':', ' ', 'E', ')']) := by
  exact ⟨_, rfl, by decide +kernel⟩

/-- **C122 is false for long messages**: the error number comes last, and is lost: two exceptions for different errors have the same text. -/
theorem C122_refuted (garbage text1 text2 : List UInt8) (e1 e2 : Int) (m : List UInt8) (hg : garbage.length = 4096) (hm : 0 ∉ m)
    (h1 : 0 ∉ text1) (h2 : 0 ∉ text2) (hl : 4095 ≤ m.length) :
    ∃ a b, coda_errno garbage e1 text1 [37, 115] [.str m] = .ok a ∧ coda_errno garbage e2 text2 [37, 115] [.str m] = .ok b ∧ what a = what b := by
  have hp : printf .text [37, 115] [.str m] = .ok (m, []) := by
    rw [printf, if_pos rfl, printf, if_neg (by decide), if_neg (by decide), if_neg (by decide), if_neg (by decide)]
    simp only [convNext, conv]
    rw [if_pos trivial, field_zero]
    simp [map_ok, Res.bind, printf]
  obtain ⟨a, a1, a2⟩ := C122_errno_partial garbage [37, 115] text1 e1 [.str m] m hg hp hm h1
  obtain ⟨b, b1, b2⟩ := C122_errno_partial garbage [37, 115] text2 e2 [.str m] m hg hp hm h2
  refine ⟨a, b, a1, b1, ?_⟩
  rw [a2, b2]
  simp only [List.append_assoc]
  rw [List.take_append_of_le_length hl, List.take_append_of_le_length hl]

/-- The library part: `printf("%5s|%05d|%3u%%", "ab", -42, 7)` writes `   ab|-0042|  7%`. -/
example : printf .text [37, 53, 115, 124, 37, 48, 53, 100, 124, 37, 51, 117, 37, 37] [.str [97, 98], .int (-42), .uint 7] =
    .ok ([32, 32, 32, 97, 98, 124, 45, 48, 48, 52, 50, 124, 32, 32, 55, 37], []) := by decide +kernel

end Verif.LogText
