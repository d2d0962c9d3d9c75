/-
  C143: what coda_getopt_parse makes of a command line.  C144: what a second call makes of it.
-/
import Verif.GetOpt.Lemmas

namespace Verif.GetOpt

open Spec

theorem first_call (posix : Bool) (prog : Word) (R : List Word) :
    getopt_long posix { G.start with argv := prog :: R } = getopt_long posix (mk posix [prog] [] [] R none) := by
  unfold getopt_long mk setUp G.start
  simp

theorem parse_start (posix : Bool) (prog : Word) (R : List Word) :
    coda_getopt_parse posix .start (prog :: R) = loop posix (rounds (prog :: R)) (mk posix [prog] [] [] R none) .clear :=
  loop_congr _ _ _ _ _ (first_call posix prog R)

theorem rounds_ge (prog : Word) (is : List Item) (ws : List Word) : ∃ m, rounds (prog :: (words is ++ ws)) = m + 1 + weight ws + (opts is).length := by
  have h1 := items_weight is
  have h2 : rounds (prog :: (words is ++ ws)) = weight (prog :: (words is ++ ws)) + 1 := rfl
  have h3 : weight (prog :: (words is ++ ws)) = prog.length + 1 + (weight (words is) + weight ws) := by
    rw [← weight_app]; simp [weight]
  exact ⟨rounds (prog :: (words is ++ ws)) - (opts is).length - weight ws - 1, by omega⟩

/-- C143: a command line of items in any order, however they are written, and perhaps "--" and any words, is accepted; of several options of a kind the last one counts,
what was not given is NULL or 0, and behind `optind` are the operands in their order, in front of it the words of the options. -/
theorem C143_accepts (prog : Word) (is : List Item) (t : Tail) (hv : ∀ i ∈ is, i.valid) :
    ∃ g, coda_getopt_parse false .start (prog :: (words is ++ t.words)) = some (0, ⟨configOf (opts is), pidOf (opts is), daemonOf (opts is)⟩, g) ∧
      g.argv.take g.optind = prog :: (optionWords is ++ t.mark) ∧ g.argv.drop g.optind = operands is ++ t.operands := by
  obtain ⟨m, hm⟩ := rounds_ge prog is t.words
  rw [parse_start, hm]
  obtain ⟨A, O, x, hA, hw, hl⟩ := items_loop false t.words (m + 1 + weight t.words) is [prog] [] [] none .clear (by simp) hv
  rw [hl, fold_clear]
  have e : m + 1 + weight t.words = m + weight t.words + 1 := by omega
  rw [e]
  cases t with
  | nothing =>
    refine ⟨_, loop_end false _ _ _ _ (get_end false A _ O x hA), ?_, ?_⟩
    · show ((A ++ O) ++ _).take (A ++ O).length = _
      rw [take_app, hw]
      simp [Tail.mark]
    · show ((A ++ O) ++ _).drop (A ++ O).length = _
      rw [drop_app]
      simp [Tail.operands]
  | dashes ws =>
    refine ⟨_, loop_end false _ _ _ _ (get_dashes false A _ O ws x hA), ?_, ?_⟩
    · show ((A ++ O ++ [[45, 45]]) ++ _).take (A ++ O ++ [[45, 45]]).length = _
      rw [take_app, hw]
      simp [Tail.mark]
    · show ((A ++ O ++ [[45, 45]]) ++ _).drop (A ++ O ++ [[45, 45]]).length = _
      rw [drop_app]
      simp [Tail.operands]

/-- C143: at the first mistake the call returns -1; the options in front of it have been taken. -/
theorem C143_rejects (prog : Word) (is : List Item) (ws : List Word) (fs : List Flag) (hv : ∀ i ∈ is, i.valid) (hm : Mistake ws fs) :
    ∃ g, coda_getopt_parse false .start (prog :: (words is ++ ws)) =
      some (-1, ⟨configOf (opts is ++ fs.map .flag), pidOf (opts is ++ fs.map .flag), daemonOf (opts is ++ fs.map .flag)⟩, g) := by
  obtain ⟨m, hm'⟩ := rounds_ge prog is ws
  rw [parse_start, hm']
  obtain ⟨A, O, x, hA, hw, hl⟩ := items_loop false ws (m + 1 + weight ws) is [prog] [] [] none .clear (by simp) hv
  rw [hl]
  obtain ⟨w, rest, e, hn, hd⟩ := mistake_head ws fs hm
  have hg := get_opt false A ([] ++ operands is) O ws [] w rest x hA e hn hd
  rw [List.append_nil] at hg
  have hwt := mistake_weight ws fs hm
  obtain ⟨g', hg'⟩ := mistake_loop false false _ _ _ ws fs hm (by simp [hA]) (m + (weight ws - fs.length)) _ ((opts is).foldl applyOpt .clear) hg
  have e : m + 1 + weight ws = m + (weight ws - fs.length) + 1 + fs.length := by omega
  rw [e, hg', ← List.foldl_append, fold_clear]
  exact ⟨g', rfl⟩

theorem split_flags (cs : Word) : ∃ (fs : List Flag) (rest : Word), cs = fs.map Flag.letter ++ rest ∧
    (rest = [] ∨ (∃ k v, rest = Kind.letter k :: v) ∨ ∃ c v, rest = c :: v ∧ c ∉ [99, 112, 100, 68]) := by
  induction cs with
  | nil => exact ⟨[], [], rfl, .inl rfl⟩
  | cons c cs ih =>
    by_cases h1 : c = 100
    · obtain ⟨fs, rest, e, h⟩ := ih
      exact ⟨.daemon :: fs, rest, by rw [e, h1]; rfl, h⟩
    · by_cases h2 : c = 68
      · obtain ⟨fs, rest, e, h⟩ := ih
        exact ⟨.noDaemon :: fs, rest, by rw [e, h2]; rfl, h⟩
      · by_cases h3 : c = 99
        · exact ⟨[], c :: cs, rfl, .inr (.inl ⟨.config, cs, by rw [h3]; rfl⟩)⟩
        · by_cases h4 : c = 112
          · exact ⟨[], c :: cs, rfl, .inr (.inl ⟨.pid, cs, by rw [h4]; rfl⟩)⟩
          · exact ⟨[], c :: cs, rfl, .inr (.inr ⟨c, cs, rfl, by simp [h1, h2, h3, h4]⟩)⟩

theorem split_eq (w : Word) : ∃ n, 61 ∉ n ∧ (w = n ∨ ∃ v, w = n ++ 61 :: v) := by
  induction w with
  | nil => exact ⟨[], by simp, .inl rfl⟩
  | cons c w ih =>
    by_cases h : c = 61
    · exact ⟨[], by simp, .inr ⟨w, by rw [h]; rfl⟩⟩
    · obtain ⟨n, hn, e⟩ := ih
      refine ⟨c :: n, by simp [Ne.symm h, hn], ?_⟩
      rcases e with rfl | ⟨v, rfl⟩
      · exact .inl rfl
      · exact .inr ⟨v, rfl⟩

/-- A word and those behind it: an item, the end, or a mistake. -/
theorem head_cases (w : Word) (R : List Word) : (∃ (it : Item) (R' : List Word), it.valid ∧ w :: R = it.words ++ R' ∧ R'.length ≤ R.length) ∨ w = [45, 45] ∨ ∃ fs, Mistake (w :: R) fs := by
  match w with
  | [] => exact .inl ⟨.operand [], R, .inr (by simp), rfl, Nat.le_refl _⟩
  | [c] =>
    refine .inl ⟨.operand [c], R, ?_, rfl, Nat.le_refl _⟩
    by_cases h : c = 45
    · exact .inl (by rw [h])
    · exact .inr (by simpa using h)
  | a :: c :: cs =>
    by_cases ha : a = 45
    · subst ha
      by_cases hc : c = 45
      · subst hc
        by_cases hcs : cs = []
        · subst hcs; exact .inr (.inl rfl)
        · obtain ⟨n, h61, hn⟩ := split_eq cs
          by_cases hk : ∃ k : Kind, Abbrev n k.name
          · obtain ⟨k, hk⟩ := hk
            rcases hn with rfl | ⟨v, rfl⟩
            · cases R with
              | nil => exact .inr (.inr ⟨[], .noLongArg k cs hk⟩)
              | cons v R => exact .inl ⟨.longSep k cs v, R, hk, rfl, by simp⟩
            · exact .inl ⟨.longEq k n v, R, hk, rfl, Nat.le_refl _⟩
          · by_cases hf : ∃ f : Flag, Abbrev n f.name
            · obtain ⟨f, hf⟩ := hf
              rcases hn with rfl | ⟨v, rfl⟩
              · exact .inl ⟨.long f cs, R, hf, rfl, Nat.le_refl _⟩
              · exact .inr (.inr ⟨[], .extra f n v R hf⟩)
            · exact .inr (.inr ⟨[], .name cs n R hcs hn h61 ⟨fun k h => hk ⟨k, h⟩, fun f h => hf ⟨f, h⟩⟩⟩)
      · obtain ⟨fs, rest, e, h⟩ := split_flags (c :: cs)
        rw [e]
        rcases h with rfl | ⟨k, v, rfl⟩ | ⟨d, v, rfl, hd⟩
        · cases fs with
          | nil => exact absurd e (by simp)
          | cons f fs => exact .inl ⟨.letters f fs, R, trivial, by simp [Item.words], Nat.le_refl _⟩
        · by_cases hv : v = []
          · subst hv
            cases R with
            | nil => exact .inr (.inr ⟨fs, .noArg fs k⟩)
            | cons v R => exact .inl ⟨.separate fs k v, R, trivial, rfl, by simp⟩
          · exact .inl ⟨.attached fs k v, R, hv, rfl, Nat.le_refl _⟩
        · refine .inr (.inr ⟨fs, .letter fs d v R hd ?_⟩)
          rintro rfl
          simp only [List.map_nil, List.nil_append, List.cons.injEq] at e
          rw [← e.1]; exact hc
    · exact .inl ⟨.operand (a :: c :: cs), R, .inr (by simpa using ha), rfl, Nat.le_refl _⟩

/-- C143: every command line is one of those of `C143_accepts` or of those of `C143_rejects`. -/
theorem C143_complete (ws : List Word) : ∃ is : List Item, (∀ i ∈ is, i.valid) ∧
    ((∃ t : Tail, ws = words is ++ t.words) ∨ ∃ rest fs, Mistake rest fs ∧ ws = words is ++ rest) := by
  induction h : ws.length using Nat.strongRecOn generalizing ws with
  | ind n ih =>
    cases ws with
    | nil => exact ⟨[], by simp, .inl ⟨.nothing, rfl⟩⟩
    | cons w R =>
      rcases head_cases w R with ⟨it, R', hv, e, hl⟩ | rfl | ⟨fs, hm⟩
      · obtain ⟨is, his, hr⟩ := ih R'.length (by rw [← h]; simp only [List.length_cons]; omega) R' rfl
        refine ⟨it :: is, ?_, ?_⟩
        · intro i hi
          rcases List.mem_cons.mp hi with rfl | hi
          · exact hv
          · exact his i hi
        · have ew : words (it :: is) = it.words ++ words is := rfl
          rcases hr with ⟨t, e'⟩ | ⟨rest, fs, hm, e'⟩
          · exact .inl ⟨t, by rw [e, e', ew, List.append_assoc]⟩
          · exact .inr ⟨rest, fs, hm, by rw [e, e', ew, List.append_assoc]⟩
      · exact ⟨[], by simp, .inl ⟨.dashes R, rfl⟩⟩
      · exact ⟨[], by simp, .inr ⟨_, fs, hm, rfl⟩⟩

/-- C143: the call returns -1 if and only if there is a mistake in front of the end of the options, and 0 otherwise. -/
theorem C143_returns (prog : Word) (ws : List Word) : ∃ r s g, coda_getopt_parse false .start (prog :: ws) = some (r, s, g) ∧ (r = 0 ∨ r = -1) ∧
    (r = -1 ↔ ∃ is rest fs, (∀ i ∈ is, Item.valid i) ∧ Mistake rest fs ∧ ws = words is ++ rest) := by
  obtain ⟨is, hv, ⟨t, e⟩ | ⟨rest, fs, hm, e⟩⟩ := C143_complete ws
  · subst e
    obtain ⟨g, h, _⟩ := C143_accepts prog is t hv
    refine ⟨0, _, g, h, .inl rfl, ⟨fun e => absurd e (by decide), ?_⟩⟩
    rintro ⟨is', rest, fs, hv', hm, e⟩
    obtain ⟨g', h'⟩ := C143_rejects prog is' rest fs hv' hm
    rw [e, h'] at h
    exact absurd (congrArg Prod.fst (Option.some.inj h)) (by simp)
  · subst e
    obtain ⟨g, h⟩ := C143_rejects prog is rest fs hv hm
    exact ⟨-1, _, g, h, .inr rfl, fun _ => ⟨is, rest, fs, hv, hm, rfl⟩, fun _ => rfl⟩

/-- C143: with POSIXLY_CORRECT the options end at the first operand. -/
theorem C143_posix (prog : Word) (is : List Item) (rest : List Word) (hv : ∀ i ∈ is, i.valid ∧ i.isOperand = false) (hr : ∀ w ∈ rest.head?, plain w) :
    ∃ g, coda_getopt_parse true .start (prog :: (words is ++ rest)) = some (0, ⟨configOf (opts is), pidOf (opts is), daemonOf (opts is)⟩, g) ∧
      g.argv.take g.optind = prog :: words is ∧ g.argv.drop g.optind = rest := by
  obtain ⟨m, hm⟩ := rounds_ge prog is rest
  rw [parse_start, hm]
  obtain ⟨x, hl⟩ := items_loop_ord true [prog] rest (m + 1 + weight rest) (by simp) is [] none .clear hv
  rw [hl, fold_clear]
  have e : m + 1 + weight rest = m + weight rest + 1 := by omega
  rw [e]
  obtain ⟨g, hg, h1, h2⟩ := get_stop_ord true [prog] ([] ++ words is) rest x (by simp) hr
  refine ⟨g, loop_end true _ _ _ _ hg, ?_, ?_⟩
  · rw [h1, h2, take_app]; simp
  · rw [h1, h2, drop_app]

theorem C143_posix_dashes (prog : Word) (is : List Item) (rest : List Word) (hv : ∀ i ∈ is, i.valid ∧ i.isOperand = false) :
    ∃ g, coda_getopt_parse true .start (prog :: (words is ++ [45, 45] :: rest)) = some (0, ⟨configOf (opts is), pidOf (opts is), daemonOf (opts is)⟩, g) ∧
      g.argv.take g.optind = prog :: (words is ++ [[45, 45]]) ∧ g.argv.drop g.optind = rest := by
  obtain ⟨m, hm⟩ := rounds_ge prog is ([45, 45] :: rest)
  rw [parse_start, hm]
  obtain ⟨x, hl⟩ := items_loop_ord true [prog] ([45, 45] :: rest) (m + 1 + weight ([45, 45] :: rest)) (by simp) is [] none .clear hv
  rw [hl, fold_clear]
  have e : m + 1 + weight ([45, 45] :: rest) = m + weight ([45, 45] :: rest) + 1 := by omega
  rw [e]
  refine ⟨_, loop_end true _ _ _ _ (get_dashes_ord true [prog] _ rest x (by simp)), ?_, ?_⟩
  · show (([prog] ++ ([] ++ words is) ++ [[45, 45]]) ++ rest).take ([prog] ++ ([] ++ words is) ++ [[45, 45]]).length = _
    rw [take_app]; simp
  · show (([prog] ++ ([] ++ words is) ++ [[45, 45]]) ++ rest).drop ([prog] ++ ([] ++ words is) ++ [[45, 45]]).length = _
    rw [drop_app]

theorem C143_posix_rejects (prog : Word) (is : List Item) (ws : List Word) (fs : List Flag) (hv : ∀ i ∈ is, i.valid ∧ i.isOperand = false) (hm : Mistake ws fs) :
    ∃ g, coda_getopt_parse true .start (prog :: (words is ++ ws)) =
      some (-1, ⟨configOf (opts is ++ fs.map .flag), pidOf (opts is ++ fs.map .flag), daemonOf (opts is ++ fs.map .flag)⟩, g) := by
  obtain ⟨m, hm'⟩ := rounds_ge prog is ws
  rw [parse_start, hm']
  obtain ⟨x, hl⟩ := items_loop_ord true [prog] ws (m + 1 + weight ws) (by simp) is [] none .clear hv
  rw [hl]
  obtain ⟨w, rest, e, hn, hd⟩ := mistake_head ws fs hm
  have hg := get_opt_ord true [prog] ([] ++ words is) ws [] w rest x (by simp) e hd
  rw [List.append_nil] at hg
  have hwt := mistake_weight ws fs hm
  obtain ⟨g', hg'⟩ := mistake_loop true true _ _ _ ws fs hm (by simp) (m + (weight ws - fs.length)) _ ((opts is).foldl applyOpt .clear) hg
  have e : m + 1 + weight ws = m + (weight ws - fs.length) + 1 + fs.length := by omega
  rw [e, hg', ← List.foldl_append, fold_clear]
  exact ⟨g', rfl⟩

/-- `prog a -dc x --pid=y - --con z -- -q` -/
example : ∃ g, coda_getopt_parse false .start [[112], [97], [45, 100, 99], [120], [45, 45, 112, 105, 100, 61, 121], [45], [45, 45, 99, 111, 110], [122], [45, 45], [45, 113]] =
    some (0, ⟨some [122], some [121], true⟩, g) ∧ g.argv.drop g.optind = [[97], [45], [45, 113]] := ⟨_, rfl, rfl⟩

example : ∃ is : List Item, (∀ i ∈ is, i.valid) ∧ is.length = 4 ∧ configOf (opts is) = some [122] := by
  refine ⟨[.operand [97], .separate [.daemon] .config [120], .longEq .pid [112, 105, 100] [121], .longSep .config [99, 111, 110] [122]], ?_, rfl, by decide⟩
  intro i hi
  simp only [List.mem_cons, List.not_mem_nil, or_false] at hi
  rcases hi with rfl | rfl | rfl | rfl
  · exact .inr (by decide)
  · trivial
  · exact ⟨by decide, by decide⟩
  · exact ⟨by decide, ⟨[102, 105, 103], rfl⟩⟩

/-- `-dx`: a mistake behind a letter that is right. -/
example : Mistake [[45, 100, 120], [97]] [.daemon] := .letter [.daemon] 120 [] [[97]] (by decide) (by simp)

theorem setUp_done (posix : Bool) (A P : List Word) (hA : A ≠ []) :
    getopt_long posix (done false A P) = getopt_long posix (mk false A [] [] P none) := by
  rw [get_mk _ _ _ _ _ _ hA]
  have e : clamp (done false A P) = mk false A [] [] P none := by
    unfold clamp done mk; simp
  unfold getopt_long
  rw [if_neg (by unfold done; simp [hA])]
  have e1 : setUp posix { done false A P with optarg := none } = done false A P := by
    unfold setUp done; simp [hA]
  rw [e1]
  have e2 : (done false A P).next = [] := rfl
  have e3 : advance (done false A P) = gather (clamp (done false A P)) := rfl
  simp only [e2, if_true, e3, e, gather_mk]

/-- C144: a second call with the same arguments does not read the options again: it takes for its command line what were the operands of the first call. -/
theorem C144_again_partial (prog : Word) (is : List Item) (t : Tail) (hv : ∀ i ∈ is, i.valid) (is2 : List Item) (t2 : Tail) (hv2 : ∀ i ∈ is2, i.valid)
    (e : operands is ++ t.operands = words is2 ++ t2.words) :
    ∃ g g', coda_getopt_parse false .start (prog :: (words is ++ t.words)) = some (0, ⟨configOf (opts is), pidOf (opts is), daemonOf (opts is)⟩, g) ∧
      coda_getopt_parse false g g.argv = some (0, ⟨configOf (opts is2), pidOf (opts is2), daemonOf (opts is2)⟩, g') := by
  obtain ⟨m, hm⟩ := rounds_ge prog is t.words
  rw [parse_start, hm]
  obtain ⟨A, O, x, hA, hw, hl⟩ := items_loop false t.words (m + 1 + weight t.words) is [prog] [] [] none .clear (by simp) hv
  rw [hl, fold_clear]
  have en : m + 1 + weight t.words = m + weight t.words + 1 := by omega
  rw [en]
  obtain ⟨A', hA', hd⟩ : ∃ A', A' ≠ [] ∧ getopt_long false (mk false A ([] ++ operands is) O t.words x) = (-1, done false A' (words is2 ++ t2.words)) := by
    cases t with
    | nothing =>
      refine ⟨A ++ O, by simp [hA], ?_⟩
      rw [← e]
      simpa [Tail.operands, Tail.words] using get_end false A (operands is) O x hA
    | dashes ws =>
      refine ⟨A ++ O ++ [[45, 45]], by simp, ?_⟩
      rw [← e]
      exact get_dashes false A (operands is) O ws x hA
  have h2 : ∃ g', coda_getopt_parse false (done false A' (words is2 ++ t2.words)) (done false A' (words is2 ++ t2.words)).argv =
      some (0, ⟨configOf (opts is2), pidOf (opts is2), daemonOf (opts is2)⟩, g') := by
    have hc : coda_getopt_parse false (done false A' (words is2 ++ t2.words)) (done false A' (words is2 ++ t2.words)).argv =
        loop false (rounds (A' ++ (words is2 ++ t2.words))) (mk false A' [] [] (words is2 ++ t2.words) none) .clear :=
      loop_congr _ _ _ _ _ (setUp_done false A' _ hA')
    rw [hc]
    have hr : rounds (A' ++ (words is2 ++ t2.words)) = (weight A' + (weight (words is2) - (opts is2).length) + weight t2.words) + 1 + (opts is2).length := by
      have h1 := items_weight is2
      have : rounds (A' ++ (words is2 ++ t2.words)) = weight (A' ++ (words is2 ++ t2.words)) + 1 := rfl
      rw [this, weight_app, weight_app]
      omega
    rw [hr]
    obtain ⟨B, Q, y, hB, _, hl2⟩ := items_loop false t2.words (weight A' + (weight (words is2) - (opts is2).length) + weight t2.words + 1) is2 A' [] [] none .clear hA' hv2
    rw [hl2, fold_clear]
    cases t2 with
    | nothing => exact ⟨_, loop_end false _ _ _ _ (get_end false B _ Q y hB)⟩
    | dashes ws => exact ⟨_, loop_end false _ _ _ _ (get_dashes false B _ Q ws y hB)⟩
  obtain ⟨g', h2⟩ := h2
  exact ⟨_, g', loop_end false _ _ _ _ hd, h2⟩

/-- C144: if no operand looks like an option, the second call returns 0 and everything is cleared, whatever the options were. -/
theorem C144_refuted (prog : Word) (is : List Item) (hv : ∀ i ∈ is, i.valid) :
    ∃ g g', coda_getopt_parse false .start (prog :: words is) = some (0, ⟨configOf (opts is), pidOf (opts is), daemonOf (opts is)⟩, g) ∧ coda_getopt_parse false g g.argv = some (0, ⟨none, none, false⟩, g') := by
  have hop : ∀ js : List Item, words (js.filter Item.isOperand) = operands js ∧ opts (js.filter Item.isOperand) = [] := by
    intro js
    refine ⟨rfl, ?_⟩
    unfold opts
    rw [List.flatMap_eq_nil_iff]
    intro i hi
    have := (List.mem_filter.mp hi).2
    cases i <;> first | rfl | exact absurd this (by simp [Item.isOperand])
  obtain ⟨g, g', h1, h2⟩ := C144_again_partial prog is .nothing hv (is.filter Item.isOperand) .nothing
    (fun i hi => hv i (List.mem_filter.mp hi).1) (by simp [Tail.operands, Tail.words, (hop is).1])
  rw [(hop is).2] at h2
  refine ⟨g, g', ?_, ?_⟩
  · simpa [Tail.words] using h1
  · rw [h2]; rfl

/-- C144: `prog -c x`: the first call gives the configuration file, the second one does not. -/
example : ∃ g g', coda_getopt_parse false .start [[112], [45, 99], [120]] = some (0, ⟨some [120], none, false⟩, g) ∧
    coda_getopt_parse false g g.argv = some (0, ⟨none, none, false⟩, g') := ⟨_, _, rfl, rfl⟩

/-- C144: `prog -x -c y`: the first call fails, the second one succeeds. -/
theorem C144_retry_refuted : ∃ g g', coda_getopt_parse false .start [[112], [45, 120], [45, 99], [121]] = some (-1, ⟨none, none, false⟩, g) ∧
    coda_getopt_parse false g g.argv = some (0, ⟨some [121], none, false⟩, g') := ⟨_, _, rfl, rfl⟩

/-- C144: `prog -- -c y`: words behind "--" are options for the second call. -/
theorem C144_dashes_refuted : ∃ g g', coda_getopt_parse false .start [[112], [45, 45], [45, 99], [121]] = some (0, ⟨none, none, false⟩, g) ∧
    coda_getopt_parse false g g.argv = some (0, ⟨some [121], none, false⟩, g') := ⟨_, _, rfl, rfl⟩

end Verif.GetOpt
