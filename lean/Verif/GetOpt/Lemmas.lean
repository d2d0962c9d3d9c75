import Verif.GetOpt.Model
import Verif.GetOpt.Spec

namespace Verif.GetOpt

open Spec

/-- The state with the processed options `A`, the operands `P`, the options `O` behind them and the rest `R`. -/
def mk (ord : Bool) (A P O R : List Word) (x : Option Word) : G :=
  ⟨A ++ P ++ O ++ R, (A ++ P ++ O).length, [], A.length, (A ++ P).length, true, ord, x⟩

/-- The state in front of the next word of `R`, with the operands gathered. -/
def nf (ord : Bool) (f l : Nat) (B R : List Word) (x : Option Word) : G := ⟨B ++ R, B.length, [], f, l, true, ord, x⟩

theorem take_app {α : Type} (a b : List α) : (a ++ b).take a.length = a := by simp
theorem drop_app {α : Type} (a b : List α) : (a ++ b).drop a.length = b := by simp

theorem gather_mk (A P O R : List Word) (x : Option Word) :
    gather (mk false A P O R x) = nf false (A ++ O).length (A ++ O ++ P ++ R.takeWhile nonopt).length (A ++ O ++ P ++ R.takeWhile nonopt) (R.dropWhile nonopt) x := by
  have tw : R.takeWhile nonopt ++ R.dropWhile nonopt = R := List.takeWhile_append_dropWhile
  unfold gather mk nf
  by_cases hP : P = []
  · subst hP
    by_cases hO : O = []
    · subst hO
      simp [tw]
    · have h : ¬ A.length = A.length + O.length := by
        have := List.length_pos_iff.mpr hO
        omega
      simp [tw, hO]
      omega
  · by_cases hO : O = []
    · subst hO
      simp [tw, hP]
      omega
    · have hp := List.length_pos_iff.mpr hP
      have ho := List.length_pos_iff.mpr hO
      have e : exchange ⟨A ++ P ++ O ++ R, (A ++ P ++ O).length, [], A.length, (A ++ P).length, true, false, x⟩ =
          ⟨A ++ O ++ P ++ R, (A ++ P ++ O).length, [], A.length + O.length, (A ++ P ++ O).length, true, false, x⟩ := by
        unfold exchange
        have h1 : (A ++ P ++ O ++ R).take A.length = A := by rw [List.append_assoc, List.append_assoc, take_app]
        have h2 : ((A ++ P ++ O ++ R).drop (A ++ P).length).take ((A ++ P ++ O).length - (A ++ P).length) = O := by
          rw [List.append_assoc (A ++ P), drop_app]
          have : (A ++ P ++ O).length - (A ++ P).length = O.length := by simp only [List.length_append]; omega
          rw [this, take_app]
        have h3 : ((A ++ P ++ O ++ R).drop A.length).take ((A ++ P).length - A.length) = P := by
          rw [List.append_assoc A, List.append_assoc A, drop_app]
          have : (A ++ P).length - A.length = P.length := by simp only [List.length_append]; omega
          rw [this, List.append_assoc, take_app]
        have h4 : (A ++ P ++ O ++ R).drop (A ++ P ++ O).length = R := drop_app _ _
        have h5 : (A ++ P ++ O).length - (A ++ P).length = O.length := by simp only [List.length_append]; omega
        rw [h5] at h2
        simp only [h1, h2, h3, h4, h5]
      have c1 : (A.length ≠ (A ++ P).length ∧ (A ++ P).length ≠ (A ++ P ++ O).length) := by
        simp only [List.length_append]; omega
      simp only [if_pos c1, e]
      have h6 : (A ++ P ++ O).length = (A ++ O ++ P).length := by simp only [List.length_append]; omega
      simp only [h6, drop_app]
      rw [List.append_assoc (A ++ O ++ P), tw]
      simp [Nat.add_assoc]

theorem clamp_mk (ord : Bool) (A P O R : List Word) (x : Option Word) : clamp (mk ord A P O R x) = mk ord A P O R x := by
  unfold clamp mk
  have h1 : min (A ++ P).length (A ++ P ++ O).length = (A ++ P).length := by simp only [List.length_append]; omega
  have h2 : min A.length (A ++ P ++ O).length = A.length := by simp only [List.length_append]; omega
  simp only [h1, h2]

theorem setUp_mk (posix ord : Bool) (A P O R : List Word) (x : Option Word) (hA : A ≠ []) :
    setUp posix { mk ord A P O R x with optarg := none } = mk ord A P O R none := by
  unfold setUp mk
  have h := List.length_pos_iff.mpr hA
  have : ¬ ((A ++ P ++ O).length = 0 ∨ true = false) := by simp only [List.length_append]; simp [hA]
  simp only [if_neg this]

theorem argv_mk (ord : Bool) (A P O R : List Word) (x : Option Word) (hA : A ≠ []) : ¬ (mk ord A P O R x).argv = [] := by
  unfold mk; simp [hA]

/-- A call between two words. -/
theorem get_mk (posix : Bool) (A P O R : List Word) (x : Option Word) (hA : A ≠ []) :
    getopt_long posix (mk false A P O R x) =
      nextWord (dashes (nf false (A ++ O).length (A ++ O ++ P ++ R.takeWhile nonopt).length (A ++ O ++ P ++ R.takeWhile nonopt) (R.dropWhile nonopt) none)) := by
  unfold getopt_long
  rw [if_neg (argv_mk _ _ _ _ _ _ hA)]
  rw [setUp_mk _ _ _ _ _ _ _ hA]
  have : (mk false A P O R none).next = [] := rfl
  simp only [this, if_true]
  have : advance (mk false A P O R none) = gather (clamp (mk false A P O R none)) := rfl
  rw [this, clamp_mk, gather_mk]

theorem get_mk_ord (posix : Bool) (A P O R : List Word) (x : Option Word) (hA : A ≠ []) :
    getopt_long posix (mk true A P O R x) = nextWord (dashes (nf true A.length (A ++ P).length (A ++ P ++ O) R none)) := by
  unfold getopt_long
  rw [if_neg (argv_mk _ _ _ _ _ _ hA)]
  rw [setUp_mk _ _ _ _ _ _ _ hA]
  have : (mk true A P O R none).next = [] := rfl
  simp only [this, if_true]
  have : advance (mk true A P O R none) = clamp (mk true A P O R none) := rfl
  rw [this, clamp_mk]
  rfl

/-- An operand is passed over. -/
theorem get_operand (posix : Bool) (A P O R : List Word) (w : Word) (x y : Option Word) (hA : A ≠ []) (hw : nonopt w = true) :
    getopt_long posix (mk false A P O (w :: R) x) = getopt_long posix (mk false (A ++ O) (P ++ [w]) [] R y) := by
  rw [get_mk _ _ _ _ _ _ hA, get_mk _ _ _ _ _ _ (by simp [hA])]
  simp [hw]

theorem loop_congr (posix : Bool) (n : Nat) (g h : G) (s : Settings) (e : getopt_long posix g = getopt_long posix h) : loop posix n g s = loop posix n h s := by
  cases n with
  | zero => rfl
  | succ n => unfold loop; rw [e]

theorem nf_at (ord : Bool) (f l : Nat) (B R : List Word) (x : Option Word) : (nf ord f l B R x).argv[(nf ord f l B R x).optind]? = R.head? := by
  unfold nf
  cases R <;> simp

theorem nf_at1 (ord : Bool) (f l : Nat) (B R : List Word) (w : Word) (x : Option Word) :
    (nf ord f l B (w :: R) x).argv[(nf ord f l B (w :: R) x).optind + 1]? = R.head? := by
  unfold nf
  have : B ++ w :: R = (B ++ [w]) ++ R := by simp
  simp only
  rw [this]
  have : B.length + 1 = (B ++ [w]).length := by simp
  rw [this]
  cases R <;> simp

theorem dashes_no (ord : Bool) (f l : Nat) (B R : List Word) (x : Option Word) (h : R.head? ≠ some [45, 45]) : dashes (nf ord f l B R x) = nf ord f l B R x := by
  unfold dashes
  rw [nf_at, if_neg h]

/-- The state behind `ws`. -/
theorem nf_step (ord : Bool) (f l : Nat) (B ws R : List Word) (x y : Option Word) :
    { nf ord f l B (ws ++ R) x with optind := (nf ord f l B (ws ++ R) x).optind + ws.length, optarg := y } = nf ord f l (B ++ ws) R y := by
  unfold nf; simp

/-- What an option does to the settings. -/
def applyOpt (s : Settings) : Opt → Settings
  | .value .config v => { s with config := some v }
  | .value .pid v => { s with pid := some v }
  | .flag .daemon => { s with daemon := true }
  | .flag .noDaemon => { s with daemon := false }

theorem loop_step (posix : Bool) (n : Nat) (g g' : G) (c : Int) (s s' : Settings) (e : getopt_long posix g = (c, g')) (hc : c ≠ -1)
    (ha : apply c g'.optarg s = some s') : loop posix (n + 1) g s = loop posix n g' s' := by
  conv => lhs; unfold loop
  simp only [e, if_neg hc, ha]

theorem loop_bad (posix : Bool) (n : Nat) (g g' : G) (s : Settings) (e : getopt_long posix g = (63, g')) :
    loop posix (n + 1) g s = some (-1, s, g') := by
  unfold loop
  simp only [e]
  rfl

theorem loop_end (posix : Bool) (n : Nat) (g g' : G) (s : Settings) (e : getopt_long posix g = (-1, g')) :
    loop posix (n + 1) g s = some (0, s, g') := by
  unfold loop
  simp only [e]
  rfl

/-- Inside of a bundle: `cs` are the letters that remain. -/
def bun (ord : Bool) (f l : Nat) (B R : List Word) (cs : Word) (x : Option Word) : G := { nf ord f l B R x with next := cs }

theorem get_bun (posix ord : Bool) (f l : Nat) (B R : List Word) (cs : Word) (x : Option Word) (hB : B ≠ []) (hc : cs ≠ []) :
    getopt_long posix (bun ord f l B R cs x) = shortOpt (bun ord f l B R cs none) := by
  unfold getopt_long bun nf setUp
  simp [hB, hc]

theorem dropw_flag (f : Flag) : ∃ t, optstring.dropWhile (fun y => decide (y ≠ f.letter)) = f.letter :: t ∧ t.head? ≠ some 58 ∧ ¬ (f.letter = 58 ∨ f.letter = 59) := by
  cases f
  · exact ⟨[68], by decide, by decide, by decide⟩
  · exact ⟨[], by decide, by decide, by decide⟩

theorem dropw_kind (k : Kind) : ∃ t, optstring.dropWhile (fun y => decide (y ≠ k.letter)) = k.letter :: t ∧ t.head? = some 58 ∧ ¬ (k.letter = 58 ∨ k.letter = 59) := by
  cases k
  · exact ⟨[58, 112, 58, 100, 68], by decide, by decide, by decide⟩
  · exact ⟨[58, 100, 68], by decide, by decide, by decide⟩

theorem short_flag (ord : Bool) (f l : Nat) (B R : List Word) (w : Word) (fl : Flag) (cs : Word) (hc : cs ≠ []) :
    shortOpt (bun ord f l B (w :: R) (fl.letter :: cs) none) = ((fl.letter.toNat : Int), bun ord f l B (w :: R) cs none) := by
  obtain ⟨t, e1, e2, e3⟩ := dropw_flag fl
  unfold shortOpt bun nf
  simp only [e1, if_neg e2, if_neg e3, if_neg hc]

theorem short_flag_last (ord : Bool) (f l : Nat) (B R : List Word) (w : Word) (fl : Flag) :
    shortOpt (bun ord f l B (w :: R) [fl.letter] none) = ((fl.letter.toNat : Int), nf ord f l (B ++ [w]) R none) := by
  obtain ⟨t, e1, e2, e3⟩ := dropw_flag fl
  unfold shortOpt bun nf
  simp only [e1, if_neg e2, if_neg e3]
  simp

theorem short_attached (ord : Bool) (f l : Nat) (B R : List Word) (w : Word) (k : Kind) (v : Word) (hv : v ≠ []) :
    shortOpt (bun ord f l B (w :: R) (k.letter :: v) none) = ((k.letter.toNat : Int), nf ord f l (B ++ [w]) R (some v)) := by
  obtain ⟨t, e1, e2, e3⟩ := dropw_kind k
  unfold shortOpt bun nf
  simp only [e1, e2, if_neg e3, if_true, ne_eq, hv, not_false_eq_true, if_false]
  simp

theorem short_separate (ord : Bool) (f l : Nat) (B R : List Word) (w : Word) (k : Kind) (v : Word) :
    shortOpt (bun ord f l B (w :: v :: R) [k.letter] none) = ((k.letter.toNat : Int), nf ord f l (B ++ [w, v]) R (some v)) := by
  obtain ⟨t, e1, e2, e3⟩ := dropw_kind k
  have h := nf_at1 ord f l B (v :: R) w none
  unfold nf at h
  unfold shortOpt bun nf
  simp only [e1, e2, if_neg e3, if_true, ne_eq, not_true, if_false]
  simp only at h
  rw [h]
  simp

theorem short_noarg (ord : Bool) (f l : Nat) (B : List Word) (w : Word) (k : Kind) :
    (shortOpt (bun ord f l B [w] [k.letter] none)).1 = 63 := by
  obtain ⟨t, e1, e2, e3⟩ := dropw_kind k
  have h := nf_at1 ord f l B [] w none
  unfold nf at h
  unfold shortOpt bun nf
  simp only [e1, e2, if_neg e3, if_true, ne_eq, not_true, if_false]
  simp only at h
  rw [h]
  simp

theorem short_unknown (ord : Bool) (f l : Nat) (B R : List Word) (c : UInt8) (cs : Word) (h : c ∉ [99, 112, 100, 68]) :
    (shortOpt (bun ord f l B R (c :: cs) none)).1 = 63 := by
  unfold shortOpt bun nf
  simp only
  by_cases h58 : c = 58
  · subst h58
    split
    · rfl
    · rw [if_pos (.inl rfl)]
  · have : optstring.dropWhile (fun y => decide (y ≠ c)) = [] := by
      simp only [List.mem_cons, List.not_mem_nil, or_false, not_or] at h
      obtain ⟨a1, a2, a3, a4⟩ := h
      simp [optstring, Ne.symm a1, Ne.symm a2, Ne.symm a3, Ne.symm a4, Ne.symm h58]
    simp only [this]

theorem flag_ne (fl : Flag) : ((fl.letter.toNat : Nat) : Int) ≠ -1 := by cases fl <;> decide
theorem kind_ne (k : Kind) : ((k.letter.toNat : Nat) : Int) ≠ -1 := by cases k <;> decide
theorem flag_apply (fl : Flag) (x : Option Word) (s : Settings) : apply ((fl.letter.toNat : Nat) : Int) x s = some (applyOpt s (.flag fl)) := by cases fl <;> rfl
theorem kind_apply (k : Kind) (v : Word) (s : Settings) : apply ((k.letter.toNat : Nat) : Int) (some v) s = some (applyOpt s (.value k v)) := by cases k <;> rfl

/-- Letters without arguments at the begin of a bundle. -/
theorem bundle_flags (posix ord : Bool) (f l : Nat) (B R : List Word) (w : Word) (c : UInt8) (cs : Word) (n : Nat) (hB : B ≠ []) :
    ∀ (fs : List Flag) (g : G) (s : Settings), getopt_long posix g = shortOpt (bun ord f l B (w :: R) (fs.map Flag.letter ++ c :: cs) none) →
      ∃ g', getopt_long posix g' = shortOpt (bun ord f l B (w :: R) (c :: cs) none) ∧
        loop posix (n + fs.length) g s = loop posix n g' ((fs.map Opt.flag).foldl applyOpt s)
  | [], g, s, h => ⟨g, h, rfl⟩
  | fl :: fs, g, s, h => by
    have ne : fs.map Flag.letter ++ c :: cs ≠ [] := by simp
    rw [List.map_cons, List.cons_append, short_flag _ _ _ _ _ _ _ _ ne] at h
    obtain ⟨g', h1, h2⟩ := bundle_flags posix ord f l B R w c cs n hB fs _ (applyOpt s (.flag fl)) (get_bun posix ord f l B (w :: R) _ none hB ne)
    refine ⟨g', h1, ?_⟩
    rw [List.length_cons, ← Nat.add_assoc, loop_step posix _ g _ _ s _ h (flag_ne fl) (flag_apply fl _ s), h2]
    rfl

/-- A bundle of letters without arguments. -/
theorem bundle_all (posix ord : Bool) (f l : Nat) (B R : List Word) (w : Word) (n : Nat) (hB : B ≠ []) :
    ∀ (fs : List Flag) (fl : Flag) (g : G) (s : Settings), getopt_long posix g = shortOpt (bun ord f l B (w :: R) (fl.letter :: fs.map Flag.letter) none) →
      loop posix (n + (fs.length + 1)) g s = loop posix n (nf ord f l (B ++ [w]) R none) (((fl :: fs).map Opt.flag).foldl applyOpt s)
  | [], fl, g, s, h => by
    rw [List.map_nil, short_flag_last] at h
    exact loop_step posix _ g _ _ s _ h (flag_ne fl) (flag_apply fl _ s)
  | fl' :: fs, fl, g, s, h => by
    rw [List.map_cons, short_flag _ _ _ _ _ _ _ _ (by simp)] at h
    have ih := bundle_all posix ord f l B R w n hB fs fl' _ (applyOpt s (.flag fl)) (get_bun posix ord f l B (w :: R) _ none hB (by simp))
    rw [List.length_cons, ← Nat.add_assoc, loop_step posix _ g _ _ s _ h (flag_ne fl) (flag_apply fl _ s), ih]
    rfl

theorem prefix_cases (n name : Word) (h : Abbrev n name) : ∃ i, 1 ≤ i ∧ i ≤ name.length ∧ n = name.take i := by
  obtain ⟨h1, h2⟩ := h
  refine ⟨n.length, List.length_pos_iff.mpr h1, h2.length_le, ?_⟩
  exact List.prefix_iff_eq_take.mp h2

theorem kind_tab (k : Kind) : ∀ i ∈ List.range (k.name.length + 1), 1 ≤ i → lookup (k.name.take i) = some ⟨k.name, true, k.letter⟩ ∧ 61 ∉ k.name.take i := by
  cases k <;> decide

theorem flag_tab (f : Flag) : ∀ i ∈ List.range (f.name.length + 1), 1 ≤ i → lookup (f.name.take i) = some ⟨f.name, false, f.letter⟩ ∧ 61 ∉ f.name.take i := by
  cases f <;> decide

theorem lookup_kind (k : Kind) (n : Word) (h : Abbrev n k.name) : lookup n = some ⟨k.name, true, k.letter⟩ ∧ 61 ∉ n := by
  obtain ⟨i, h1, h2, e⟩ := prefix_cases n _ h
  rw [e]
  exact kind_tab k i (List.mem_range.mpr (by omega)) h1

theorem lookup_flag (f : Flag) (n : Word) (h : Abbrev n f.name) : lookup n = some ⟨f.name, false, f.letter⟩ ∧ 61 ∉ n := by
  obtain ⟨i, h1, h2, e⟩ := prefix_cases n _ h
  rw [e]
  exact flag_tab f i (List.mem_range.mpr (by omega)) h1

theorem lookup_none (n : Word) (h : (∀ k : Kind, ¬ Abbrev n k.name) ∧ ∀ f : Flag, ¬ Abbrev n f.name) : lookup n = none := by
  by_cases hn : n = []
  · subst hn; decide
  · have hk : ∀ k : Kind, n.isPrefixOf k.name = false := fun k => by
      have := h.1 k
      rw [← Bool.not_eq_true, List.isPrefixOf_iff_prefix]
      exact fun e => this ⟨hn, e⟩
    have hf : ∀ f : Flag, n.isPrefixOf f.name = false := fun f => by
      have := h.2 f
      rw [← Bool.not_eq_true, List.isPrefixOf_iff_prefix]
      exact fun e => this ⟨hn, e⟩
    have hk' : ∀ k : Kind, k.name ≠ n := fun k e => h.1 k ⟨hn, e ▸ List.prefix_rfl⟩
    have hf' : ∀ f : Flag, f.name ≠ n := fun f e => h.2 f ⟨hn, e ▸ List.prefix_rfl⟩
    have e1 : longopts.find? (fun p => p.name = n) = none := by
      simp only [List.find?_eq_none, longopts, List.mem_cons, List.not_mem_nil, or_false, decide_eq_true_eq]
      rintro x (rfl | rfl | rfl | rfl)
      · exact hk' .config
      · exact hk' .pid
      · exact hf' .daemon
      · exact hf' .noDaemon
    have e2 : longopts.filter (fun p => n.isPrefixOf p.name) = [] := by
      simp only [List.filter_eq_nil_iff, longopts, List.mem_cons, List.not_mem_nil, or_false]
      rintro x (rfl | rfl | rfl | rfl)
      · have := hk .config; simp only [Kind.name] at this; simp [this]
      · have := hk .pid; simp only [Kind.name] at this; simp [this]
      · have := hf .daemon; simp only [Flag.name] at this; simp [this]
      · have := hf .noDaemon; simp only [Flag.name] at this; simp [this]
    unfold lookup
    rw [e1, e2]

theorem take61 (n v : Word) (h : 61 ∉ n) : (n ++ 61 :: v).takeWhile (fun y => decide (y ≠ 61)) = n ∧ (n ++ 61 :: v).dropWhile (fun y => decide (y ≠ 61)) = 61 :: v := by
  induction n with
  | nil => simp
  | cons a n ih =>
    have ha : a ≠ 61 := fun e => h (by simp [e])
    have := ih (fun e => h (by simp [e]))
    simp only [List.cons_append, List.takeWhile_cons, List.dropWhile_cons, ha, ne_eq, not_false_eq_true, decide_true, if_true]
    exact ⟨by rw [this.1], this.2⟩

theorem take61' (n : Word) (h : 61 ∉ n) : n.takeWhile (fun y => decide (y ≠ 61)) = n ∧ n.dropWhile (fun y => decide (y ≠ 61)) = [] := by
  induction n with
  | nil => simp
  | cons a n ih =>
    have ha : a ≠ 61 := fun e => h (by simp [e])
    have := ih (fun e => h (by simp [e]))
    simp only [List.takeWhile_cons, List.dropWhile_cons, ha, ne_eq, not_false_eq_true, decide_true, if_true]
    exact ⟨by rw [this.1], this.2⟩

theorem next_long (ord : Bool) (f l : Nat) (B R : List Word) (w : Word) :
    nextWord (nf ord f l B ((45 :: 45 :: w) :: R) none) = longOpt (nf ord f l B ((45 :: 45 :: w) :: R) none) (45 :: 45 :: w) := by
  unfold nextWord
  rw [nf_at]
  rfl

theorem next_short (ord : Bool) (f l : Nat) (B R : List Word) (c : UInt8) (cs : Word) (hc : c ≠ 45) :
    nextWord (nf ord f l B ((45 :: c :: cs) :: R) none) = shortOpt (bun ord f l B ((45 :: c :: cs) :: R) (c :: cs) none) := by
  unfold nextWord
  rw [nf_at]
  simp [nonopt, hc, bun]

theorem long_flag (ord : Bool) (f l : Nat) (B R : List Word) (fl : Flag) (n : Word) (h : Abbrev n fl.name) :
    longOpt (nf ord f l B ((45 :: 45 :: n) :: R) none) (45 :: 45 :: n) = ((fl.letter.toNat : Int), nf ord f l (B ++ [45 :: 45 :: n]) R none) := by
  obtain ⟨e, h61⟩ := lookup_flag fl n h
  obtain ⟨t1, t2⟩ := take61' n h61
  unfold longOpt
  simp only [List.drop_succ_cons, List.drop_zero, t1, t2, e]
  simp [nf]

theorem long_extra (ord : Bool) (f l : Nat) (B R : List Word) (fl : Flag) (n v : Word) (h : Abbrev n fl.name) :
    (longOpt (nf ord f l B R none) (45 :: 45 :: (n ++ 61 :: v))).1 = 63 := by
  obtain ⟨e, h61⟩ := lookup_flag fl n h
  obtain ⟨t1, t2⟩ := take61 n v h61
  unfold longOpt
  simp only [List.drop_succ_cons, List.drop_zero, t1, t2, e]
  simp

theorem long_eq (ord : Bool) (f l : Nat) (B R : List Word) (k : Kind) (n v : Word) (h : Abbrev n k.name) :
    longOpt (nf ord f l B ((45 :: 45 :: (n ++ 61 :: v)) :: R) none) (45 :: 45 :: (n ++ 61 :: v)) =
      ((k.letter.toNat : Int), nf ord f l (B ++ [45 :: 45 :: (n ++ 61 :: v)]) R (some v)) := by
  obtain ⟨e, h61⟩ := lookup_kind k n h
  obtain ⟨t1, t2⟩ := take61 n v h61
  unfold longOpt
  simp only [List.drop_succ_cons, List.drop_zero, t1, t2, e]
  simp [nf]

theorem long_sep (ord : Bool) (f l : Nat) (B R : List Word) (k : Kind) (n v : Word) (h : Abbrev n k.name) :
    longOpt (nf ord f l B ((45 :: 45 :: n) :: v :: R) none) (45 :: 45 :: n) = ((k.letter.toNat : Int), nf ord f l (B ++ [45 :: 45 :: n, v]) R (some v)) := by
  obtain ⟨e, h61⟩ := lookup_kind k n h
  obtain ⟨t1, t2⟩ := take61' n h61
  have h1 := nf_at1 ord f l B (v :: R) (45 :: 45 :: n) none
  unfold longOpt
  simp only [List.drop_succ_cons, List.drop_zero, t1, t2, e, if_true]
  rw [h1]
  simp [nf]

theorem long_noarg (ord : Bool) (f l : Nat) (B : List Word) (k : Kind) (n : Word) (h : Abbrev n k.name) :
    (longOpt (nf ord f l B [45 :: 45 :: n] none) (45 :: 45 :: n)).1 = 63 := by
  obtain ⟨e, h61⟩ := lookup_kind k n h
  obtain ⟨t1, t2⟩ := take61' n h61
  have h1 := nf_at1 ord f l B [] (45 :: 45 :: n) none
  unfold longOpt
  simp only [List.drop_succ_cons, List.drop_zero, t1, t2, e, if_true]
  rw [h1]
  simp

theorem long_unknown (ord : Bool) (f l : Nat) (B R : List Word) (w n : Word) (hn : w = n ∨ ∃ v, w = n ++ 61 :: v) (h61 : 61 ∉ n)
    (h' : (∀ k : Kind, ¬ Abbrev n k.name) ∧ ∀ f : Flag, ¬ Abbrev n f.name) : (longOpt (nf ord f l B R none) (45 :: 45 :: w)).1 = 63 := by
  have e : w.takeWhile (fun y => decide (y ≠ 61)) = n := by
    rcases hn with rfl | ⟨v, rfl⟩
    · exact (take61' _ h61).1
    · exact (take61 _ _ h61).1
  unfold longOpt
  simp only [List.drop_succ_cons, List.drop_zero, e, lookup_none n h']

theorem flag_letter_ne (f : Flag) : f.letter ≠ 45 := by cases f <;> decide
theorem kind_letter_ne (k : Kind) : k.letter ≠ 45 := by cases k <;> decide

/-- An option is taken with all its words. -/
theorem item_loop (posix ord : Bool) (f l : Nat) (B R : List Word) (it : Item) (hv : it.valid) (ho : it.isOperand = false) (hB : B ≠ []) (n : Nat) (g : G)
    (s : Settings) (h : getopt_long posix g = nextWord (nf ord f l B (it.words ++ R) none)) :
    ∃ x, loop posix (n + it.opts.length) g s = loop posix n (nf ord f l (B ++ it.words) R x) (it.opts.foldl applyOpt s) := by
  cases it with
  | operand w => exact absurd ho (by simp [Item.isOperand])
  | letters fl fs =>
    refine ⟨none, ?_⟩
    rw [show (Item.letters fl fs).words ++ R = (45 :: fl.letter :: fs.map Flag.letter) :: R from rfl, next_short _ _ _ _ _ _ _ (flag_letter_ne fl)] at h
    have := bundle_all posix ord f l B R _ n hB fs fl g s h
    simpa [Item.opts, Item.words] using this
  | attached fs k v =>
    have hv : v ≠ [] := hv
    refine ⟨some v, ?_⟩
    have hh : getopt_long posix g = shortOpt (bun ord f l B ((45 :: (fs.map Flag.letter ++ k.letter :: v)) :: R) (fs.map Flag.letter ++ k.letter :: v) none) := by
      rw [h]
      cases fs with
      | nil => exact next_short _ _ _ _ _ _ _ (kind_letter_ne k)
      | cons a fs => exact next_short _ _ _ _ _ _ _ (flag_letter_ne a)
    obtain ⟨g', h1, h2⟩ := bundle_flags posix ord f l B R _ k.letter v (n + 1) hB fs g s hh
    rw [short_attached _ _ _ _ _ _ _ _ hv] at h1
    have e : n + (Item.attached fs k v).opts.length = n + 1 + fs.length := by simp [Item.opts]; omega
    rw [e, h2, loop_step posix n g' _ _ _ _ h1 (kind_ne k) (kind_apply k v _)]
    simp [Item.opts, Item.words]
  | separate fs k v =>
    refine ⟨some v, ?_⟩
    have hh : getopt_long posix g = shortOpt (bun ord f l B ((45 :: (fs.map Flag.letter ++ [k.letter])) :: v :: R) (fs.map Flag.letter ++ [k.letter]) none) := by
      rw [h]
      cases fs with
      | nil => exact next_short _ _ _ _ _ _ _ (kind_letter_ne k)
      | cons a fs => exact next_short _ _ _ _ _ _ _ (flag_letter_ne a)
    obtain ⟨g', h1, h2⟩ := bundle_flags posix ord f l B (v :: R) _ k.letter [] (n + 1) hB fs g s hh
    rw [short_separate] at h1
    have e : n + (Item.separate fs k v).opts.length = n + 1 + fs.length := by simp [Item.opts]; omega
    rw [e, h2, loop_step posix n g' _ _ _ _ h1 (kind_ne k) (kind_apply k v _)]
    simp [Item.opts, Item.words]
  | long fl m =>
    refine ⟨none, ?_⟩
    rw [show (Item.long fl m).words ++ R = (45 :: 45 :: m) :: R from rfl, next_long, long_flag _ _ _ _ _ fl m hv] at h
    exact loop_step posix n g _ _ _ _ h (flag_ne fl) (flag_apply fl _ _)
  | longEq k m v =>
    refine ⟨some v, ?_⟩
    rw [show (Item.longEq k m v).words ++ R = (45 :: 45 :: (m ++ 61 :: v)) :: R from rfl, next_long, long_eq _ _ _ _ _ k m v hv] at h
    exact loop_step posix n g _ _ _ _ h (kind_ne k) (kind_apply k v _)
  | longSep k m v =>
    refine ⟨some v, ?_⟩
    rw [show (Item.longSep k m v).words ++ R = (45 :: 45 :: m) :: v :: R from rfl, next_long, long_sep _ _ _ _ _ k m v hv] at h
    exact loop_step posix n g _ _ _ _ h (kind_ne k) (kind_apply k v _)

/-- The word of an option is an option and is not "--". -/
theorem item_head (it : Item) (hv : it.valid) (ho : it.isOperand = false) :
    ∃ w ws, it.words = w :: ws ∧ nonopt w = false ∧ w ≠ [45, 45] := by
  cases it with
  | operand w => exact absurd ho (by simp [Item.isOperand])
  | letters fl fs => exact ⟨_, _, rfl, rfl, by simp [flag_letter_ne]⟩
  | attached fs k v =>
    refine ⟨_, _, rfl, ?_, ?_⟩
    · cases fs <;> rfl
    · cases fs <;> simp [flag_letter_ne, kind_letter_ne]
  | separate fs k v =>
    refine ⟨_, _, rfl, ?_, ?_⟩
    · cases fs <;> rfl
    · cases fs <;> simp [flag_letter_ne, kind_letter_ne]
  | long fl m => exact ⟨_, _, rfl, rfl, by simpa using hv.1⟩
  | longEq k m v => exact ⟨_, _, rfl, rfl, by simp⟩
  | longSep k m v => exact ⟨_, _, rfl, rfl, by simpa using hv.1⟩

theorem get_opt (posix : Bool) (A P O W R : List Word) (w : Word) (ws : List Word) (x : Option Word) (hA : A ≠ []) (e : W = w :: ws) (hn : nonopt w = false) (hd : w ≠ [45, 45]) :
    getopt_long posix (mk false A P O (W ++ R) x) = nextWord (nf false (A ++ O).length (A ++ O ++ P).length (A ++ O ++ P) (W ++ R) none) := by
  subst e
  rw [get_mk _ _ _ _ _ _ hA]
  have e1 : (w :: ws ++ R).takeWhile nonopt = [] := by simp [hn]
  have e2 : (w :: ws ++ R).dropWhile nonopt = w :: ws ++ R := by simp [hn]
  rw [e1, e2, List.append_nil, dashes_no _ _ _ _ _ _ (by simpa using hd)]

theorem get_opt_ord (posix : Bool) (A O W R : List Word) (w : Word) (ws : List Word) (x : Option Word) (hA : A ≠ []) (e : W = w :: ws) (hd : w ≠ [45, 45]) :
    getopt_long posix (mk true A [] O (W ++ R) x) = nextWord (nf true A.length A.length (A ++ O) (W ++ R) none) := by
  subst e
  rw [get_mk_ord _ _ _ _ _ _ hA, List.append_nil, dashes_no _ _ _ _ _ _ (by simpa using hd)]

theorem nf_mk (A P O W R : List Word) (x : Option Word) : nf false (A ++ O).length (A ++ O ++ P).length (A ++ O ++ P ++ W) R x = mk false (A ++ O) P W R x := rfl

theorem nf_mk_ord (A O W R : List Word) (x : Option Word) : nf true A.length A.length (A ++ O ++ W) R x = mk true A [] (O ++ W) R x := by
  unfold nf mk; simp

theorem plain_nonopt (w : Word) (h : plain w) : nonopt w = true := by
  rcases h with rfl | h
  · rfl
  · unfold nonopt
    split
    · exact absurd rfl h
    · rfl

/-- Items are taken one by one. -/
theorem items_loop (posix : Bool) (R : List Word) (n : Nat) : ∀ (is : List Item) (A P O : List Word) (x : Option Word) (s : Settings), A ≠ [] → (∀ i ∈ is, i.valid) →
    ∃ A' O' x', A' ≠ [] ∧ A' ++ O' = A ++ O ++ optionWords is ∧
      loop posix (n + (opts is).length) (mk false A P O (words is ++ R) x) s = loop posix n (mk false A' (P ++ operands is) O' R x') ((opts is).foldl applyOpt s)
  | [], A, P, O, x, s, hA, _ => ⟨A, O, x, hA, by simp [optionWords], by simp [opts, words, operands]⟩
  | it :: is, A, P, O, x, s, hA, hv => by
    have hv' : ∀ i ∈ is, i.valid := fun i hi => hv i (List.mem_cons_of_mem _ hi)
    have hi := hv it List.mem_cons_self
    by_cases ho : it.isOperand = true
    · cases it with
      | operand w =>
        obtain ⟨A', O', x', h1, h2, h3⟩ := items_loop posix R n is (A ++ O) (P ++ [w]) [] x s (by simp [hA]) hv'
        refine ⟨A', O', x', h1, by simpa [optionWords, Item.isOperand] using h2, ?_⟩
        have e : words (Item.operand w :: is) ++ R = w :: (words is ++ R) := by simp [words, Item.words]
        have e2 : (opts (Item.operand w :: is)) = opts is := by simp [opts, Item.opts]
        rw [e, e2, loop_congr posix _ _ _ s (get_operand posix A P O (words is ++ R) w x x hA (plain_nonopt w hi)), h3]
        simp [operands, List.filter_cons_of_pos ho, Item.words]
      | _ => exact absurd ho (by simp [Item.isOperand])
    · have ho : it.isOperand = false := by simpa using ho
      obtain ⟨w, ws, e, hn, hd⟩ := item_head it hi ho
      have hg := get_opt posix A P O it.words (words is ++ R) w ws x hA e hn hd
      obtain ⟨y, hl⟩ := item_loop posix false _ _ (A ++ O ++ P) (words is ++ R) it hi ho (by simp [hA]) (n + (opts is).length) _ s hg
      obtain ⟨A', O', x', h1, h2, h3⟩ := items_loop posix R n is (A ++ O) P it.words y (it.opts.foldl applyOpt s) (by simp [hA]) hv'
      refine ⟨A', O', x', h1, by rw [h2]; simp [optionWords, ho], ?_⟩
      have e1 : words (it :: is) ++ R = it.words ++ (words is ++ R) := by simp [words]
      have e2 : n + (opts (it :: is)).length = n + (opts is).length + it.opts.length := by simp [opts]; omega
      rw [e1, e2, hl, nf_mk, h3]
      simp [opts, operands, ho]

/-- In order: no operands among the items. -/
theorem items_loop_ord (posix : Bool) (A R : List Word) (n : Nat) (hA : A ≠ []) : ∀ (is : List Item) (O : List Word) (x : Option Word) (s : Settings), (∀ i ∈ is, i.valid ∧ i.isOperand = false) →
    ∃ x', loop posix (n + (opts is).length) (mk true A [] O (words is ++ R) x) s = loop posix n (mk true A [] (O ++ words is) R x') ((opts is).foldl applyOpt s)
  | [], O, x, s, _ => ⟨x, by simp [opts, words]⟩
  | it :: is, O, x, s, hv => by
    have hv' : ∀ i ∈ is, i.valid ∧ i.isOperand = false := fun i hi => hv i (List.mem_cons_of_mem _ hi)
    obtain ⟨hi, ho⟩ := hv it List.mem_cons_self
    obtain ⟨w, ws, e, hn, hd⟩ := item_head it hi ho
    have hg := get_opt_ord posix A O it.words (words is ++ R) w ws x hA e hd
    obtain ⟨y, hl⟩ := item_loop posix true _ _ (A ++ O) (words is ++ R) it hi ho (by simp [hA]) (n + (opts is).length) _ s hg
    obtain ⟨x', h3⟩ := items_loop_ord posix A R n hA is (O ++ it.words) y (it.opts.foldl applyOpt s) hv'
    refine ⟨x', ?_⟩
    have e1 : words (it :: is) ++ R = it.words ++ (words is ++ R) := by simp [words]
    have e2 : n + (opts (it :: is)).length = n + (opts is).length + it.opts.length := by simp [opts]; omega
    rw [e1, e2, hl, nf_mk_ord, h3]
    simp [opts, words]

/-- The state at the end: `A` are the options, `P` the operands. -/
def done (ord : Bool) (A P : List Word) : G := ⟨A ++ P, A.length, [], A.length, (A ++ P).length, true, ord, none⟩

theorem get_end (posix : Bool) (A P O : List Word) (x : Option Word) (hA : A ≠ []) : getopt_long posix (mk false A P O [] x) = (-1, done false (A ++ O) P) := by
  rw [get_mk _ _ _ _ _ _ hA]
  simp only [List.takeWhile_nil, List.dropWhile_nil, List.append_nil]
  rw [dashes_no _ _ _ _ _ _ (by simp)]
  unfold nextWord
  rw [nf_at]
  simp only [List.head?_nil]
  unfold nf done
  by_cases hP : P = []
  · subst hP; simp
  · simp [hP]

theorem dashes_yes (ord : Bool) (A P T : List Word) :
    dashes (nf ord A.length (A ++ P).length (A ++ P) ([45, 45] :: T) none) = ⟨A ++ [[45, 45]] ++ P ++ T, (A ++ [[45, 45]] ++ P ++ T).length, [], (A ++ [[45, 45]]).length, (A ++ [[45, 45]] ++ P ++ T).length, true, ord, none⟩ := by
  unfold dashes
  rw [nf_at]
  simp only [List.head?_cons, if_true]
  unfold nf
  by_cases hP : P = []
  · subst hP; simp
  · have hp := List.length_pos_iff.mpr hP
    have c1 : (A.length ≠ (A ++ P).length ∧ (A ++ P).length ≠ (A ++ P).length + 1) := by
      simp only [List.length_append]; omega
    have e : exchange ⟨A ++ P ++ [45, 45] :: T, (A ++ P).length + 1, [], A.length, (A ++ P).length, true, ord, none⟩ =
        ⟨A ++ [[45, 45]] ++ P ++ T, (A ++ P).length + 1, [], A.length + 1, (A ++ P).length + 1, true, ord, none⟩ := by
      unfold exchange
      have h1 : (A ++ P ++ [45, 45] :: T).take A.length = A := by rw [List.append_assoc, take_app]
      have h2 : ((A ++ P ++ [45, 45] :: T).drop (A ++ P).length).take ((A ++ P).length + 1 - (A ++ P).length) = [[45, 45]] := by
        rw [drop_app]
        have : (A ++ P).length + 1 - (A ++ P).length = 1 := by omega
        rw [this]; rfl
      have h3 : ((A ++ P ++ [45, 45] :: T).drop A.length).take ((A ++ P).length - A.length) = P := by
        rw [List.append_assoc A, drop_app]
        have : (A ++ P).length - A.length = P.length := by simp only [List.length_append]; omega
        rw [this, take_app]
      have h4 : (A ++ P ++ [45, 45] :: T).drop ((A ++ P).length + 1) = T := by
        have : A ++ P ++ [45, 45] :: T = (A ++ P ++ [[45, 45]]) ++ T := by simp
        rw [this]
        have : (A ++ P).length + 1 = (A ++ P ++ [[45, 45]]).length := by simp only [List.length_append]; rfl
        rw [this, drop_app]
      have h5 : (A ++ P).length + 1 - (A ++ P).length = 1 := by omega
      rw [h5] at h2
      simp only [h1, h2, h3, h4, h5]
    simp only [if_pos c1, e]
    simp

theorem next_done (ord : Bool) (A P : List Word) : nextWord ⟨A ++ P, (A ++ P).length, [], A.length, (A ++ P).length, true, ord, none⟩ = (-1, done ord A P) := by
  unfold nextWord done
  simp only [List.getElem?_eq_none (Nat.le_refl _)]
  by_cases hP : P = []
  · subst hP; simp
  · simp [hP]

theorem get_dashes (posix : Bool) (A P O T : List Word) (x : Option Word) (hA : A ≠ []) :
    getopt_long posix (mk false A P O ([45, 45] :: T) x) = (-1, done false (A ++ O ++ [[45, 45]]) (P ++ T)) := by
  rw [get_mk _ _ _ _ _ _ hA]
  have e1 : (([45, 45] : Word) :: T).takeWhile nonopt = [] := by simp [nonopt]
  have e2 : (([45, 45] : Word) :: T).dropWhile nonopt = [45, 45] :: T := by simp [nonopt]
  rw [e1, e2, List.append_nil, dashes_yes, List.append_assoc _ P T, next_done]

theorem get_dashes_ord (posix : Bool) (A O T : List Word) (x : Option Word) (hA : A ≠ []) :
    getopt_long posix (mk true A [] O ([45, 45] :: T) x) = (-1, done true (A ++ O ++ [[45, 45]]) T) := by
  rw [get_mk_ord _ _ _ _ _ _ hA]
  have : dashes (nf true A.length (A ++ []).length (A ++ [] ++ O) ([45, 45] :: T) none) =
      ⟨A ++ O ++ [[45, 45]] ++ T, (A ++ O ++ [[45, 45]] ++ T).length, [], (A ++ O ++ [[45, 45]]).length, (A ++ O ++ [[45, 45]] ++ T).length, true, true, none⟩ := by
    unfold dashes
    rw [nf_at]
    simp [nf]
    omega
  rw [this, next_done]

theorem get_stop_ord (posix : Bool) (A O R : List Word) (x : Option Word) (hA : A ≠ []) (h : ∀ w ∈ R.head?, plain w) :
    ∃ g, getopt_long posix (mk true A [] O R x) = (-1, g) ∧ g.argv = A ++ O ++ R ∧ g.optind = (A ++ O).length := by
  rw [get_mk_ord _ _ _ _ _ _ hA]
  have hd : R.head? ≠ some [45, 45] := fun e => by
    have := h _ e
    rcases this with h | h
    · exact absurd h (by decide)
    · exact h rfl
  rw [dashes_no _ _ _ _ _ _ hd]
  unfold nextWord
  rw [nf_at]
  cases R with
  | nil => exact ⟨_, rfl, by simp [nf], by simp [nf]⟩
  | cons w R =>
    simp only [List.head?_cons, plain_nonopt w (h w rfl), if_true]
    exact ⟨_, rfl, by simp [nf], by simp [nf]⟩

/-- Words that begin with a mistake. -/
theorem mistake_loop (posix ord : Bool) (f l : Nat) (B : List Word) (ws : List Word) (fs : List Flag) (hm : Mistake ws fs) (hB : B ≠ []) (n : Nat) (g : G)
    (s : Settings) (h : getopt_long posix g = nextWord (nf ord f l B ws none)) :
    ∃ g', loop posix (n + 1 + fs.length) g s = some (-1, (fs.map Opt.flag).foldl applyOpt s, g') := by
  cases hm with
  | letter fs c cs rest hc h' =>
    have hh : getopt_long posix g = shortOpt (bun ord f l B ((45 :: (fs.map Flag.letter ++ c :: cs)) :: rest) (fs.map Flag.letter ++ c :: cs) none) := by
      rw [h]
      cases fs with
      | nil => exact next_short _ _ _ _ _ _ _ (h' rfl)
      | cons a fs => exact next_short _ _ _ _ _ _ _ (flag_letter_ne a)
    obtain ⟨g', h1, h2⟩ := bundle_flags posix ord f l B rest _ c cs (n + 1) hB fs g s hh
    have h3 := short_unknown ord f l B ((45 :: (fs.map Flag.letter ++ c :: cs)) :: rest) c cs hc
    exact ⟨_, h2.trans (loop_bad posix n g' _ _ (h1.trans (Prod.ext h3 rfl)))⟩
  | noArg fs k =>
    have hh : getopt_long posix g = shortOpt (bun ord f l B [45 :: (fs.map Flag.letter ++ [k.letter])] (fs.map Flag.letter ++ [k.letter]) none) := by
      rw [h]
      cases fs with
      | nil => exact next_short _ _ _ _ _ _ _ (kind_letter_ne k)
      | cons a fs => exact next_short _ _ _ _ _ _ _ (flag_letter_ne a)
    obtain ⟨g', h1, h2⟩ := bundle_flags posix ord f l B [] _ k.letter [] (n + 1) hB fs g s hh
    have h3 := short_noarg ord f l B (45 :: (fs.map Flag.letter ++ [k.letter])) k
    exact ⟨_, h2.trans (loop_bad posix n g' _ _ (h1.trans (Prod.ext h3 rfl)))⟩
  | name w m rest hw hn h61 h' =>
    rw [next_long] at h
    exact ⟨_, loop_bad posix n g _ _ (h.trans (Prod.ext (long_unknown ord f l B _ w m hn h61 h') rfl))⟩
  | extra fl m v rest ha =>
    rw [next_long] at h
    exact ⟨_, loop_bad posix n g _ _ (h.trans (Prod.ext (long_extra ord f l B _ fl m v ha) rfl))⟩
  | noLongArg k m ha =>
    rw [next_long] at h
    exact ⟨_, loop_bad posix n g _ _ (h.trans (Prod.ext (long_noarg ord f l B k m ha) rfl))⟩

theorem mistake_head (ws : List Word) (fs : List Flag) (hm : Mistake ws fs) : ∃ w rest, ws = w :: rest ∧ nonopt w = false ∧ w ≠ [45, 45] := by
  cases hm with
  | letter fs c cs rest hc h' =>
    refine ⟨_, _, rfl, ?_, ?_⟩
    · cases fs <;> rfl
    · cases fs with
      | nil => simp; exact fun e => absurd e (h' rfl)
      | cons a fs => simp [flag_letter_ne]
  | noArg fs k =>
    refine ⟨_, _, rfl, ?_, ?_⟩
    · cases fs <;> rfl
    · cases fs <;> simp [flag_letter_ne, kind_letter_ne]
  | name w m rest hw hn h61 h' => exact ⟨_, _, rfl, rfl, by simpa using hw⟩
  | extra fl m v rest ha => exact ⟨_, _, rfl, rfl, by simp⟩
  | noLongArg k m ha => exact ⟨_, _, rfl, rfl, by simpa using ha.1⟩

/-- The last option of a kind counts. -/
theorem fold_settings (os : List Opt) : ∀ s : Settings, os.foldl applyOpt s =
    ⟨(configOf os).or s.config, (pidOf os).or s.pid, (os.filterMap flagOf).getLast?.getD s.daemon⟩ := by
  induction os with
  | nil => intro s; rfl
  | cons o os ih =>
    intro s
    rw [List.foldl_cons, ih]
    have gl : ∀ {α : Type} (a : α) (l : List α), (a :: l).getLast? = (l.getLast?).or (some a) := by
      intro α a l
      cases h : l.getLast? with
      | none => rw [List.getLast?_eq_none_iff] at h; subst h; rfl
      | some b => rw [List.getLast?_cons, h]; rfl
    rcases o with ⟨k, v⟩ | f
    · cases k
      · simp only [applyOpt, configOf, pidOf, List.filterMap_cons, valueOf, flagOf, if_true]
        rw [gl]
        simp
      · simp only [applyOpt, configOf, pidOf, List.filterMap_cons, valueOf, flagOf, if_true]
        rw [gl]
        simp
    · cases f
      · simp only [applyOpt, configOf, pidOf, List.filterMap_cons, valueOf, flagOf]
        rw [gl]
        cases (os.filterMap flagOf).getLast? <;> rfl
      · simp only [applyOpt, configOf, pidOf, List.filterMap_cons, valueOf, flagOf]
        rw [gl]
        cases (os.filterMap flagOf).getLast? <;> rfl

theorem fold_clear (os : List Opt) : os.foldl applyOpt .clear = ⟨configOf os, pidOf os, daemonOf os⟩ := by
  rw [fold_settings]
  simp [Settings.clear, daemonOf]

/-- There are enough rounds. -/
def weight (ws : List Word) : Nat := (ws.map (fun w => w.length + 1)).sum

theorem weight_app (a b : List Word) : weight (a ++ b) = weight a + weight b := by simp [weight]

theorem item_weight (it : Item) : it.opts.length ≤ weight it.words := by
  cases it <;> simp [Item.opts, Item.words, weight] <;> omega

theorem items_weight (is : List Item) : (opts is).length ≤ weight (words is) := by
  induction is with
  | nil => simp [opts]
  | cons it is ih =>
    have e1 : opts (it :: is) = it.opts ++ opts is := rfl
    have e2 : words (it :: is) = it.words ++ words is := rfl
    rw [e1, e2, weight_app, List.length_append]
    have := item_weight it
    omega

theorem mistake_weight (ws : List Word) (fs : List Flag) (h : Mistake ws fs) : fs.length ≤ weight ws := by
  cases h <;> simp [weight] <;> omega

end Verif.GetOpt
