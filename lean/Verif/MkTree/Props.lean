import Verif.MkTree.Model
import Verif.Mkpath.Props
/-
  Property C198: the directories that coda_mkpath makes.
-/
set_option linter.unusedSimpArgs false
set_option linter.unusedVariables false

namespace Verif.MkTree

open Verif.Mkpath (coda_mkpath parents makeAll later Done)

/-- A tree: the root is a directory, and everything else stands in a directory. -/
def WF (t : Tree) : Prop := t.node [] = some .dir ∧ ∀ c x, t.node (c ++ [x]) ≠ none → t.node c = some .dir

/-- What mkdir does to a tree: it keeps what is there, and adds directories only. -/
structure Grows (t t' : Tree) : Prop where
  keep : ∀ q k, t.node q = some k → t'.node q = some k
  new : ∀ q, t.node q = none → t'.node q = none ∨ t'.node q = some .dir
  may : t'.may = t.may

theorem grows_refl (t : Tree) : Grows t t := ⟨fun _ _ h => h, fun _ h => Or.inl h, rfl⟩

theorem grows_trans {a b c : Tree} (h1 : Grows a b) (h2 : Grows b c) : Grows a c := by
  refine ⟨fun q k h => h2.keep q k (h1.keep q k h), fun q h => ?_, h2.may.trans h1.may⟩
  rcases h1.new q h with g | g
  · exact h2.new q g
  · exact Or.inr (h2.keep q _ g)

theorem mkdir_grows (free : Bool) (t : Tree) (c : CPath) (h : WF t) : Grows t (mkdir free t c).1 ∧ WF (mkdir free t c).1 := by
  unfold mkdir
  split
  · exact ⟨grows_refl t, h⟩
  rename_i hc
  split
  · exact ⟨grows_refl t, h⟩
  rename_i hp
  split
  · exact ⟨grows_refl t, h⟩
  rename_i hn
  split
  · have hn : t.node c = none := by simpa using hn
    have hp : t.node c.dropLast = some .dir := by simpa using hp
    refine ⟨⟨fun q k hq => ?_, fun q hq => ?_, rfl⟩, ?_, fun q x hx => ?_⟩
    · simp only
      rw [if_neg (by rintro rfl; rw [hn] at hq; cases hq)]
      exact hq
    · by_cases e : q = c
      · exact Or.inr (by simp [e])
      · exact Or.inl (by simp [e, hq])
    · simp only
      rw [if_neg (fun e => hc e.symm)]
      exact h.1
    · simp only at hx ⊢
      by_cases e : q ++ [x] = c
      · have hq : q = c.dropLast := by rw [← e]; simp
        rw [if_neg (by rintro rfl; rw [← hq] at hp; rw [hn] at hp; cases hp), hq]
        exact hp
      · rw [if_neg e] at hx
        have := h.2 q x hx
        by_cases e' : q = c
        · simp [e']
        · rw [if_neg e']; exact this
  · exact ⟨grows_refl t, h⟩

theorem others_grows (b : List CPath) : ∀ (t : Tree), WF t → Grows t (others t b) ∧ WF (others t b) := by
  induction b with
  | nil => intro t h; exact ⟨grows_refl t, h⟩
  | cons c b ih =>
    intro t h
    obtain ⟨g1, g2⟩ := mkdir_grows true t c h
    obtain ⟨g3, g4⟩ := ih _ g2
    exact ⟨grows_trans g1 g3, g4⟩

/-- Directories that follow each other: each is the one before, or stands in it. -/
def Chain : CPath → List CPath → Prop
  | _, [] => True
  | base, d :: ds => (d = base ∨ ∃ x, d = base ++ [x]) ∧ Chain d ds

theorem chain_later : ∀ (v u : List UInt8), Chain (u.foldl compStep ([], [])).1 ((later u v).map comps) := by
  intro v
  induction v with
  | nil => intro u; exact trivial
  | cons c v ih =>
    intro u
    have hs : (u ++ [c]).foldl compStep ([], []) = compStep (u.foldl compStep ([], [])) c := by rw [List.foldl_append]; rfl
    have := ih (u ++ [c])
    rw [hs] at this
    unfold later
    by_cases hc : c = 47
    · rw [if_pos hc]
      simp only [compStep, hc, if_true] at this
      simp only [List.map_cons, Chain]
      subst hc
      refine ⟨?_, this⟩
      unfold comps flush
      split
      · exact Or.inl rfl
      · exact Or.inr ⟨_, rfl⟩
    · rw [if_neg hc]
      simp only [compStep, hc, if_false] at this
      exact this

/-- The directories of a path follow each other, from the root. -/
theorem chain_parents (s : List UInt8) (hs : s ≠ []) : Chain [] ((parents s).map comps) := by
  cases s with
  | nil => exact absurd rfl hs
  | cons a v =>
    rw [Mkpath.parents_eq]
    have := chain_later v [a]
    have e : (([a] : List UInt8).foldl compStep ([], [])).1 = [] := by
      simp only [List.foldl, compStep]
      split <;> simp [flush]
    rwa [e] at this

/-- One call that makes a directory, or finds it. -/
theorem mkdir_made (t : Tree) (base d : CPath) (h : WF t) (hb : t.node base = some .dir) (hd : d = base ∨ ∃ x, d = base ++ [x]) (hf : t.node d ≠ some .file)
    (hm : t.node d ≠ none ∨ t.may d.dropLast = true) :
    ((mkdir false t d).2 = .made ∨ (mkdir false t d).2 = .eexist) ∧ (mkdir false t d).1.node d = some .dir ∧ ∀ q, q ≠ d → (mkdir false t d).1.node q = t.node q := by
  have hdir : t.node d = none ∨ t.node d = some .dir := by
    cases hn : t.node d with
    | none => exact Or.inl rfl
    | some k => cases k with
      | dir => exact Or.inr rfl
      | file => exact absurd hn hf
  unfold mkdir
  split
  · rename_i e
    exact ⟨Or.inr rfl, by rw [e]; exact h.1, fun _ _ => rfl⟩
  rename_i hne
  have hp : t.node d.dropLast = some .dir := by
    rcases hd with rfl | ⟨x, rfl⟩
    · have e := List.dropLast_concat_getLast hne
      exact h.2 d.dropLast (d.getLast hne) (by rw [e, hb]; simp)
    · simpa using hb
  rw [if_neg (by simpa using hp)]
  rcases hdir with hn | hn
  · rw [if_neg (by simpa using hn)]
    have : t.may d.dropLast = true := by
      rcases hm with hm | hm
      · exact absurd hn hm
      · exact hm
    rw [if_pos (by simp [this])]
    exact ⟨Or.inl rfl, by simp, fun q hq => by simp [hq]⟩
  · rw [if_pos (by rw [hn]; simp)]
    exact ⟨Or.inr rfl, hn, fun _ _ => rfl⟩

/-- All calls of a path. -/
theorem makeAll_made : ∀ (ds : List (List UInt8)) (w : World) (base : CPath), WF w.1 → w.1.node base = some .dir → Chain base (ds.map comps) →
    (∀ p ∈ ds, w.1.node (comps p) ≠ some .file) → (∀ p ∈ ds, w.1.node (comps p) ≠ none ∨ w.1.may (comps p).dropLast = true) →
    (makeAll mk w ds).1 = 0 ∧ WF (makeAll mk w ds).2.1.1 ∧ Grows w.1 (makeAll mk w ds).2.1.1 ∧ (∀ p ∈ ds, (makeAll mk w ds).2.1.1.node (comps p) = some .dir) ∧
    (w.2 = [] → ∀ q, (makeAll mk w ds).2.1.1.node q ≠ w.1.node q → ∃ p ∈ ds, q = comps p) := by
  intro ds
  induction ds with
  | nil =>
    intro w base h _ _ _ _
    exact ⟨rfl, h, grows_refl _, by simp, fun _ q hq => absurd rfl hq⟩
  | cons d ds ih =>
    intro w base h hb hc hf hm
    obtain ⟨o1, o2⟩ := others_grows (w.2.headD []) w.1 h
    obtain ⟨c1, c2⟩ := hc
    have hfile : ∀ p ∈ d :: ds, (others w.1 (w.2.headD [])).node (comps p) ≠ some .file := by
      intro p hp e
      cases hn : w.1.node (comps p) with
      | none => rcases o1.new _ hn with g | g <;> (rw [g] at e; cases e)
      | some k => rw [o1.keep _ _ hn] at e; cases e; exact hf p hp hn
    have hmay : ∀ p ∈ d :: ds, (others w.1 (w.2.headD [])).node (comps p) ≠ none ∨ (others w.1 (w.2.headD [])).may (comps p).dropLast = true := by
      intro p hp
      rcases hm p hp with g | g
      · cases hn : w.1.node (comps p) with
        | none => exact absurd hn g
        | some k => rw [o1.keep _ _ hn]; exact Or.inl (by simp)
      · rw [o1.may]; exact Or.inr g
    obtain ⟨m1, m2, m3⟩ := mkdir_made _ base (comps d) o2 (o1.keep _ _ hb) c1 (hfile d (by simp)) (hmay d (by simp))
    obtain ⟨g1, g2⟩ := mkdir_grows false _ (comps d) o2
    have hstep : makeAll mk w (d :: ds) = ((makeAll mk (mk w d).1 ds).1, (makeAll mk (mk w d).1 ds).2.1, d :: (makeAll mk (mk w d).1 ds).2.2) := by
      have hmk : (mk w d).2 = .made ∨ (mk w d).2 = .eexist := m1
      rw [makeAll]
      rcases hmk with e | e <;> rw [e]
    have hmkt : (mk w d).1.1 = (mkdir false (others w.1 (w.2.headD [])) (comps d)).1 := rfl
    obtain ⟨r1, r2, r3, r4, r5⟩ := ih (mk w d).1 (comps d) g2 m2 c2 (by
        intro p hp e
        rw [hmkt] at e
        cases hn : (others w.1 (w.2.headD [])).node (comps p) with
        | none => rcases g1.new _ hn with g | g <;> (rw [g] at e; cases e)
        | some k => rw [g1.keep _ _ hn] at e; cases e; exact hfile p (by simp [hp]) hn)
      (by
        intro p hp
        rw [hmkt]
        rcases hmay p (by simp [hp]) with g | g
        · cases hn : (others w.1 (w.2.headD [])).node (comps p) with
          | none => exact absurd hn g
          | some k => rw [g1.keep _ _ hn]; exact Or.inl (by simp)
        · rw [g1.may]; exact Or.inr g)
    rw [hstep]
    refine ⟨r1, r2, grows_trans (grows_trans o1 g1) r3, ?_, ?_⟩
    · intro p hp
      rcases List.mem_cons.mp hp with rfl | hp
      · exact r3.keep _ _ m2
      · exact r4 p hp
    · intro hw q hq
      by_cases e : (makeAll mk (mk w d).1 ds).2.1.1.node q = (mk w d).1.1.node q
      · refine ⟨d, by simp, ?_⟩
        apply Classical.byContradiction
        intro hne
        apply hq
        have h3 := m3 q hne
        rw [hw] at h3
        have h4 : (mk w d).1.1.node q = w.1.node q := by rw [hmkt, hw]; exact h3
        exact e.trans h4
      · obtain ⟨p, hp, e'⟩ := r5 (by show w.2.tail = []; rw [hw]; rfl) q e
        exact ⟨p, by simp [hp], e'⟩

theorem prefix_dir {t : Tree} (h : WF t) : ∀ (l q : CPath), t.node (q ++ l) ≠ none → l ≠ [] → t.node q = some .dir := by
  intro l
  induction l with
  | nil => intro q _ h; exact absurd rfl h
  | cons x l ih =>
    intro q hq _
    have e : q ++ x :: l = (q ++ [x]) ++ l := by simp
    cases l with
    | nil => exact h.2 q x hq
    | cons y l =>
      have := ih (q ++ [x]) (by rw [← e]; exact hq) (by simp)
      exact h.2 q x (by rw [this]; simp)

/-- **C198, in part: coda_mkpath makes the directories of a path**, whatever directories other processes make at the same time: if no file stands in the place of one of them, and each of them is there
or may be made, it returns 0, and then all of them and all directories on the way to them are there; everything that was there before is still there; if no one else makes directories, nothing else is
made.  Missing: files in the place of directories (`C198_refuted_file`), failures (`C198_refuted_rest`). -/
theorem C198_made_partial (t : Tree) (bs : List (List CPath)) (s r : List UInt8) (hs : s ≠ []) (h0 : 0 ∉ s) (h : WF t) (hf : ∀ p ∈ parents s, t.node (comps p) ≠ some .file)
    (hm : ∀ p ∈ parents s, t.node (comps p) ≠ none ∨ t.may (comps p).dropLast = true) :
    ∃ d : Done World, coda_mkpath mk true (s ++ 0 :: r) (t, bs) = .ok d ∧ d.ret = 0 ∧ WF d.fs.1 ∧ (∀ p ∈ parents s, ∀ q, q <+: comps p → d.fs.1.node q = some .dir) ∧
      (∀ q k, t.node q = some k → d.fs.1.node q = some k) ∧ (bs = [] → ∀ q, d.fs.1.node q ≠ t.node q → ∃ p ∈ parents s, q = comps p) := by
  obtain ⟨r1, r2, r3, r4, r5⟩ := makeAll_made (parents s) (t, bs) [] h h.1 (chain_parents s hs) hf hm
  refine ⟨_, Mkpath.C67_mkpath_partial mk s r (t, bs) hs h0, r1, r2, ?_, r3.keep, r5⟩
  intro p hp q hq
  obtain ⟨l, e⟩ := hq
  have hd := r4 p hp
  rw [← e] at hd
  by_cases hl : l = []
  · subst hl; rw [List.append_nil] at hd; exact hd
  · exact prefix_dir r2 l q (by show (makeAll mk (t, bs) (parents s)).2.1.1.node (q ++ l) ≠ none; rw [hd]; simp) hl

theorem makeAll_there : ∀ (ds : List (List UInt8)) (t : Tree) (base : CPath), WF t → (∀ p ∈ ds, t.node (comps p) ≠ none) → makeAll mk (t, []) ds = (0, (t, []), ds) := by
  intro ds
  induction ds with
  | nil => intro t _ _ _; rfl
  | cons d ds ih =>
    intro t base h hn
    have hmk : mk (t, []) d = ((t, []), .eexist) := by
      have e : others t (([] : List (List CPath)).headD []) = t := rfl
      have hmd : mkdir false t (comps d) = (t, .eexist) := by
        unfold mkdir
        split
        · rfl
        rename_i hne
        have hp : t.node (comps d).dropLast = some .dir := by
          have e := List.dropLast_concat_getLast hne
          exact h.2 (comps d).dropLast ((comps d).getLast hne) (by rw [e]; exact hn d (by simp))
        rw [if_neg (by simpa using hp), if_pos (hn d (by simp))]
      simp only [mk, e, hmd, List.tail_nil]
    unfold makeAll
    rw [hmk]
    simp only
    rw [ih t base h (fun p hp => hn p (by simp [hp]))]

/-- **C198: a second call finds everything there**: if something stands in the place of each directory, the call returns 0 and changes nothing; no permission is needed. -/
theorem C198_there (t : Tree) (s r : List UInt8) (hs : s ≠ []) (h0 : 0 ∉ s) (h : WF t) (hn : ∀ p ∈ parents s, t.node (comps p) ≠ none) :
    coda_mkpath mk true (s ++ 0 :: r) (t, []) = .ok ⟨0, s ++ 0 :: r, (t, []), parents s⟩ := by
  rw [Mkpath.C67_mkpath_partial mk s r (t, []) hs h0, makeAll_there (parents s) t [] h hn]

/-- **C198 is false if a file stands in the place of the last directory**: the call returns 0, and the directory is not there. -/
theorem C198_refuted_file (t : Tree) (s r p : List UInt8) (hs : s ≠ []) (h0 : 0 ∉ s) (h : WF t) (hn : ∀ p ∈ parents s, t.node (comps p) ≠ none) (hp : p ∈ parents s)
    (hf : t.node (comps p) = some .file) : ∃ d : Done World, coda_mkpath mk true (s ++ 0 :: r) (t, []) = .ok d ∧ d.ret = 0 ∧ d.fs.1.node (comps p) ≠ some .dir :=
  ⟨_, C198_there t s r hs h0 h hn, rfl, by simp only; rw [hf]; simp⟩

theorem mkdir_any (t : Tree) (c : CPath) (h : WF t) :
    ((mkdir false t c).1.node c ≠ none ∨ ∃ e, (mkdir false t c).2 = .error e ∧ (mkdir false t c).1 = t) ∧ ∀ q, q ≠ c → (mkdir false t c).1.node q = t.node q := by
  unfold mkdir
  split
  · rename_i hc
    subst hc
    exact ⟨Or.inl (by simp only; rw [h.1]; simp), fun _ _ => rfl⟩
  split
  · exact ⟨Or.inr ⟨2, rfl, rfl⟩, fun _ _ => rfl⟩
  split
  · rename_i hn
    exact ⟨Or.inl hn, fun _ _ => rfl⟩
  split
  · exact ⟨Or.inl (by simp), fun q hq => by simp [hq]⟩
  · exact ⟨Or.inr ⟨13, rfl, rfl⟩, fun _ _ => rfl⟩

theorem makeAll_any : ∀ (ds : List (List UInt8)) (w : World), WF w.1 →
    WF (makeAll mk w ds).2.1.1 ∧ Grows w.1 (makeAll mk w ds).2.1.1 ∧
    ((makeAll mk w ds).1 = 0 ∧ (∀ p ∈ ds, (makeAll mk w ds).2.1.1.node (comps p) ≠ none) ∨
      (makeAll mk w ds).1 = -1 ∧ ∃ pre p post, ds = pre ++ p :: post ∧ (∀ p ∈ pre, (makeAll mk w ds).2.1.1.node (comps p) ≠ none) ∧ (makeAll mk w ds).2.1.1.node (comps p) = none) ∧
    (w.2 = [] → ∀ q, (makeAll mk w ds).2.1.1.node q ≠ w.1.node q → ∃ p ∈ ds, q = comps p) := by
  intro ds
  induction ds with
  | nil => intro w h; exact ⟨h, grows_refl _, Or.inl ⟨rfl, by simp⟩, fun _ q hq => absurd rfl hq⟩
  | cons d ds ih =>
    intro w h
    obtain ⟨o1, o2⟩ := others_grows (w.2.headD []) w.1 h
    obtain ⟨g1, g2⟩ := mkdir_grows false _ (comps d) o2
    obtain ⟨m1, m2⟩ := mkdir_any _ (comps d) o2
    have hsame : w.2 = [] → others w.1 (w.2.headD []) = w.1 := fun hw => by rw [hw]; rfl
    have hmkt : (mk w d).1.1 = (mkdir false (others w.1 (w.2.headD [])) (comps d)).1 := rfl
    have hmko : (mk w d).2 = (mkdir false (others w.1 (w.2.headD [])) (comps d)).2 := rfl
    have htail : w.2 = [] → (mk w d).1.2 = [] := fun hw => by show w.2.tail = []; rw [hw]; rfl
    generalize hr : mk w d = r at *
    obtain ⟨w', o⟩ := r
    simp only at hmkt hmko htail
    cases ho : o with
    | error e =>
      have hstep : makeAll mk w (d :: ds) = (-1, w', [d]) := by rw [makeAll, hr]; subst ho; rfl
      rw [hstep]
      refine ⟨hmkt ▸ g2, hmkt ▸ grows_trans o1 g1, Or.inr ⟨rfl, [], d, ds, rfl, by simp, ?_⟩, ?_⟩
      · simp only [hmkt]
        have he : (mkdir false (others w.1 (w.2.headD [])) (comps d)).2 = .error e := by rw [← hmko, ho]
        clear m1 m2 g1 g2 hmkt hmko
        generalize others w.1 (w.2.headD []) = t at *
        unfold mkdir at he ⊢
        split at he
        · cases he
        rename_i hc
        rw [if_neg hc]
        split at he
        · rename_i hp
          rw [if_pos hp]
          simp only
          apply Classical.byContradiction
          intro hn
          apply hp
          refine o2.2 (comps d).dropLast ((comps d).getLast hc) ?_
          rw [List.dropLast_concat_getLast]
          exact hn
        rename_i hp
        rw [if_neg hp]
        split at he
        · cases he
        rename_i hn
        rw [if_neg hn]
        split at he
        · cases he
        rename_i hm
        rw [if_neg hm]
        exact Classical.byContradiction hn
      · intro hw q hq
        refine ⟨d, by simp, ?_⟩
        apply Classical.byContradiction
        intro hne
        apply hq
        simp only [hmkt]
        rw [m2 q hne, hsame hw]
    | _ =>
      have hstep : makeAll mk w (d :: ds) = ((makeAll mk w' ds).1, (makeAll mk w' ds).2.1, d :: (makeAll mk w' ds).2.2) := by rw [makeAll, hr]; subst ho; rfl
      have hd : w'.1.node (comps d) ≠ none := by
        rw [hmkt]
        rcases m1 with g | ⟨e, g, _⟩
        · exact g
        · rw [← hmko, ho] at g; cases g
      obtain ⟨r1, r2, r3, r4⟩ := ih w' (hmkt ▸ g2)
      have hd' : (makeAll mk w' ds).2.1.1.node (comps d) ≠ none := by
        cases hn : w'.1.node (comps d) with
        | none => exact absurd hn hd
        | some k => rw [r2.keep _ _ hn]; simp
      rw [hstep]
      refine ⟨r1, grows_trans (hmkt ▸ grows_trans o1 g1) r2, ?_, ?_⟩
      · rcases r3 with ⟨a, b⟩ | ⟨a, pre, p, post, b, c, e⟩
        · refine Or.inl ⟨a, fun p hp => ?_⟩
          rcases List.mem_cons.mp hp with rfl | hp
          · exact hd'
          · exact b p hp
        · refine Or.inr ⟨a, d :: pre, p, post, by rw [b]; rfl, fun p' hp => ?_, e⟩
          rcases List.mem_cons.mp hp with rfl | hp
          · exact hd'
          · exact c p' hp
      · intro hw q hq
        by_cases e : (makeAll mk w' ds).2.1.1.node q = w'.1.node q
        · refine ⟨d, by simp, ?_⟩
          apply Classical.byContradiction
          intro hne
          apply hq
          rw [e, hmkt, m2 q hne, hsame hw]
        · obtain ⟨p, hp, e'⟩ := r4 (htail hw) q e
          exact ⟨p, by simp [hp], e'⟩

/-- **C198, in part, for all trees and permissions**: whatever stands in the way and whatever others make, everything that was there is kept, and nothing but directories of the path is made (if no one
else makes any); if the call returns 0, something stands in the place of each directory of the path, and all directories on the way to these are there; otherwise it returns -1, a directory of the path
is not there, and something stands in the place of each one before it (`C198_refuted_rest`: also those that the call has made).  Missing: what stands there may be a file (`C198_refuted_file`). -/
theorem C198_any_partial (t : Tree) (bs : List (List CPath)) (s r : List UInt8) (hs : s ≠ []) (h0 : 0 ∉ s) (h : WF t) :
    ∃ d : Done World, coda_mkpath mk true (s ++ 0 :: r) (t, bs) = .ok d ∧ (∀ q k, t.node q = some k → d.fs.1.node q = some k) ∧ (bs = [] → ∀ q, d.fs.1.node q ≠ t.node q → ∃ p ∈ parents s, q = comps p) ∧
      (d.ret = 0 ∧ (∀ p ∈ parents s, d.fs.1.node (comps p) ≠ none ∧ ∀ q, q <+: comps p → q ≠ comps p → d.fs.1.node q = some .dir) ∨
        d.ret = -1 ∧ ∃ pre p post, parents s = pre ++ p :: post ∧ d.fs.1.node (comps p) = none ∧ ∀ p ∈ pre, d.fs.1.node (comps p) ≠ none) := by
  obtain ⟨r1, r2, r3, r4⟩ := makeAll_any (parents s) (t, bs) h
  refine ⟨_, Mkpath.C67_mkpath_partial mk s r (t, bs) hs h0, r2.keep, r4, ?_⟩
  rcases r3 with ⟨a, b⟩ | ⟨a, pre, p, post, b, c, e⟩
  · refine Or.inl ⟨a, fun p hp => ⟨b p hp, fun q hq hne => ?_⟩⟩
    obtain ⟨l, e⟩ := hq
    exact prefix_dir r1 l q (by rw [e]; exact b p hp) (by rintro rfl; rw [List.append_nil] at e; exact hne e)
  · exact Or.inr ⟨a, pre, p, post, b, e, c⟩

/-- The root only; entries may be made in it, but not in the directory a. -/
def bare : Tree := ⟨fun q => if q = [] then some .dir else none, fun q => q = []⟩

/-- **C198: a call that fails leaves what it has made**: "a/b/c" where nothing may be made in a. -/
theorem C198_refuted_rest : ∃ d : Done World, coda_mkpath mk true [97, 47, 98, 47, 99, 0] (bare, []) = .ok d ∧ d.ret = -1 ∧ bare.node [[97]] = none ∧ d.fs.1.node [[97]] = some .dir := by
  refine ⟨_, Mkpath.C67_mkpath_partial mk [97, 47, 98, 47, 99] [] (bare, []) (by decide) (by decide), ?_, ?_, ?_⟩
  · decide +kernel
  · decide +kernel
  · decide +kernel

/-- A file a and a directory b. -/
def small : Tree := ⟨fun q => if q = [] then some .dir else if q = [[97]] then some .file else if q = [[98]] then some .dir else none, fun _ => true⟩

theorem small_wf : WF small := by
  refine ⟨by simp [small], fun c x hx => ?_⟩
  simp only [small] at hx ⊢
  rw [if_neg (by simp)] at hx
  cases c with
  | nil => simp
  | cons y c => rw [if_neg (by simp), if_neg (by simp)] at hx; exact absurd rfl hx

/-- "a/x": the file a is taken for a directory. -/
example : ∃ d : Done World, coda_mkpath mk true ([97, 47, 120] ++ 0 :: []) (small, []) = .ok d ∧ d.ret = 0 ∧ d.fs.1.node (comps [97]) ≠ some .dir :=
  C198_refuted_file small [97, 47, 120] [] [97] (by decide) (by decide) small_wf (by decide +kernel) (by decide +kernel) (by decide +kernel)

/-- **C198: calls that fail leave what they have made, in all trees**: if the first directory of the path was missing and could be made, it is there afterwards, whether the call fails or not. -/
theorem C198_refuted_rest_all (t : Tree) (s r p : List UInt8) (ds : List (List UInt8)) (hs : s ≠ []) (h0 : 0 ∉ s) (h : WF t) (hp : parents s = p :: ds) (hn : t.node (comps p) = none)
    (hm : t.may (comps p).dropLast = true) : ∃ d : Done World, coda_mkpath mk true (s ++ 0 :: r) (t, []) = .ok d ∧ d.fs.1.node (comps p) = some .dir := by
  have hc := chain_parents s hs
  rw [hp] at hc
  obtain ⟨m1, m2, _⟩ := mkdir_made t [] (comps p) h h.1 hc.1 (by rw [hn]; simp) (Or.inr hm)
  obtain ⟨_, g2⟩ := mkdir_grows false t (comps p) h
  refine ⟨_, Mkpath.C67_mkpath_partial mk s r (t, []) hs h0, ?_⟩
  obtain ⟨_, r2, _⟩ := makeAll_any ds (mk (t, []) p).1 g2
  have hstep : makeAll mk (t, []) (p :: ds) = ((makeAll mk (mk (t, []) p).1 ds).1, (makeAll mk (mk (t, []) p).1 ds).2.1, p :: (makeAll mk (mk (t, []) p).1 ds).2.2) := by
    have hmk : (mk (t, []) p).2 = .made ∨ (mk (t, []) p).2 = .eexist := m1
    rw [makeAll]
    rcases hmk with e | e <;> rw [e]
  rw [hp, hstep]
  exact r2.keep _ _ m2

/-- "/b//c/x", while another process makes b/c: all is there. -/
example : ∃ d : Done World, coda_mkpath mk true ([47, 98, 47, 47, 99, 47, 120] ++ 0 :: []) (small, [[], [], [[[98], [99]]]]) = .ok d ∧ d.ret = 0 ∧ d.fs.1.node [[98], [99]] = some .dir := by
  obtain ⟨d, h1, h2, _, h4, _⟩ := C198_made_partial small [[], [], [[[98], [99]]]] [47, 98, 47, 47, 99, 47, 120] [] (by decide) (by decide) small_wf (by decide +kernel) (by decide +kernel)
  exact ⟨d, h1, h2, h4 [47, 98, 47, 47, 99] (by decide +kernel) _ (by decide +kernel)⟩

end Verif.MkTree
