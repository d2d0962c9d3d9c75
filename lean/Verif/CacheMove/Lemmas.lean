import Verif.CacheMove.Spec

set_option linter.unusedSectionVars false
set_option linter.unusedSimpArgs false

namespace Verif.CacheMove
open Cache CacheRef

variable {K V : Type} [DecidableEq K] [Inhabited V]

theorem setO_same {α : Type} (f : Nat → α) (x : Nat) (o : α) : setO f x o x = o := by simp [setO]
theorem setO_ne {α : Type} (f : Nat → α) {x z : Nat} (o : α) (h : z ≠ x) : setO f x o z = f z := by simp [setO, h]

/-- The table refers to the nodes of `h`, and to all of them. -/
structure Tab (v : View K) (h : Heap K V) (fresh : Nat) : Prop where
  into : ∀ k a, v.data k = some a → ∃ n, h a = some n ∧ n.key = k
  back : ∀ a n, h a = some n → v.data n.key = some a
  old : ∀ a, h a ≠ none → a < fresh

/-- Looking a key up gives the entry of `es`. -/
def Reads (v : View K) (h : Heap K V) (es : List (Spec.Entry K V)) : Prop :=
  ∀ k, (v.data k = none ∧ Spec.lookup es k = none) ∨ ∃ a n e, v.data k = some a ∧ h a = some n ∧ Spec.lookup es k = some e ∧ e.val = n.elem ∧ e.time = n.time.toNat ∧ e ∈ es

/-- The members of an object and its nodes have the value. -/
def Good (cap : V → UInt64) (v : View K) (h : Heap K V) (fresh : Nat) : Val K V → Prop
  | .moved => (∀ k, v.data k = none) ∧ ∀ a, h a = none
  | .full max tmax hist => (∃ l, Rep (asCache v h fresh) l ∧ l.map toEntry = contents cap max tmax hist) ∧ v.size_max = max ∧ v.time_max = tmax ∧ Fits cap tmax hist
  | .snap max tmax hist => Tab v h fresh ∧ Reads v h (contents cap max tmax hist) ∧ v.time_max = tmax ∧ Fits cap tmax hist

theorem rep_tab {v : View K} {h : Heap K V} {fresh : Nat} {l : List (Nat × Ent K V)} (r : Rep (asCache v h fresh) l) : Tab v h fresh := by
  refine ⟨fun k a hk => ?_, fun a n ha => ?_, fun a ha => ?_⟩
  · obtain ⟨xs, e, ys, rfl, rfl⟩ := data_some r (k := k) (a := a) hk
    have := Dl_deref (Dl_append.mp r.dl).2
    unfold deref at this
    cases hh : h a with
    | none => simp [asCache, hh] at this
    | some n =>
      simp only [asCache, hh, Res.ok.injEq] at this
      exact ⟨n, rfl, by rw [this]⟩
  · obtain ⟨e, -, -, -, -, hd⟩ := rep_heap r (x := a) (n := n) ha
    exact hd
  · exact rep_old r a ha

theorem good_tab {cap : V → UInt64} {v : View K} {h : Heap K V} {fresh : Nat} {w : Val K V} (g : Good cap v h fresh w) : Tab v h fresh := by
  cases w with
  | moved => exact ⟨fun k a hk => (by rw [g.1 k] at hk; cases hk), fun a n ha => (by rw [g.2 a] at ha; cases ha), fun a ha => absurd (g.2 a) ha⟩
  | snap => exact g.1
  | full =>
    obtain ⟨⟨l, r, -⟩, -⟩ := g
    exact rep_tab r

theorem tab_fresh {v : View K} {h : Heap K V} {f f' : Nat} (t : Tab v h f) (hf : f ≤ f') : Tab v h f' := ⟨t.into, t.back, fun a ha => Nat.lt_of_lt_of_le (t.old a ha) hf⟩

theorem good_fresh {cap : V → UInt64} {v : View K} {h : Heap K V} {f f' : Nat} {w : Val K V} (g : Good cap v h f w) (hf : f ≤ f') : Good cap v h f' w := by
  cases w with
  | moved => exact g
  | snap => exact ⟨tab_fresh g.1 hf, g.2⟩
  | full =>
    obtain ⟨⟨l, r, e⟩, g⟩ := g
    exact ⟨⟨l, rep_fresh r hf, e⟩, g⟩

theorem lookup_mem {es : List (Spec.Entry K V)} {k : K} {e : Spec.Entry K V} (h : Spec.lookup es k = some e) : e ∈ es := List.mem_of_find?_eq_some h

theorem rep_reads {v : View K} {h : Heap K V} {fresh : Nat} {l : List (Nat × Ent K V)} (r : Rep (asCache v h fresh) l) : Reads v h (l.map toEntry) := by
  intro k
  cases hd : v.data k with
  | none => exact .inl ⟨rfl, lookup_none (data_none r (k := k) hd)⟩
  | some a =>
    obtain ⟨xs, e, ys, rfl, rfl⟩ := data_some r (k := k) (a := a) hd
    have hl := lookup_split (a := a) (keys_split r.keys)
    have := Dl_deref (Dl_append.mp r.dl).2
    unfold deref at this
    cases hh : h a with
    | none => simp [asCache, hh] at this
    | some n =>
      simp only [asCache, hh, Res.ok.injEq] at this
      exact .inr ⟨a, n, _, rfl, hh, hl, by rw [this]; rfl, by rw [this]; rfl, lookup_mem hl⟩

/-! ### All objects -/

/-- Every object has nodes of its own, which are all there are, and its value. -/
structure Inv (cap : V → UInt64) (s : St K V) (σ : Store K V) (own : Nat → Heap K V) : Prop where
  objs : ∀ x, (s.obj x = none ∧ σ x = none ∧ ∀ a, own x a = none) ∨ ∃ v w, s.obj x = some v ∧ σ x = some w ∧ Good cap v (own x) s.fresh w
  dis : ∀ x y a, x ≠ y → own x a ≠ none → own y a = none
  heap : ∀ a n, s.heap a = some n ↔ ∃ x, own x a = some n

theorem inv_init (cap : V → UInt64) : Inv cap (St.init : St K V) (fun _ => none) (fun _ _ => none) :=
  ⟨fun x => .inl ⟨rfl, rfl, fun _ => rfl⟩, fun _ _ _ _ h => absurd rfl h, fun a n => ⟨fun h => (by cases h), fun ⟨_, h⟩ => (by cases h)⟩⟩

theorem inv_some {cap : V → UInt64} {s : St K V} {σ : Store K V} {own : Nat → Heap K V} (i : Inv cap s σ own) {x : Nat} {w : Val K V} (h : σ x = some w) :
    ∃ v, s.obj x = some v ∧ Good cap v (own x) s.fresh w := by
  rcases i.objs x with ⟨-, h', -⟩ | ⟨v, w', h1, h2, g⟩
  · rw [h] at h'; cases h'
  · rw [h] at h2; cases h2; exact ⟨v, h1, g⟩

theorem inv_none {cap : V → UInt64} {s : St K V} {σ : Store K V} {own : Nat → Heap K V} (i : Inv cap s σ own) {x : Nat} (h : σ x = none) :
    s.obj x = none ∧ ∀ a, own x a = none := by
  rcases i.objs x with ⟨h1, -, h2⟩ | ⟨v, w', h1, h2, g⟩
  · exact ⟨h1, h2⟩
  · rw [h] at h2; cases h2

theorem inv_old {cap : V → UInt64} {s : St K V} {σ : Store K V} {own : Nat → Heap K V} (i : Inv cap s σ own) {x a : Nat} (h : own x a ≠ none) : a < s.fresh := by
  rcases i.objs x with ⟨-, -, h2⟩ | ⟨v, w', -, -, g⟩
  · exact absurd (h2 a) h
  · exact (good_tab g).old a h

/-- One object changes. -/
theorem inv_set {cap : V → UInt64} {s : St K V} {σ : Store K V} {own : Nat → Heap K V} (i : Inv cap s σ own) (x : Nat) {v' : Option (View K)} {w' : Option (Val K V)}
    {hx : Heap K V} {heap' : Heap K V} {fresh' : Nat} (hf : s.fresh ≤ fresh')
    (hv : (v' = none ∧ w' = none ∧ ∀ a, hx a = none) ∨ ∃ v w, v' = some v ∧ w' = some w ∧ Good cap v hx fresh' w)
    (hd : ∀ y a, y ≠ x → own y a ≠ none → hx a = none) (hh : ∀ a n, heap' a = some n ↔ hx a = some n ∨ ∃ y, y ≠ x ∧ own y a = some n) :
    Inv cap ⟨heap', fresh', setO s.obj x v'⟩ (setO σ x w') (setO own x hx) := by
  refine ⟨fun y => ?_, fun y z a hyz ha => ?_, fun a n => ?_⟩
  · by_cases hy : y = x
    · subst hy
      simp only [setO_same]
      exact hv
    · simp only [setO_ne _ _ hy]
      rcases i.objs y with h | ⟨v, w, h1, h2, g⟩
      · exact .inl h
      · exact .inr ⟨v, w, h1, h2, good_fresh g hf⟩
  · by_cases hy : y = x
    · subst hy
      rw [setO_same] at ha
      rw [setO_ne _ _ (Ne.symm hyz)]
      by_contra hc
      exact ha (hd z a (Ne.symm hyz) hc)
    · rw [setO_ne _ _ hy] at ha
      by_cases hz : z = x
      · subst hz
        rw [setO_same]
        exact hd y a hy ha
      · rw [setO_ne _ _ hz]
        exact i.dis y z a hyz ha
  · rw [hh]
    constructor
    · rintro (h | ⟨y, hy, h⟩)
      · exact ⟨x, by rw [setO_same]; exact h⟩
      · exact ⟨y, by rw [setO_ne _ _ hy]; exact h⟩
    · rintro ⟨y, h⟩
      by_cases hy : y = x
      · subst hy
        rw [setO_same] at h
        exact .inl h
      · rw [setO_ne _ _ hy] at h
        exact .inr ⟨y, hy, h⟩

/-- The nodes of the other objects. -/
def rest (s : St K V) (own : Nat → Heap K V) (x : Nat) : Heap K V := fun a => if own x a = none then s.heap a else none

theorem rest_join {cap : V → UInt64} {s : St K V} {σ : Store K V} {own : Nat → Heap K V} (i : Inv cap s σ own) (x : Nat) : join (own x) (rest s own x) = s.heap := by
  funext a
  unfold join rest
  cases h : own x a with
  | none => simp
  | some n => simp [(i.heap a n).2 ⟨x, h⟩]

theorem rest_of {cap : V → UInt64} {s : St K V} {σ : Store K V} {own : Nat → Heap K V} (i : Inv cap s σ own) (x a : Nat) (n : Node K V) :
    rest s own x a = some n ↔ ∃ y, y ≠ x ∧ own y a = some n := by
  unfold rest
  constructor
  · intro h
    split at h
    · rename_i hx
      obtain ⟨y, hy⟩ := (i.heap a n).1 h
      refine ⟨y, ?_, hy⟩
      rintro rfl
      rw [hx] at hy; cases hy
    · cases h
  · rintro ⟨y, hy, h⟩
    rw [if_pos (i.dis y x a hy (by rw [h]; simp))]
    exact (i.heap a n).2 ⟨y, h⟩

theorem rest_foreign {cap : V → UInt64} {s : St K V} {σ : Store K V} {own : Nat → Heap K V} (i : Inv cap s σ own) {x : Nat} {v : View K} {l : List (Nat × Ent K V)}
    (r : Rep (asCache v (own x) s.fresh) l) : Foreign (rest s own x) (asCache v (own x) s.fresh) := by
  have key : ∀ a, rest s own x a ≠ none → ∃ y n, y ≠ x ∧ own y a = some n := by
    intro a ha
    cases h : rest s own x a with
    | none => exact absurd h ha
    | some n => obtain ⟨y, hy, e⟩ := (rest_of i x a n).1 h; exact ⟨y, n, hy, e⟩
  refine rep_foreign r (fun a ha => ?_) (fun a ha => ?_)
  · obtain ⟨y, n, hy, e⟩ := key a ha
    exact i.dis y x a hy (by rw [e]; simp)
  · obtain ⟨y, n, hy, e⟩ := key a ha
    exact inv_old i (x := y) (by rw [e]; simp)

/-- Freeing the nodes of a table. -/
theorem destroy_of {cap : V → UInt64} {s : St K V} {σ : Store K V} {own : Nat → Heap K V} (i : Inv cap s σ own) {x : Nat} {v : View K} (t : Tab v (own x) s.fresh) (a : Nat) (n : Node K V) :
    CacheRef.destroy s.heap v a = some n ↔ ∃ y, y ≠ x ∧ own y a = some n := by
  unfold CacheRef.destroy
  cases hh : s.heap a with
  | none =>
    simp only [reduceCtorEq, false_iff]
    rintro ⟨y, -, h⟩
    rw [(i.heap a n).2 ⟨y, h⟩] at hh; cases hh
  | some m =>
    obtain ⟨z, hz⟩ := (i.heap a m).1 hh
    simp only
    by_cases hzx : z = x
    · subst hzx
      rw [if_pos (t.back a m hz)]
      simp only [reduceCtorEq, false_iff]
      rintro ⟨y, hy, h⟩
      rw [i.dis y z a hy (by rw [h]; simp)] at hz; cases hz
    · rw [if_neg]
      · constructor
        · intro h; cases h; exact ⟨z, hzx, hz⟩
        · rintro ⟨y, -, h⟩
          have := (i.heap a n).2 ⟨y, h⟩
          rw [hh] at this
          exact this
      · intro hd
        obtain ⟨m', hm, -⟩ := t.into _ a hd
        rw [i.dis z x a hzx (by rw [hz]; simp)] at hm; cases hm

theorem destroy_left (h : Heap K V) (v : View K) : CacheRef.destroy h (left v) = h := by
  funext a
  unfold CacheRef.destroy left
  cases h a <;> simp

theorem good_left (cap : V → UInt64) (v : View K) (fresh : Nat) : Good cap (left v) (fun _ => none : Heap K V) fresh .moved := ⟨fun _ => rfl, fun _ => rfl⟩

/-- The nodes of a copy. -/
def moveUp (h : Heap K V) (fresh : Nat) : Heap K V := fun a => if a < fresh then none else h (a - fresh)

theorem copyNodes_of {cap : V → UInt64} {s : St K V} {σ : Store K V} {own : Nat → Heap K V} (i : Inv cap s σ own) {y : Nat} {v : View K} (t : Tab v (own y) s.fresh) (a : Nat) (n : Node K V) :
    copyNodes s.heap s.fresh v a = some n ↔ moveUp (own y) s.fresh a = some n ∨ ∃ z, own z a = some n := by
  unfold copyNodes moveUp
  by_cases ha : a < s.fresh
  · simp only [if_pos ha, reduceCtorEq, false_or]
    exact i.heap a n
  · simp only [if_neg ha]
    have hno : ¬ ∃ z, own z a = some n := by
      rintro ⟨z, h⟩
      exact ha (inv_old i (x := z) (by rw [h]; simp))
    simp only [hno, or_false]
    unfold copied asCache
    simp only
    cases hh : s.heap (a - s.fresh) with
    | none =>
      simp only [reduceCtorEq, false_iff]
      intro h
      rw [(i.heap _ n).2 ⟨y, h⟩] at hh; cases hh
    | some m =>
      simp only
      constructor
      · intro h
        split at h
        · rename_i hd
          cases h
          obtain ⟨m', hm, -⟩ := t.into _ _ hd
          have := (i.heap _ m').2 ⟨y, hm⟩
          rw [hh] at this
          cases this
          exact hm
        · cases h
      · intro h
        have := (i.heap _ n).2 ⟨y, h⟩
        rw [hh] at this
        cases this
        rw [if_pos (t.back _ _ h)]

theorem tab_copy {v : View K} {h : Heap K V} {fresh : Nat} (t : Tab v h fresh) : Tab (copyView v fresh) (moveUp h fresh) (fresh + fresh) := by
  refine ⟨fun k a hk => ?_, fun a n ha => ?_, fun a ha => ?_⟩
  · simp only [copyView, Option.map_eq_some_iff] at hk
    obtain ⟨b, hb, rfl⟩ := hk
    obtain ⟨n, hn, hk⟩ := t.into k b hb
    refine ⟨n, ?_, hk⟩
    unfold moveUp
    rw [if_neg (by omega), Nat.add_sub_cancel_left]
    exact hn
  · unfold moveUp at ha
    split at ha
    · cases ha
    · have := t.back _ _ ha
      simp only [copyView, this, Option.map_some, Option.some.injEq]
      omega
  · unfold moveUp at ha
    split at ha
    · exact absurd rfl ha
    · have := t.old _ ha
      omega

theorem reads_copy {v : View K} {h : Heap K V} {fresh : Nat} {es : List (Spec.Entry K V)} (t : Reads v h es) : Reads (copyView v fresh) (moveUp h fresh) es := by
  intro k
  rcases t k with ⟨h1, h2⟩ | ⟨a, n, e, h1, h2, h3⟩
  · exact .inl ⟨by simp [copyView, h1], h2⟩
  · refine .inr ⟨fresh + a, n, e, by simp [copyView, h1], ?_, h3⟩
    unfold moveUp
    rw [if_neg (by omega), Nat.add_sub_cancel_left]
    exact h2

theorem good_copied {cap : V → UInt64} {v : View K} {h : Heap K V} {fresh : Nat} {w w' : Val K V} (g : Good cap v h fresh w) (c : Copied cap w w') :
    Good cap (copyView v fresh) (moveUp h fresh) (fresh + fresh) w' := by
  cases c with
  | full max tmax hist =>
    obtain ⟨⟨l, r, e⟩, -, ht, hf⟩ := g
    exact ⟨tab_copy (rep_tab r), reads_copy (by rw [← e]; exact rep_reads r), ht, hf⟩
  | snap => exact ⟨tab_copy g.1, reads_copy g.2.1, g.2.2⟩
  | empty max tmax hist he =>
    obtain ⟨⟨l, r, e⟩, hm, ht, hf⟩ := g
    have : l = [] := by
      rw [he] at e
      simpa using e
    subst this
    have hd : ∀ k, v.data k = none := by
      intro k
      cases hx : v.data k with
      | none => rfl
      | some a => obtain ⟨e, he, -⟩ := (r.tbl k a).1 hx; simp at he
    have hh : ∀ a, h a = none := by
      intro a
      cases hx : h a with
      | none => rfl
      | some n => exact absurd (r.alive a (by simp [asCache, hx])) (by simp)
    refine ⟨⟨[], ⟨trivial, r.beg, r.fin, ?_, by simp, by simp, by simp, r.size, by simp, ?_⟩, e⟩, hm, ht, hf⟩
    · intro k a
      simp [asCache, copyView, hd]
    · intro a
      simp [asCache, moveUp, hh]

/-- A copy into an object that has no nodes. -/
theorem inv_copy {cap : V → UInt64} {s : St K V} {σ : Store K V} {own : Nat → Heap K V} (i : Inv cap s σ own) {x y : Nat} {vy : View K} {w w' : Val K V}
    (hx : ∀ a, own x a = none) (oy : s.obj y = some vy) (σy : σ y = some w) (c : Copied cap w w') :
    Inv cap ⟨copyNodes s.heap s.fresh vy, s.fresh + s.fresh, setO s.obj x (some (copyView vy s.fresh))⟩ (setO σ x (some w')) (setO own x (moveUp (own y) s.fresh)) := by
  obtain ⟨v, o, g⟩ := inv_some i σy
  rw [oy] at o
  cases o
  refine inv_set i x (Nat.le_add_right _ _) (.inr ⟨_, _, rfl, rfl, good_copied g c⟩) (fun z a hz ha => ?_) (fun a n => ?_)
  · unfold moveUp
    rw [if_pos (inv_old i ha)]
  · rw [copyNodes_of i (good_tab g)]
    constructor
    · rintro (h | ⟨z, h⟩)
      · exact .inl h
      · refine .inr ⟨z, ?_, h⟩
        rintro rfl
        rw [hx] at h; cases h
    · rintro (h | ⟨z, -, h⟩)
      · exact .inl h
      · exact .inr ⟨z, h⟩

/-- A move into an object that has no nodes. -/
theorem inv_move {cap : V → UInt64} {s : St K V} {σ : Store K V} {own : Nat → Heap K V} (i : Inv cap s σ own) {x y : Nat} {vy : View K} {w : Val K V}
    (hxy : x ≠ y) (hx : ∀ a, own x a = none) (oy : s.obj y = some vy) (σy : σ y = some w) :
    Inv cap ⟨s.heap, s.fresh, setO (setO s.obj y (some (left vy))) x (some vy)⟩ (setO (setO σ y (some .moved)) x (some w)) (setO (setO own y (fun _ => none)) x (own y)) := by
  obtain ⟨v, o, g⟩ := inv_some i σy
  rw [oy] at o
  cases o
  have ownx : ∀ z, z ≠ x → z ≠ y → setO (setO own y (fun _ => none)) x (own y) z = own z := by
    intro z h1 h2
    rw [setO_ne _ _ h1, setO_ne _ _ h2]
  have ownx' : setO (setO own y (fun _ => none)) x (own y) x = own y := setO_same ..
  have owny' : setO (setO own y (fun _ => none)) x (own y) y = fun _ => none := by rw [setO_ne _ _ (Ne.symm hxy), setO_same]
  refine ⟨fun z => ?_, fun z1 z2 a hz ha => ?_, fun a n => ?_⟩
  · by_cases h1 : z = x
    · subst h1
      refine .inr ⟨vy, w, setO_same .., setO_same .., ?_⟩
      rw [ownx']
      exact g
    · by_cases h2 : z = y
      · subst h2
        refine .inr ⟨left vy, .moved, by simp only [setO_ne _ _ h1, setO_same], by simp only [setO_ne _ _ h1, setO_same], ?_⟩
        rw [owny']
        exact good_left ..
      · rw [ownx z h1 h2]
        simp only [setO_ne _ _ h1, setO_ne _ _ h2]
        exact i.objs z
  · by_cases h1 : z1 = x
    · subst h1
      rw [ownx'] at ha
      by_cases h2 : z2 = y
      · subst h2; rw [owny']
      · rw [ownx z2 (Ne.symm hz) h2]
        exact i.dis y z2 a (Ne.symm h2) ha
    · by_cases h2 : z1 = y
      · subst h2; rw [owny'] at ha; exact absurd rfl ha
      · rw [ownx z1 h1 h2] at ha
        by_cases h3 : z2 = x
        · subst h3; rw [ownx']; exact i.dis z1 y a h2 ha
        · by_cases h4 : z2 = y
          · subst h4; rw [owny']
          · rw [ownx z2 h3 h4]; exact i.dis z1 z2 a hz ha
  · rw [i.heap]
    constructor
    · rintro ⟨z, h⟩
      by_cases h1 : z = x
      · subst h1; rw [hx] at h; cases h
      · by_cases h2 : z = y
        · subst h2; exact ⟨x, by rw [ownx']; exact h⟩
        · exact ⟨z, by rw [ownx z h1 h2]; exact h⟩
    · rintro ⟨z, h⟩
      by_cases h1 : z = x
      · subst h1; rw [ownx'] at h; exact ⟨y, h⟩
      · by_cases h2 : z = y
        · subst h2; rw [owny'] at h; cases h
        · rw [ownx z h1 h2] at h; exact ⟨z, h⟩

/-- The table gives up its nodes. -/
theorem inv_drop {cap : V → UInt64} {s : St K V} {σ : Store K V} {own : Nat → Heap K V} (i : Inv cap s σ own) {x : Nat} {vx : View K} (ox : s.obj x = some vx) :
    Inv cap ⟨CacheRef.destroy s.heap vx, s.fresh, setO s.obj x (some (left vx))⟩ (setO σ x (some .moved)) (setO own x (fun _ => none)) ∧
    Inv cap ⟨CacheRef.destroy s.heap vx, s.fresh, setO s.obj x none⟩ (setO σ x none) (setO own x (fun _ => none)) := by
  have t : Tab vx (own x) s.fresh := by
    rcases i.objs x with ⟨h, -⟩ | ⟨v, w, h, -, g⟩
    · rw [ox] at h; cases h
    · rw [ox] at h; cases h; exact good_tab g
  have hh : ∀ a n, CacheRef.destroy s.heap vx a = some n ↔ (fun _ => none : Heap K V) a = some n ∨ ∃ y, y ≠ x ∧ own y a = some n := by
    intro a n
    rw [destroy_of i t]
    simp
  exact ⟨inv_set i x (Nat.le_refl _) (.inr ⟨_, _, rfl, rfl, good_left ..⟩) (fun _ _ _ _ => rfl) hh, inv_set i x (Nat.le_refl _) (.inl ⟨rfl, rfl, fun _ => rfl⟩) (fun _ _ _ _ => rfl) hh⟩

theorem setO_setO {α : Type} (f : Nat → α) (x : Nat) (a b : α) : setO (setO f x a) x b = setO f x b := by
  funext z
  by_cases h : z = x <;> simp [setO, h]

theorem setO_comm {α : Type} (f : Nat → α) {x y : Nat} (h : x ≠ y) (a b : α) : setO (setO f x a) y b = setO (setO f y b) x a := by
  funext z
  by_cases h1 : z = x
  · subst h1; simp [setO, h]
  · by_cases h2 : z = y
    · subst h2; simp [setO, h1]
    · simp [setO, h1, h2]

theorem setO_id {α : Type} {f : Nat → α} {x : Nat} {a : α} (h : f x = a) : setO f x a = f := by
  funext z
  by_cases h1 : z = x
  · subst h1; simp [setO, h]
  · simp [setO, h1]

/-- What a call needs of the sizes and times. -/
theorem fits_need (cap : V → UInt64) (max tmax : UInt64) (l : List (Nat × Ent K V)) (a : List (Op K V)) (o : Op K V) (hl : l.map toEntry = contents cap max tmax a)
    (hf : Fits cap tmax (a ++ [o])) :
    Spec.total (l.map toEntry) + evSize (capN cap) (evOf o) < 2 ^ 64 ∧ (∀ e ∈ l.map toEntry, e.time + tmax.toNat < 2 ^ 64) ∧
      contents cap max tmax (a ++ [o]) = Spec.after (capN cap) max.toNat tmax.toNat (contents cap max tmax a) (evOf o) := by
  have hf4 := hf
  unfold Fits at hf4
  rw [List.map_append] at hf4
  have hsz := hf4.1
  rw [setSizes_append, List.map_cons, List.map_nil, setSizes_one] at hsz
  have htot := contents_total (capN cap) max.toNat tmax.toNat (a.map evOf)
  refine ⟨?_, ?_, ?_⟩
  · rw [hl]; exact Nat.lt_of_le_of_lt (Nat.add_le_add_right htot _) hsz
  · rw [hl]; exact Fits_times (Fits_prefix hf4)
  · unfold contents
    rw [List.map_append, List.map_cons, List.map_nil, contents_snoc]
    rfl

/-- A read of a copy. -/
theorem get_snap {cap : V → UInt64} {v : View K} {h : Heap K V} {heap : Heap K V} {fresh : Nat} {max tmax : UInt64} {hist : List (Op K V)}
    (g : Good cap v h fresh (.snap max tmax hist)) (hs : ∀ a n, h a = some n → heap a = some n) (k : K) (now : UInt64) (hm : MayGet cap k now (.snap max tmax hist)) :
    Cache.get (asCache v heap fresh) k now = .ok (asCache v heap fresh, answer cap k now (.snap max tmax hist)) := by
  obtain ⟨-, r, ht, hf⟩ := g
  simp only [answer, found]
  simp only [MayGet] at hm
  unfold Cache.get
  rcases r k with ⟨h1, h2⟩ | ⟨a, n, e, h1, h2, h3, h4, h5, h6⟩
  · have : (asCache v heap fresh).data k = none := h1
    rw [this, h2]
  · have hd : (asCache v heap fresh).data k = some a := h1
    have hp : (asCache v heap fresh).heap a = some n := hs a n h2
    rw [hd, h3]
    simp only [deref, hp, Res.ok_bind]
    have hne := hm e h3
    have htm : e.time + tmax.toNat < 2 ^ 64 := Fits_times hf e h6
    rw [if_neg, if_neg hne, h4]
    intro hc
    apply hne
    obtain ⟨c1, c2⟩ := hc
    have ht' : (asCache v heap fresh).time_max = tmax := ht
    rw [ht'] at c1 c2
    refine ⟨fun hz => c1 (UInt64.toNat_inj.1 (by simpa using hz)), ?_⟩
    rw [UInt64.lt_iff_toNat_lt, UInt64.toNat_add, ← h5, Nat.mod_eq_of_lt (by omega)] at c2
    exact c2

/-- A call on a full cache. -/
theorem call_full {cap : V → UInt64} {s : St K V} {σ : Store K V} {own : Nat → Heap K V} (i : Inv cap s σ own) {x : Nat} {v : View K} {max tmax : UInt64} {hist : List (Op K V)}
    (ox : s.obj x = some v) (σx : σ x = some (.full max tmax hist)) (o : Op K V) (hf : Fits cap tmax (hist ++ [o])) :
    ∃ c own', Cache.step cap (asCache v s.heap s.fresh) o = .ok c ∧
      Inv cap ⟨c.heap, c.fresh, setO s.obj x (some (viewOf c))⟩ (setO σ x (some (.full max tmax (hist ++ [o])))) own' := by
  obtain ⟨v', ox', ⟨l, r, hl⟩, hm, ht, -⟩ := inv_some i σx
  rw [ox] at ox'
  cases ox'
  obtain ⟨n1, n2, n3⟩ := fits_need cap max tmax l hist o hl hf
  obtain ⟨s', l', e, r', m', t', hl'⟩ := step_ref cap r o n1 (by rw [show (asCache v (own x) s.fresh).time_max = tmax from ht]; exact n2)
  have hw : asCache v s.heap s.fresh = wide (asCache v (own x) s.fresh) (rest s own x) := by
    rw [← rest_join i x]; rfl
  obtain ⟨e', f'⟩ := wide_step (rest_foreign i r) e
  refine ⟨wide s' (rest s own x), setO own x s'.heap, by rw [hw, e'], ?_⟩
  refine inv_set i x (step_fresh e) (.inr ⟨_, _, rfl, rfl, ⟨l', r', ?_⟩, m'.trans hm, t'.trans ht, hf⟩) (fun y a hy ha => ?_) (fun a n => ?_)
  · rw [hl', n3, hl, show (asCache v (own x) s.fresh).time_max = tmax from ht, show (asCache v (own x) s.fresh).size_max = max from hm]
  · cases hh : own y a with
    | none => exact absurd hh ha
    | some n => exact f'.dom a (by rw [(rest_of i x a n).2 ⟨y, hy, hh⟩]; simp)
  · rw [← rest_of i x a n]
    simp only [wide, join]
    cases hs : s'.heap a with
    | none => simp
    | some m =>
      have : rest s own x a = none := by
        by_contra hc
        rw [f'.dom a hc] at hs; cases hs
      simp [this]

theorem step_inv {cap : V → UInt64} {s : St K V} {σ σ' : Store K V} {own : Nat → Heap K V} (i : Inv cap s σ own) {a : Act K V} (h : VStep cap σ a σ') :
    ∃ s' own', step cap s a = .ok s' ∧ Inv cap s' σ' own' := by
  cases h with
  | new max tmax hx =>
    rename_i x
    obtain ⟨o, hn⟩ := inv_none i hx
    refine ⟨_, setO own x (fun _ => none), by simp only [step, o]; rfl, inv_set i x (Nat.le_refl _) (.inr ⟨_, _, rfl, rfl, ⟨[], ?_, rfl⟩, rfl, rfl, ?_⟩) (fun _ _ _ _ => rfl) (fun a n => ?_)⟩
    · exact ⟨trivial, rfl, rfl, by simp [asCache, blank], by simp, by simp, by simp, rfl, by simp, by simp [asCache]⟩
    · refine ⟨?_, by simp⟩
      show (0 : Nat) < 2 ^ 64
      decide
    · rw [i.heap]
      constructor
      · rintro ⟨z, h⟩
        refine .inr ⟨z, ?_, h⟩
        rintro rfl
        rw [hn] at h; cases h
      · rintro (h | ⟨z, -, h⟩)
        · cases h
        · exact ⟨z, h⟩
  | call o hx hf =>
    obtain ⟨v, ox, -⟩ := inv_some i hx
    obtain ⟨c, own', e, i'⟩ := call_full i ox hx o hf
    exact ⟨_, own', by simp only [step, ox, e, Res.ok_bind], i'⟩
  | read k now hx hm =>
    obtain ⟨v, ox, g⟩ := inv_some i hx
    have := get_snap (heap := s.heap) g (fun a n h => (i.heap a n).2 ⟨_, h⟩) k now hm
    refine ⟨s, own, ?_, i⟩
    simp only [step, ox, Cache.step, this, Res.ok_bind]
    congr 1
    have : setO s.obj _ (some (viewOf (asCache v s.heap s.fresh))) = s.obj := setO_id ox
    rw [this]
    rfl
  | copy hx hy hc =>
    obtain ⟨ox, hn⟩ := inv_none i hx
    obtain ⟨vy, oy, -⟩ := inv_some i hy
    exact ⟨_, _, by simp only [step, ox, oy], inv_copy i hn oy hy hc⟩
  | @assign x y u v w hxy hx hy hc =>
    obtain ⟨vx, ox, -⟩ := inv_some i hx
    obtain ⟨vy, oy, -⟩ := inv_some i hy
    have i1 := (inv_drop i ox).1
    have i2 := inv_copy i1 (x := x) (y := y) (vy := vy) (fun a => by rw [setO_same]) (by simp only [setO_ne _ _ (Ne.symm hxy)]; exact oy)
      (by simp only [setO_ne _ _ (Ne.symm hxy)]; exact hy) hc
    simp only [setO_setO] at i2
    exact ⟨_, _, by simp only [step, ox, oy, if_neg hxy, assignObj, moveObj], i2⟩
  | @self x v hx =>
    obtain ⟨vx, ox, -⟩ := inv_some i hx
    exact ⟨s, own, by simp only [step, ox, if_true], i⟩
  | @move x y v hx hy =>
    obtain ⟨ox, hn⟩ := inv_none i hx
    obtain ⟨vy, oy, -⟩ := inv_some i hy
    have hxy : x ≠ y := by rintro rfl; rw [ox] at oy; cases oy
    exact ⟨_, _, by simp only [step, ox, oy], inv_move i hxy hn oy hy⟩
  | @moveAssign x y u v hxy hx hy =>
    obtain ⟨vx, ox, -⟩ := inv_some i hx
    obtain ⟨vy, oy, -⟩ := inv_some i hy
    have i1 := (inv_drop i ox).1
    have i2 := inv_move i1 (x := x) (y := y) (vy := vy) hxy (fun a => by rw [setO_same]) (by simp only [setO_ne _ _ (Ne.symm hxy)]; exact oy)
      (by simp only [setO_ne _ _ (Ne.symm hxy)]; exact hy)
    rw [setO_comm s.obj hxy, setO_setO, setO_comm σ hxy, setO_setO] at i2
    exact ⟨_, _, by simp only [step, ox, oy, if_neg hxy, assignObj, moveObj], i2⟩
  | @swap x y u v hxy hx hy =>
    obtain ⟨vx, ox, gx⟩ := inv_some i hx
    obtain ⟨vy, oy, gy⟩ := inv_some i hy
    refine ⟨⟨s.heap, s.fresh, setO (setO s.obj y (some vx)) x (some vy)⟩, setO (setO own y (own x)) x (own y), ?_, ?_⟩
    · simp only [step, ox, oy, if_neg hxy, moveObj, destroy_left]
      congr 2
      funext z
      by_cases h1 : z = x
      · subst h1; simp [setO, hxy]
      · by_cases h2 : z = y
        · subst h2; simp [setO, h1]
        · simp [setO, h1, h2]
    · have ownx : ∀ z, z ≠ x → z ≠ y → setO (setO own y (own x)) x (own y) z = own z := by
        intro z h1 h2
        rw [setO_ne _ _ h1, setO_ne _ _ h2]
      have ex : setO (setO own y (own x)) x (own y) x = own y := setO_same ..
      have ey : setO (setO own y (own x)) x (own y) y = own x := by rw [setO_ne _ _ (Ne.symm hxy), setO_same]
      refine ⟨fun z => ?_, fun z1 z2 a hz ha => ?_, fun a n => ?_⟩
      · by_cases h1 : z = x
        · subst h1
          exact .inr ⟨vy, v, setO_same .., setO_same .., by rw [ex]; exact gy⟩
        · by_cases h2 : z = y
          · subst h2
            exact .inr ⟨vx, u, by simp only [setO_ne _ _ h1, setO_same], by simp only [setO_ne _ _ h1, setO_same], by rw [ey]; exact gx⟩
          · rw [ownx z h1 h2]
            simp only [setO_ne _ _ h1, setO_ne _ _ h2]
            exact i.objs z
      · have key : ∀ z, ∃ z', setO (setO own y (own x)) x (own y) z = own z' ∧ ((z = x ∧ z' = y) ∨ (z = y ∧ z' = x) ∨ (z ≠ x ∧ z ≠ y ∧ z' = z)) := by
          intro z
          by_cases h1 : z = x
          · exact ⟨y, by rw [h1, ex], .inl ⟨h1, rfl⟩⟩
          · by_cases h2 : z = y
            · exact ⟨x, by rw [h2, ey], .inr (.inl ⟨h2, rfl⟩)⟩
            · exact ⟨z, ownx z h1 h2, .inr (.inr ⟨h1, h2, rfl⟩)⟩
        obtain ⟨y1, e1, c1⟩ := key z1
        obtain ⟨y2, e2, c2⟩ := key z2
        rw [e1] at ha
        rw [e2]
        exact i.dis y1 y2 a (by omega) ha
      · rw [i.heap]
        constructor
        · rintro ⟨z, h⟩
          by_cases h1 : z = x
          · subst h1; exact ⟨y, by rw [ey]; exact h⟩
          · by_cases h2 : z = y
            · subst h2; exact ⟨x, by rw [ex]; exact h⟩
            · exact ⟨z, by rw [ownx z h1 h2]; exact h⟩
        · rintro ⟨z, h⟩
          by_cases h1 : z = x
          · subst h1; rw [ex] at h; exact ⟨y, h⟩
          · by_cases h2 : z = y
            · subst h2; rw [ey] at h; exact ⟨x, h⟩
            · rw [ownx z h1 h2] at h; exact ⟨z, h⟩
  | destroy hx =>
    obtain ⟨vx, ox, -⟩ := inv_some i hx
    exact ⟨_, _, by simp only [step, ox], (inv_drop i ox).2⟩

theorem run_inv {cap : V → UInt64} {as : List (Act K V)} : ∀ {s : St K V} {σ σ' : Store K V} {own : Nat → Heap K V}, Inv cap s σ own → VRun cap σ as σ' →
    ∃ s' own', run cap s as = .ok s' ∧ Inv cap s' σ' own' := by
  induction as with
  | nil => intro s σ σ' own i h; cases h; exact ⟨s, own, rfl, i⟩
  | cons a as ih =>
    intro s σ σ' own i h
    cases h with
    | cons h1 h2 =>
      obtain ⟨s1, own1, e1, i1⟩ := step_inv i h1
      obtain ⟨s2, own2, e2, i2⟩ := ih i1 h2
      exact ⟨s2, own2, by rw [run, e1]; exact e2, i2⟩

theorem get_inv {cap : V → UInt64} {s : St K V} {σ : Store K V} {own : Nat → Heap K V} (i : Inv cap s σ own) {x : Nat} {v : View K} {w : Val K V} (ox : s.obj x = some v) (σx : σ x = some w)
    (k : K) (now : UInt64) (hm : MayGet cap k now w) : ∃ c, Cache.get (asCache v s.heap s.fresh) k now = .ok (c, answer cap k now w) := by
  obtain ⟨v', ox', g⟩ := inv_some i σx
  rw [ox] at ox'
  cases ox'
  cases w with
  | moved => exact hm.elim
  | snap => exact ⟨_, get_snap g (fun a n h => (i.heap a n).2 ⟨_, h⟩) k now hm⟩
  | full max tmax hist =>
    obtain ⟨⟨l, r, hl⟩, -, ht, hf⟩ := g
    have hw : asCache v s.heap s.fresh = wide (asCache v (own x) s.fresh) (rest s own x) := by
      rw [← rest_join i x]; rfl
    have f := rest_foreign i r
    have htm : ∀ e ∈ l.map toEntry, e.time + v.time_max.toNat < 2 ^ 64 := by rw [hl, ht]; exact Fits_times hf
    rw [hw]
    simp only [answer, found]
    rw [← hl]
    rcases get_spec r k now with ⟨hd, h⟩ | ⟨xs, b, e, ys, rfl, rfl, hd, h⟩
    · rw [lookup_none (data_none r hd)]
      exact ⟨_, (wide_get f h).1⟩
    · rw [lookup_split (keys_split r.keys)]
      have hex := expired_iff e b v.time_max now (htm (toEntry (b, e)) (by simp))
      rw [← ht]
      rcases h with ⟨hc, h⟩ | ⟨hc, s', h, -⟩
      · refine ⟨wide (asCache v (own x) s.fresh) (rest s own x), ?_⟩
        simp only [if_neg (fun hx => hc (hex.2 hx))]
        exact (wide_get f h).1
      · refine ⟨wide s' (rest s own x), ?_⟩
        simp only [if_pos (hex.1 hc)]
        exact (wide_get f h).1

end Verif.CacheMove
