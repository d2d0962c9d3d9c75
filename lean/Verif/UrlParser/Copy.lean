/-
  Copying of coda_url objects (C80): several objects and the heap with the blocks they own.
  coda/url_parser.cpp:9-85.
-/
import Verif.UrlParser.Norm

set_option linter.unusedSimpArgs false
set_option linter.unusedVariables false

namespace Verif.UrlParser

/-- A coda_url whose `val_str` is the number of a block of the heap: coda/url_parser.hpp:11-14.  (`dom_str` is the offset `dom` in the same block.) -/
structure Obj where
  blk : Option Nat
  len : Nat
  dom : Nat
  dlen : Nat

/-- The blocks that have been allocated, none for the freed ones, and the objects that are alive.  The objects (coda/url_parser.hpp:11-14) and the heap blocks of their `val_str`. -/
structure St where
  heap : List (Option Buf)
  obj : Nat → Option Obj

/-- Nothing is alive.  The objects (coda/url_parser.hpp:11-14) and the heap blocks of their `val_str`. -/
def St.init : St := ⟨[], fun _ => none⟩

/-- free: of a block that is alive.  The objects (coda/url_parser.hpp:11-14) and the heap blocks of their `val_str`. -/
def freeBlk (h : List (Option Buf)) (i : Nat) : Res (List (Option Buf)) :=
  match h[i]? with
  | some (some _) => .ok (h.set i none)
  | _ => .ub

/-- `if (allocated()) free(val_str)`: coda/url_parser.cpp:39-42, 68-71, 76-79; `allocated`: coda/url_parser.hpp:41. -/
def release (h : List (Option Buf)) (o : Obj) : Res (List (Option Buf)) :=
  match o.blk with
  | none => .ok h
  | some i => freeBlk h i

/-- The bytes of a block that is alive.  The objects (coda/url_parser.hpp:11-14) and the heap blocks of their `val_str`. -/
def bytesOf (h : List (Option Buf)) (i : Nat) : Res Buf :=
  match h[i]? with
  | some (some b) => .ok b
  | _ => .ub

/-- The copying part: coda/url_parser.cpp:17-34 and 44-61.  malloc gives a block that has not been used before. -/
def copyFrom (h : List (Option Buf)) (u : Obj) : Res (List (Option Buf) × Obj) :=
  if u.len = 0 then .ok (h, ⟨none, 0, 0, 0⟩)
  else
    match u.blk with
    | none => .ub
    | some i => do
      let b ← bytesOf h i
      let n := u.len + u.dlen + 2
      let c ← memcpy (List.replicate n 0) 0 b n
      .ok (h ++ [some c], ⟨some h.length, u.len, u.len + 1, u.dlen⟩)

/-- What a program does with its objects. `make`: construction (or use of an empty object) with a successful create_*, whose result is `u`;
`reset`: create_* that fails.  Bookkeeping: the calls of coda/url_parser.cpp:9-132 on several objects one after the other. -/
inductive Op where
  | new (x : Nat)
  | make (x : Nat) (u : Url)
  | copy (x y : Nat)
  | assign (x y : Nat)
  | reset (x : Nat)
  | destroy (x : Nat)

/-- The objects (coda/url_parser.hpp:11-14) and the heap blocks of their `val_str`. -/
def setObj (f : Nat → Option Obj) (x : Nat) (o : Option Obj) : Nat → Option Obj := fun z => if z = x then o else f z

/-- One operation.  Using an object that is not alive is undefined, and so is constructing one that is.  Bookkeeping: the calls of coda/url_parser.cpp:9-132 on several objects one after the other. -/
def step (s : St) : Op → Res St
  -- coda/url_parser.cpp:9-13
  | .new x => match s.obj x with
    | none => .ok ⟨s.heap, setObj s.obj x (some ⟨none, 0, 0, 0⟩)⟩
    | some _ => .ub
  -- coda/url_parser.cpp:95, 110
  | .make x u => match s.obj x with
    | none => .ub
    | some o =>
      if o.len ≠ 0 then .ub else
      match u.val with
      | none => .ub
      | some b => .ok ⟨s.heap ++ [some b], setObj s.obj x (some ⟨some s.heap.length, u.len, u.dom, u.dlen⟩)⟩
  -- coda/url_parser.cpp:15-35
  | .copy x y => match s.obj x, s.obj y with
    | none, some o => do
      let (h, o') ← copyFrom s.heap o
      .ok ⟨h, setObj s.obj x (some o')⟩
    | _, _ => .ub
  -- coda/url_parser.cpp:37-64; the members of `u` are read after `free`
  | .assign x y => match s.obj x, s.obj y with
    | some o, some u => do
      let h ← release s.heap o
      let (h, o') ← copyFrom h u
      .ok ⟨h, setObj s.obj x (some o')⟩
    | _, _ => .ub
  -- coda/url_parser.cpp:74-85
  | .reset x => match s.obj x with
    | none => .ub
    | some o => do
      let h ← release s.heap o
      .ok ⟨h, setObj s.obj x (some ⟨none, 0, 0, 0⟩)⟩
  -- coda/url_parser.cpp:66-72
  | .destroy x => match s.obj x with
    | none => .ub
    | some o => do
      let h ← release s.heap o
      .ok ⟨h, setObj s.obj x none⟩

/-- Bookkeeping: the calls of coda/url_parser.cpp:9-132 on several objects one after the other. -/
def run (s : St) : List Op → Res St
  | [] => .ok s
  | op :: ops => do
    let s ← step s op
    run s ops

/-- An object as the functions of the class see it.  Specification, not code: what the calls of coda/url_parser.cpp:9-132 should do to values. -/
def view (s : St) (x : Nat) : Res Url :=
  match s.obj x with
  | none => .ub
  | some o =>
    match o.blk with
    | none => .ok ⟨none, o.len, o.dom, o.dlen⟩
    | some i => do
      let b ← bytesOf s.heap i
      .ok ⟨some b, o.len, o.dom, o.dlen⟩

/-! ### What it should do: objects are values (text and domain) -/

/-- Specification, not code: what the calls of coda/url_parser.cpp:9-132 should do to values. -/
abbrev Store := Nat → Option (List UInt8 × List UInt8)

/-- Specification, not code: what the calls of coda/url_parser.cpp:9-132 should do to values. -/
def setVal (f : Store) (x : Nat) (v : Option (List UInt8 × List UInt8)) : Store := fun z => if z = x then v else f z

/-- One operation on values, if the program may do it.  Specification, not code: what the calls of coda/url_parser.cpp:9-132 should do to values. -/
inductive VStep : Store → Op → Store → Prop
  | new (σ x) : σ x = none → VStep σ (.new x) (setVal σ x (some ([], [])))
  | make (σ x u t d) : σ x = some ([], []) → Holds u t d → t ≠ [] → VStep σ (.make x u) (setVal σ x (some (t, d)))
  | copy (σ x y v) : σ x = none → σ y = some v → VStep σ (.copy x y) (setVal σ x (some v))
  | assign (σ x y v w) : σ x = some w → σ y = some v → VStep σ (.assign x y) (setVal σ x (some v))
  | reset (σ x v) : σ x = some v → VStep σ (.reset x) (setVal σ x (some ([], [])))
  | destroy (σ x v) : σ x = some v → VStep σ (.destroy x) (setVal σ x none)

/-- A sequence of operations each of which satisfies `P`.  Specification, not code: what the calls of coda/url_parser.cpp:9-132 should do to values. -/
inductive VRun (P : Store → Op → Prop) : Store → List Op → Store → Prop
  | nil (σ) : VRun P σ [] σ
  | cons {σ σ' σ'' op ops} : P σ op → VStep σ op σ' → VRun P σ' ops σ'' → VRun P σ (op :: ops) σ''

/-- The object has the value.  Specification, not code: what the calls of coda/url_parser.cpp:9-132 should do to values. -/
def Shows (u : Url) (v : List UInt8 × List UInt8) : Prop :=
  (v = ([], []) ∧ u = Url.null) ∨ (v.1 ≠ [] ∧ Holds u v.1 v.2)

/-- No object is assigned to itself, unless it is empty.  Specification, not code: what the calls of coda/url_parser.cpp:9-132 should do to values. -/
def NoSelf (σ : Store) : Op → Prop
  | .assign x y => x = y → σ x = some ([], [])
  | _ => True

/-! ### The invariant -/

/-- Specification, not code: what the calls of coda/url_parser.cpp:9-132 should do to values. -/
def Owns (s : St) (o : Obj) (v : List UInt8 × List UInt8) : Prop :=
  (v = ([], []) ∧ o = ⟨none, 0, 0, 0⟩) ∨
  (v.1 ≠ [] ∧ ∃ i z, o = ⟨some i, v.1.length, v.1.length + 1, v.2.length⟩ ∧ s.heap[i]? = some (some (v.1 ++ 0 :: v.2 ++ 0 :: z)))

/-- Specification, not code: what the calls of coda/url_parser.cpp:9-132 should do to values. -/
structure Inv (s : St) (σ : Store) : Prop where
  dead : ∀ x, σ x = none → s.obj x = none
  live : ∀ x v, σ x = some v → ∃ o, s.obj x = some o ∧ Owns s o v
  own : ∀ x y o p i, s.obj x = some o → s.obj y = some p → o.blk = some i → p.blk = some i → x = y
  leak : ∀ i b, s.heap[i]? = some (some b) → ∃ x o, s.obj x = some o ∧ o.blk = some i

theorem inv_init : Inv St.init (fun _ => none) := by
  refine ⟨fun _ _ => rfl, fun _ _ h => (by cases h), fun _ _ _ _ _ h => (by cases h), fun i b h => ?_⟩
  simp [St.init] at h

theorem inv_bound {s : St} {σ : Store} (h : Inv s σ) {x o i} (hx : s.obj x = some o) (hi : o.blk = some i) : i < s.heap.length := by
  cases hv : σ x with
  | none => rw [h.dead x hv] at hx; cases hx
  | some v =>
    obtain ⟨o', ho', hown⟩ := h.live x v hv
    rw [hx] at ho'; cases ho'
    rcases hown with ⟨_, rfl⟩ | ⟨_, j, z, rfl, hj⟩
    · cases hi
    · cases hi
      exact (List.getElem?_eq_some_iff.mp hj).1

/-- Other blocks are not touched when one is freed. -/
theorem release_spec {s : St} {σ : Store} (h : Inv s σ) {x o} (hx : s.obj x = some o) :
    ∃ hp, release s.heap o = .ok hp ∧ hp.length = s.heap.length ∧
      (∀ j, o.blk ≠ some j → hp[j]? = s.heap[j]?) ∧ (∀ i, o.blk = some i → hp[i]? = some none) := by
  cases hb : o.blk with
  | none => exact ⟨s.heap, by simp [release, hb], rfl, fun _ _ => rfl, fun i hi => by cases hi⟩
  | some i =>
    have hlt := inv_bound h hx hb
    have hblk : ∃ b, s.heap[i]? = some (some b) := by
      cases hv : σ x with
      | none => rw [h.dead x hv] at hx; cases hx
      | some v =>
        obtain ⟨o', ho', hown⟩ := h.live x v hv
        rw [hx] at ho'; cases ho'
        rcases hown with ⟨_, rfl⟩ | ⟨_, j, z, rfl, hj⟩
        · cases hb
        · cases hb; exact ⟨_, hj⟩
    obtain ⟨b, hb2⟩ := hblk
    refine ⟨s.heap.set i none, by simp [release, hb, freeBlk, hb2], by simp, fun j hj => ?_, fun j hj => ?_⟩
    · rw [List.getElem?_set_ne]
      rintro rfl; exact hj rfl
    · cases hj
      rw [List.getElem?_set_self hlt]

theorem copyFrom_spec (hp : List (Option Buf)) (o : Obj) (v : List UInt8 × List UInt8) (hown : Owns ⟨hp, fun _ => none⟩ o v) :
    (v = ([], []) ∧ copyFrom hp o = .ok (hp, ⟨none, 0, 0, 0⟩)) ∨
    (v.1 ≠ [] ∧ copyFrom hp o = .ok (hp ++ [some (v.1 ++ 0 :: v.2 ++ [0])], ⟨some hp.length, v.1.length, v.1.length + 1, v.2.length⟩)) := by
  rcases hown with ⟨hv, rfl⟩ | ⟨hne, i, z, rfl, hi⟩
  · left; exact ⟨hv, by simp [copyFrom]⟩
  · right
    refine ⟨hne, ?_⟩
    have hl : v.1.length ≠ 0 := by simpa using hne
    simp only at hi
    simp only [copyFrom]
    rw [if_neg hl]
    simp only [bytesOf, hi, Res.ok_bind]
    rw [memcpy_eq _ 0 _ _ (by simp) (by simp; omega)]
    simp only [Res.ok_bind]
    congr 5
    simp only [List.take_zero, List.nil_append, Nat.zero_add]
    rw [List.drop_of_length_le (by simp), List.append_nil,
      show v.1 ++ 0 :: v.2 ++ 0 :: z = (v.1 ++ 0 :: v.2 ++ [0]) ++ z by simp]
    exact List.take_left' (by simp; omega)

/-- An object and a value are installed at `x` in a heap `hp` in which nothing else has changed. -/
theorem inv_install {s : St} {σ : Store} (h : Inv s σ) (x : Nat) (hp : List (Option Buf)) (o' : Obj) (v : List UInt8 × List UInt8)
    (hkeep : ∀ z oz j, z ≠ x → s.obj z = some oz → oz.blk = some j → hp[j]? = s.heap[j]?)
    (hown : Owns ⟨hp, fun _ => none⟩ o' v)
    (hfresh : ∀ z oz j, z ≠ x → s.obj z = some oz → oz.blk = some j → o'.blk ≠ some j)
    (hleak : ∀ i b, hp[i]? = some (some b) → o'.blk = some i ∨ ∃ z oz, z ≠ x ∧ s.obj z = some oz ∧ oz.blk = some i) :
    Inv ⟨hp, setObj s.obj x (some o')⟩ (setVal σ x (some v)) := by
  refine ⟨?_, ?_, ?_, ?_⟩
  · intro z hz
    by_cases hzx : z = x
    · subst hzx; simp [setVal] at hz
    · simp only [setVal, setObj, if_neg hzx] at hz ⊢
      exact h.dead z hz
  · intro z w hz
    by_cases hzx : z = x
    · subst hzx
      simp [setVal] at hz
      subst hz
      exact ⟨o', by simp [setObj], hown⟩
    · simp only [setVal, setObj, if_neg hzx] at hz ⊢
      obtain ⟨oz, h1, h2⟩ := h.live z w hz
      refine ⟨oz, h1, ?_⟩
      rcases h2 with h2 | ⟨hne, i, zz, rfl, hi⟩
      · exact Or.inl h2
      · exact Or.inr ⟨hne, i, zz, rfl, by simp only; rw [hkeep z _ i hzx h1 rfl]; exact hi⟩
  · intro a b oa ob i ha hb hia hib
    simp only [setObj] at ha hb
    by_cases hax : a = x <;> by_cases hbx : b = x
    · rw [hax, hbx]
    · subst hax
      rw [if_pos rfl] at ha; cases ha
      rw [if_neg hbx] at hb
      exact absurd hia (hfresh b ob i hbx hb hib)
    · subst hbx
      rw [if_pos rfl] at hb; cases hb
      rw [if_neg hax] at ha
      exact absurd hib (hfresh a oa i hax ha hia)
    · rw [if_neg hax] at ha
      rw [if_neg hbx] at hb
      exact h.own a b oa ob i ha hb hia hib
  · intro i b hi
    rcases hleak i b hi with h1 | ⟨z, oz, hzx, h1, h2⟩
    · exact ⟨x, o', by simp [setObj], h1⟩
    · exact ⟨z, oz, by simp [setObj, hzx, h1], h2⟩

theorem step_inv {s : St} {σ σ' : Store} {op : Op} (h : Inv s σ) (hs : VStep σ op σ') (hns : NoSelf σ op) :
    ∃ s', step s op = .ok s' ∧ Inv s' σ' := by
  cases hs with
  | new x hx =>
    have hd := h.dead x hx
    refine ⟨⟨s.heap, setObj s.obj x (some ⟨none, 0, 0, 0⟩)⟩, by simp [step, hd], ?_⟩
    refine inv_install h x s.heap _ _ (fun _ _ _ _ _ _ => rfl) (Or.inl ⟨rfl, rfl⟩) (fun _ _ _ _ _ _ => by simp) ?_
    intro i b hi
    obtain ⟨z, oz, h1, h2⟩ := h.leak i b hi
    exact Or.inr ⟨z, oz, (by rintro rfl; rw [hd] at h1; cases h1), h1, h2⟩
  | make x u t d hx hu ht =>
    obtain ⟨o, ho, hown⟩ := h.live x _ hx
    have hempty : o = ⟨none, 0, 0, 0⟩ := by
      rcases hown with ⟨_, h1⟩ | ⟨hne, _⟩
      · exact h1
      · exact absurd rfl hne
    subst hempty
    obtain ⟨h1, h2, h3, z, h4⟩ := hu
    refine ⟨⟨s.heap ++ [some (t ++ 0 :: d ++ 0 :: z)], setObj s.obj x (some ⟨some s.heap.length, u.len, u.dom, u.dlen⟩)⟩, by simp [step, ho, h4], ?_⟩
    refine inv_install h x _ _ _ ?_ (Or.inr ⟨ht, s.heap.length, z, by rw [h1, h2, h3], by simp⟩) ?_ ?_
    · intro y oy j _ hy hj
      rw [List.getElem?_append_left (inv_bound h hy hj)]
    · intro y oy j _ hy hj hc
      have := inv_bound h hy hj
      cases hc; omega
    · intro i b hi
      by_cases hlt : i < s.heap.length
      · rw [List.getElem?_append_left hlt] at hi
        obtain ⟨y, oy, h5, h6⟩ := h.leak i b hi
        refine Or.inr ⟨y, oy, ?_, h5, h6⟩
        rintro rfl
        rw [ho] at h5; cases h5; cases h6
      · left
        have := (List.getElem?_eq_some_iff.mp hi).1
        simp at this
        have : i = s.heap.length := by omega
        rw [this]
  | copy x y v hx hy =>
    have hd := h.dead x hx
    obtain ⟨o, ho, hown⟩ := h.live y v hy
    have hstep : step s (.copy x y) = (do
      let (h, o') ← copyFrom s.heap o
      .ok ⟨h, setObj s.obj x (some o')⟩) := by simp [step, hd, ho]
    rw [hstep]
    rcases copyFrom_spec s.heap o v hown with ⟨rfl, hc⟩ | ⟨hne, hc⟩
    · rw [hc]
      refine ⟨_, rfl, ?_⟩
      refine inv_install h x s.heap _ _ (fun _ _ _ _ _ _ => rfl) (Or.inl ⟨rfl, rfl⟩) (fun _ _ _ _ _ _ => by simp) ?_
      intro i b hi
      obtain ⟨z, oz, h1, h2⟩ := h.leak i b hi
      exact Or.inr ⟨z, oz, (by rintro rfl; rw [hd] at h1; cases h1), h1, h2⟩
    · rw [hc]
      refine ⟨_, rfl, ?_⟩
      refine inv_install h x _ _ _ ?_ (Or.inr ⟨hne, s.heap.length, [], rfl, by simp⟩) ?_ ?_
      · intro z oz j _ hz hj
        rw [List.getElem?_append_left (inv_bound h hz hj)]
      · intro z oz j _ hz hj hc
        have := inv_bound h hz hj
        cases hc; omega
      · intro i b hi
        by_cases hlt : i < s.heap.length
        · rw [List.getElem?_append_left hlt] at hi
          obtain ⟨z, oz, h5, h6⟩ := h.leak i b hi
          exact Or.inr ⟨z, oz, (by rintro rfl; rw [hd] at h5; cases h5), h5, h6⟩
        · left
          have := (List.getElem?_eq_some_iff.mp hi).1
          simp at this
          have : i = s.heap.length := by omega
          rw [this]
  | assign x y v w hx hy =>
    obtain ⟨o, ho, -⟩ := h.live x w hx
    obtain ⟨p, hp, hown⟩ := h.live y v hy
    obtain ⟨hh, hr, hlen, hother, hself⟩ := release_spec h ho
    have hstep : step s (.assign x y) = (do
      let (h, o') ← copyFrom hh p
      .ok ⟨h, setObj s.obj x (some o')⟩) := by simp [step, ho, hp, hr]
    rw [hstep]
    have hkeep : ∀ z oz j, z ≠ x → s.obj z = some oz → oz.blk = some j → hh[j]? = s.heap[j]? := by
      intro z oz j hzx hz hj
      apply hother
      intro hc
      exact hzx (h.own z x oz o j hz ho hj hc)
    have hleak : ∀ i b, hh[i]? = some (some b) → ∃ z oz, z ≠ x ∧ s.obj z = some oz ∧ oz.blk = some i := by
      intro i b hi
      have hne : o.blk ≠ some i := by
        intro hc; rw [hself i hc] at hi; cases hi
      rw [hother i hne] at hi
      obtain ⟨z, oz, h1, h2⟩ := h.leak i b hi
      refine ⟨z, oz, ?_, h1, h2⟩
      rintro rfl
      rw [ho] at h1; cases h1
      exact hne h2
    have hown' : Owns ⟨hh, fun _ => none⟩ p v := by
      rcases hown with h1 | ⟨hne, i, z, rfl, hi⟩
      · exact Or.inl h1
      · refine Or.inr ⟨hne, i, z, rfl, ?_⟩
        have hyx : y ≠ x := by
          intro hc
          have h0 := hns hc.symm
          rw [← hc, hy] at h0
          cases h0
          exact hne rfl
        simp only
        rw [hkeep y _ i hyx hp rfl]; exact hi
    rcases copyFrom_spec hh p v hown' with ⟨rfl, hc⟩ | ⟨hne, hc⟩
    · rw [hc]
      exact ⟨_, rfl, inv_install h x hh _ _ hkeep (Or.inl ⟨rfl, rfl⟩) (fun _ _ _ _ _ _ => by simp) (fun i b hi => Or.inr (hleak i b hi))⟩
    · rw [hc]
      refine ⟨_, rfl, ?_⟩
      refine inv_install h x _ _ _ ?_ (Or.inr ⟨hne, hh.length, [], rfl, by simp⟩) ?_ ?_
      · intro z oz j hzx hz hj
        rw [List.getElem?_append_left (by rw [hlen]; exact inv_bound h hz hj)]
        exact hkeep z oz j hzx hz hj
      · intro z oz j _ hz hj hc
        have := inv_bound h hz hj
        cases hc; omega
      · intro i b hi
        by_cases hlt : i < hh.length
        · rw [List.getElem?_append_left hlt] at hi
          exact Or.inr (hleak i b hi)
        · left
          have := (List.getElem?_eq_some_iff.mp hi).1
          simp at this
          have : i = hh.length := by omega
          rw [this]
  | reset x v hx =>
    obtain ⟨o, ho, -⟩ := h.live x v hx
    obtain ⟨hh, hr, hlen, hother, hself⟩ := release_spec h ho
    refine ⟨⟨hh, setObj s.obj x (some ⟨none, 0, 0, 0⟩)⟩, by simp [step, ho, hr], ?_⟩
    refine inv_install h x hh _ _ ?_ (Or.inl ⟨rfl, rfl⟩) (fun _ _ _ _ _ _ => by simp) ?_
    · intro z oz j hzx hz hj
      apply hother
      intro hc
      exact hzx (h.own z x oz o j hz ho hj hc)
    · intro i b hi
      have hne : o.blk ≠ some i := by
        intro hc; rw [hself i hc] at hi; cases hi
      rw [hother i hne] at hi
      obtain ⟨z, oz, h1, h2⟩ := h.leak i b hi
      refine Or.inr ⟨z, oz, ?_, h1, h2⟩
      rintro rfl
      rw [ho] at h1; cases h1
      exact hne h2
  | destroy x v hx =>
    obtain ⟨o, ho, -⟩ := h.live x v hx
    obtain ⟨hh, hr, hlen, hother, hself⟩ := release_spec h ho
    have hkeep : ∀ z oz j, z ≠ x → s.obj z = some oz → oz.blk = some j → hh[j]? = s.heap[j]? := by
      intro z oz j hzx hz hj
      apply hother
      intro hc
      exact hzx (h.own z x oz o j hz ho hj hc)
    refine ⟨⟨hh, setObj s.obj x none⟩, by simp [step, ho, hr], ?_, ?_, ?_, ?_⟩
    · intro z hz
      by_cases hzx : z = x
      · simp [setObj, hzx]
      · simp only [setVal, setObj, if_neg hzx] at hz ⊢
        exact h.dead z hz
    · intro z w hz
      by_cases hzx : z = x
      · subst hzx; simp [setVal] at hz
      · simp only [setVal, setObj, if_neg hzx] at hz ⊢
        obtain ⟨oz, h1, h2⟩ := h.live z w hz
        refine ⟨oz, h1, ?_⟩
        rcases h2 with h2 | ⟨hne, i, zz, rfl, hi⟩
        · exact Or.inl h2
        · exact Or.inr ⟨hne, i, zz, rfl, by simp only; rw [hkeep z _ i hzx h1 rfl]; exact hi⟩
    · intro a b oa ob i ha hb hia hib
      simp only [setObj] at ha hb
      by_cases hax : a = x
      · rw [if_pos hax] at ha; cases ha
      · by_cases hbx : b = x
        · rw [if_pos hbx] at hb; cases hb
        · rw [if_neg hax] at ha
          rw [if_neg hbx] at hb
          exact h.own a b oa ob i ha hb hia hib
    · intro i b hi
      have hne : o.blk ≠ some i := by
        intro hc; rw [hself i hc] at hi; cases hi
      rw [hother i hne] at hi
      obtain ⟨z, oz, h1, h2⟩ := h.leak i b hi
      refine ⟨z, oz, ?_, h2⟩
      have : z ≠ x := by
        rintro rfl
        rw [ho] at h1; cases h1
        exact hne h2
      simp [setObj, this, h1]

theorem run_inv {ops : List Op} : ∀ {s : St} {σ σ' : Store}, Inv s σ → VRun NoSelf σ ops σ' →
    ∃ s', run s ops = .ok s' ∧ Inv s' σ' := by
  induction ops with
  | nil => intro s σ σ' h hr; cases hr; exact ⟨s, rfl, h⟩
  | cons op ops ih =>
    intro s σ σ' h hr
    cases hr with
    | cons h0 h1 h2 =>
      obtain ⟨s1, hs1, hi1⟩ := step_inv h h1 h0
      obtain ⟨s2, hs2, hi2⟩ := ih hi1 h2
      exact ⟨s2, by simp [run, hs1, hs2], hi2⟩

end Verif.UrlParser
