/-
  Lemmas for C151: as long as no connected object is copied, every connected object has a block and a mapping of its own.
-/
import Verif.QueueCopy.Spec

namespace Verif.QueueCopy

theorem upd_same {α : Type} (f : Nat → α) (i : Nat) (x : α) : upd f i x i = x := by simp [upd]
theorem upd_ne {α : Type} (f : Nat → α) {i j : Nat} (x : α) (h : j ≠ i) : upd f i x j = f j := by simp [upd, h]

/-- A connected object. -/
structure Conn (bs : Nat) (s : State) (o : Obj) (u : Spec.User) (p i : Nat) : Prop where
  on : u.on = true
  len : u.buf.length = bs
  obj : o = ⟨some p, bs, u.pos, some i⟩
  blk : s.blocks p = some u.buf
  map : s.maps i = true
  pl : p < s.nb
  il : i < s.nm

def Rel (bs : Nat) (s : State) : Option Obj → Option Spec.User → Prop
  | none, none => True
  | some o, some u => (o = .new ∧ u = ⟨false, [], 0⟩) ∨ (∃ p i, Conn bs s o u p i)
  | _, _ => False

structure R (bs : Nat) (s : State) (t : Spec.State) : Prop where
  objs : ∀ h, Rel bs s (s.objs h) (t.us h)
  injp : ∀ h g o o' p, s.objs h = some o → s.objs g = some o' → o.ptr = some p → o'.ptr = some p → h = g
  inji : ∀ h g o o' p, s.objs h = some o → s.objs g = some o' → o.info = some p → o'.info = some p → h = g
  ring : s.ring = t.ring
  rlen : ∀ b ∈ t.ring, b.length = bs
  ownp : ∀ p b, s.blocks p = some b → ∃ h o, s.objs h = some o ∧ o.ptr = some p
  owni : ∀ i, s.maps i = true → ∃ h o, s.objs h = some o ∧ o.info = some i

theorem R.init (bs : Nat) : R bs .init .init :=
  ⟨fun _ => trivial, nofun, nofun, rfl, nofun, nofun, nofun⟩

/-- The two sides of an object. -/
theorem R.cases {bs : Nat} {s : State} {t : Spec.State} (r : R bs s t) (h : Nat) :
    (s.objs h = none ∧ t.us h = none) ∨ (s.objs h = some .new ∧ t.us h = some ⟨false, [], 0⟩) ∨
      (∃ o u p i, s.objs h = some o ∧ t.us h = some u ∧ Conn bs s o u p i) := by
  have q := r.objs h
  cases e : s.objs h with
  | none =>
    cases e' : t.us h with
    | none => exact Or.inl ⟨rfl, rfl⟩
    | some u => rw [e, e'] at q; exact q.elim
  | some o =>
    cases e' : t.us h with
    | none => rw [e, e'] at q; exact q.elim
    | some u =>
      rw [e, e'] at q
      rcases q with ⟨rfl, rfl⟩ | ⟨p, i, c⟩
      · exact Or.inr (Or.inl ⟨rfl, rfl⟩)
      · exact Or.inr (Or.inr ⟨o, u, p, i, rfl, rfl, c⟩)

/-- Nothing a connected object refers to is changed by what happens to other objects. -/
theorem Rel.mono {bs : Nat} {s s' : State} {x : Option Obj} {y : Option Spec.User} (r : Rel bs s x y)
    (hb : ∀ o p, x = some o → o.ptr = some p → s'.blocks p = s.blocks p) (hm : ∀ o i, x = some o → o.info = some i → s'.maps i = s.maps i)
    (hn : s.nb ≤ s'.nb) (hk : s.nm ≤ s'.nm) : Rel bs s' x y := by
  cases x with
  | none => cases y with
    | none => trivial
    | some u => exact r.elim
  | some o =>
    cases y with
    | none => exact r.elim
    | some u =>
      rcases r with r | ⟨p, i, c⟩
      · exact Or.inl r
      · have ep : o.ptr = some p := by rw [c.obj]
        have ei : o.info = some i := by rw [c.obj]
        exact Or.inr ⟨p, i, ⟨c.on, c.len, c.obj, (hb o p rfl ep).trans c.blk, (hm o i rfl ei).trans c.map, Nat.lt_of_lt_of_le c.pl hn, Nat.lt_of_lt_of_le c.il hk⟩⟩

/-- A connected object moves in its box, and the box and the queue change. -/
theorem R.move {bs : Nat} {s : State} {t : Spec.State} (r : R bs s t) {h : Nat} {o : Obj} {u : Spec.User} {p i : Nat}
    (ho : s.objs h = some o) (c : Conn bs s o u p i) {b : List UInt8} (hb : b.length = bs) (n : Nat) {ring : List (List UInt8)} (hr : ∀ b ∈ ring, b.length = bs) :
    R bs ⟨upd s.blocks p (some b), s.maps, s.nb, s.nm, upd s.objs h (some ⟨some p, bs, n, some i⟩), ring⟩
      ⟨fun j => if j = h then some ⟨true, b, n⟩ else t.us j, ring⟩ := by
  have ep : o.ptr = some p := by rw [c.obj]
  have ei : o.info = some i := by rw [c.obj]
  have back : ∀ g x, upd s.objs h (some ⟨some p, bs, n, some i⟩) g = some x → ∃ y, s.objs g = some y ∧ y.ptr = x.ptr ∧ y.info = x.info := by
    intro g x e
    by_cases hg : g = h
    · subst hg
      rw [upd_same] at e
      cases e
      exact ⟨o, ho, ep, ei⟩
    · rw [upd_ne _ _ hg] at e
      exact ⟨x, e, rfl, rfl⟩
  have forth : ∀ g x, s.objs g = some x → ∃ y, upd s.objs h (some ⟨some p, bs, n, some i⟩) g = some y ∧ y.ptr = x.ptr ∧ y.info = x.info := by
    intro g x e
    by_cases hg : g = h
    · subst hg
      rw [ho] at e
      cases e
      exact ⟨_, upd_same _ _ _, ep.symm, ei.symm⟩
    · exact ⟨x, (upd_ne _ _ hg).trans e, rfl, rfl⟩
  refine ⟨?_, ?_, ?_, rfl, hr, ?_, ?_⟩
  · intro g
    by_cases hg : g = h
    · subst hg
      simp only [upd_same, if_true]
      exact Or.inr ⟨p, i, rfl, hb, rfl, upd_same _ _ _, c.map, c.pl, c.il⟩
    · simp only [upd_ne _ _ hg, if_neg hg]
      refine (r.objs g).mono ?_ (fun _ _ _ _ => rfl) (Nat.le_refl _) (Nat.le_refl _)
      intro x q ex eq
      have : q ≠ p := by
        intro e
        subst e
        exact hg (r.injp g h x o q ex ho eq ep)
      exact upd_ne _ _ this
  · intro g k x y q ex ey eq eq'
    obtain ⟨x', e1, e2, -⟩ := back g x ex
    obtain ⟨y', e3, e4, -⟩ := back k y ey
    exact r.injp g k x' y' q e1 e3 (e2.trans eq) (e4.trans eq')
  · intro g k x y q ex ey eq eq'
    obtain ⟨x', e1, -, e2⟩ := back g x ex
    obtain ⟨y', e3, -, e4⟩ := back k y ey
    exact r.inji g k x' y' q e1 e3 (e2.trans eq) (e4.trans eq')
  · intro q b' e
    have : ∃ b, s.blocks q = some b := by
      by_cases hq : q = p
      · subst hq; exact ⟨_, c.blk⟩
      · exact ⟨b', (upd_ne s.blocks (some b) hq).symm.trans e⟩
    obtain ⟨b'', eb⟩ := this
    obtain ⟨g, x, e1, e2⟩ := r.ownp q b'' eb
    obtain ⟨y, e3, e4, -⟩ := forth g x e1
    exact ⟨g, y, e3, e4.trans e2⟩
  · intro q e
    obtain ⟨g, x, e1, e2⟩ := r.owni q e
    obtain ⟨y, e3, -, e4⟩ := forth g x e1
    exact ⟨g, y, e3, e4.trans e2⟩

/-- The two forms of an object that owns nothing. -/
def Free : Option Obj → Option Spec.User → Prop
  | none, none => True
  | some o, some u => o = .new ∧ u = ⟨false, [], 0⟩
  | _, _ => False

theorem Free.rel {bs : Nat} {s : State} {x : Option Obj} {y : Option Spec.User} (f : Free x y) : Rel bs s x y := by
  cases x <;> cases y <;> first | trivial | exact f.elim | exact Or.inl f

theorem Free.obj {x : Option Obj} {y : Option Spec.User} (f : Free x y) {o : Obj} (e : x = some o) : o.ptr = none ∧ o.info = none := by
  subst e
  cases y with
  | none => exact f.elim
  | some u => rw [f.1]; exact ⟨rfl, rfl⟩

/-- An object that owns nothing is created, copied, assigned or destroyed. -/
theorem R.free {bs : Nat} {s : State} {t : Spec.State} (r : R bs s t) {h : Nat} (f : Free (s.objs h) (t.us h)) {x : Option Obj} {y : Option Spec.User} (f' : Free x y) :
    R bs { s with objs := upd s.objs h x } { t with us := fun j => if j = h then y else t.us j } := by
  have back : ∀ g z, upd s.objs h x g = some z → (z.ptr = none ∧ z.info = none) ∨ s.objs g = some z := by
    intro g z e
    by_cases hg : g = h
    · subst hg
      rw [upd_same] at e
      exact Or.inl (f'.obj e)
    · rw [upd_ne _ _ hg] at e
      exact Or.inr e
  have forth : ∀ g z, s.objs g = some z → (z.ptr = none ∧ z.info = none) ∨ upd s.objs h x g = some z := by
    intro g z e
    by_cases hg : g = h
    · subst hg
      exact Or.inl (f.obj e)
    · exact Or.inr ((upd_ne _ _ hg).trans e)
  refine ⟨?_, ?_, ?_, r.ring, r.rlen, ?_, ?_⟩
  · intro g
    by_cases hg : g = h
    · subst hg
      simp only [upd_same, if_true]
      exact f'.rel
    · simp only [upd_ne _ _ hg, if_neg hg]
      exact (r.objs g).mono (fun _ _ _ _ => rfl) (fun _ _ _ _ => rfl) (Nat.le_refl _) (Nat.le_refl _)
  · intro g k a b q ea eb eq eq'
    rcases back g a ea with ⟨e, -⟩ | e
    · rw [e] at eq; cases eq
    rcases back k b eb with ⟨e', -⟩ | e'
    · rw [e'] at eq'; cases eq'
    exact r.injp g k a b q e e' eq eq'
  · intro g k a b q ea eb eq eq'
    rcases back g a ea with ⟨-, e⟩ | e
    · rw [e] at eq; cases eq
    rcases back k b eb with ⟨-, e'⟩ | e'
    · rw [e'] at eq'; cases eq'
    exact r.inji g k a b q e e' eq eq'
  · intro q b e
    obtain ⟨g, z, e1, e2⟩ := r.ownp q b e
    rcases forth g z e1 with ⟨e3, -⟩ | e3
    · rw [e3] at e2; cases e2
    · exact ⟨g, z, e3, e2⟩
  · intro q e
    obtain ⟨g, z, e1, e2⟩ := r.owni q e
    rcases forth g z e1 with ⟨-, e3⟩ | e3
    · rw [e3] at e2; cases e2
    · exact ⟨g, z, e3, e2⟩

/-- A connected object gives up its block and its mapping. -/
theorem R.drop {bs : Nat} {s : State} {t : Spec.State} (r : R bs s t) {h : Nat} {o : Obj} {u : Spec.User} {p i : Nat}
    (ho : s.objs h = some o) (c : Conn bs s o u p i) {x : Option Obj} {y : Option Spec.User} (f' : Free x y) :
    R bs ⟨upd s.blocks p none, upd s.maps i false, s.nb, s.nm, upd s.objs h x, s.ring⟩ { t with us := fun j => if j = h then y else t.us j } := by
  have ep : o.ptr = some p := by rw [c.obj]
  have ei : o.info = some i := by rw [c.obj]
  have back : ∀ g z, upd s.objs h x g = some z → (z.ptr = none ∧ z.info = none) ∨ s.objs g = some z := by
    intro g z e
    by_cases hg : g = h
    · subst hg
      rw [upd_same] at e
      exact Or.inl (f'.obj e)
    · rw [upd_ne _ _ hg] at e
      exact Or.inr e
  refine ⟨?_, ?_, ?_, r.ring, r.rlen, ?_, ?_⟩
  · intro g
    by_cases hg : g = h
    · subst hg
      simp only [upd_same, if_true]
      exact f'.rel
    · simp only [upd_ne _ _ hg, if_neg hg]
      refine (r.objs g).mono ?_ ?_ (Nat.le_refl _) (Nat.le_refl _)
      · intro z q ez eq
        refine upd_ne _ _ ?_
        intro e
        subst e
        exact hg (r.injp g h z o q ez ho eq ep)
      · intro z q ez eq
        refine upd_ne _ _ ?_
        intro e
        subst e
        exact hg (r.inji g h z o q ez ho eq ei)
  · intro g k a b q ea eb eq eq'
    rcases back g a ea with ⟨e, -⟩ | e
    · rw [e] at eq; cases eq
    rcases back k b eb with ⟨e', -⟩ | e'
    · rw [e'] at eq'; cases eq'
    exact r.injp g k a b q e e' eq eq'
  · intro g k a b q ea eb eq eq'
    rcases back g a ea with ⟨-, e⟩ | e
    · rw [e] at eq; cases eq
    rcases back k b eb with ⟨-, e'⟩ | e'
    · rw [e'] at eq'; cases eq'
    exact r.inji g k a b q e e' eq eq'
  · intro q b e
    have hq : q ≠ p := by
      intro e'
      subst e'
      simp [upd] at e
    obtain ⟨g, z, e1, e2⟩ := r.ownp q b ((upd_ne s.blocks none hq).symm.trans e)
    have hg : g ≠ h := by
      intro e'
      subst e'
      rw [ho] at e1
      cases e1
      rw [ep] at e2
      cases e2
      exact hq rfl
    exact ⟨g, z, (upd_ne _ _ hg).trans e1, e2⟩
  · intro q e
    have hq : q ≠ i := by
      intro e'
      subst e'
      simp [upd] at e
    obtain ⟨g, z, e1, e2⟩ := r.owni q ((upd_ne s.maps false hq).symm.trans e)
    have hg : g ≠ h := by
      intro e'
      subst e'
      rw [ho] at e1
      cases e1
      rw [ei] at e2
      cases e2
      exact hq rfl
    exact ⟨g, z, (upd_ne _ _ hg).trans e1, e2⟩

/-- What an object refers to was allocated before. -/
theorem R.lt {bs : Nat} {s : State} {t : Spec.State} (r : R bs s t) {h : Nat} {o : Obj} (ho : s.objs h = some o) :
    (∀ p, o.ptr = some p → p < s.nb) ∧ (∀ i, o.info = some i → i < s.nm) := by
  rcases r.cases h with ⟨e, -⟩ | ⟨e, -⟩ | ⟨o', u, p, i, e, -, c⟩
  · rw [ho] at e; cases e
  · rw [ho] at e; cases e; exact ⟨nofun, nofun⟩
  · rw [ho] at e
    cases e
    rw [c.obj]
    exact ⟨fun q e => by cases e; exact c.pl, fun q e => by cases e; exact c.il⟩

/-- An object that owns nothing is connected. -/
theorem R.connect {bs : Nat} {s : State} {t : Spec.State} (r : R bs s t) {h : Nat} (f : Free (s.objs h) (t.us h)) :
    R bs ⟨upd s.blocks s.nb (some (List.replicate bs 0)), upd s.maps s.nm true, s.nb + 1, s.nm + 1, upd s.objs h (some ⟨some s.nb, bs, 0, some s.nm⟩), s.ring⟩
      { t with us := fun j => if j = h then some ⟨true, List.replicate bs 0, 0⟩ else t.us j } := by
  have nb : ∀ g k a b q, g ≠ h → k = h → upd s.objs h (some ⟨some s.nb, bs, 0, some s.nm⟩) g = some a → upd s.objs h (some ⟨some s.nb, bs, 0, some s.nm⟩) k = some b →
      ((a.ptr = some q → b.ptr = some q → False) ∧ (a.info = some q → b.info = some q → False)) := by
    intro g k a b q hg hk ea eb
    subst hk
    rw [upd_ne _ _ hg] at ea
    rw [upd_same] at eb
    cases eb
    have l := r.lt ea
    constructor
    · intro e1 e2
      cases e2
      exact absurd (l.1 _ e1) (Nat.lt_irrefl _)
    · intro e1 e2
      cases e2
      exact absurd (l.2 _ e1) (Nat.lt_irrefl _)
  refine ⟨?_, ?_, ?_, r.ring, r.rlen, ?_, ?_⟩
  · intro g
    by_cases hg : g = h
    · subst hg
      simp only [upd_same, if_true]
      exact Or.inr ⟨s.nb, s.nm, rfl, List.length_replicate, rfl, upd_same _ _ _, upd_same _ _ _, Nat.lt_succ_self _, Nat.lt_succ_self _⟩
    · simp only [upd_ne _ _ hg, if_neg hg]
      refine (r.objs g).mono ?_ ?_ (Nat.le_succ _) (Nat.le_succ _)
      · intro z q ez eq
        exact upd_ne _ _ (Nat.ne_of_lt ((r.lt ez).1 q eq))
      · intro z q ez eq
        exact upd_ne _ _ (Nat.ne_of_lt ((r.lt ez).2 q eq))
  · intro g k a b q ea eb eq eq'
    by_cases hg : g = h
    · by_cases hk : k = h
      · exact hg.trans hk.symm
      · exact ((nb k g b a q hk hg eb ea).1 eq' eq).elim
    · by_cases hk : k = h
      · exact ((nb g k a b q hg hk ea eb).1 eq eq').elim
      · simp only [upd_ne _ _ hg] at ea
        simp only [upd_ne _ _ hk] at eb
        exact r.injp g k a b q ea eb eq eq'
  · intro g k a b q ea eb eq eq'
    by_cases hg : g = h
    · by_cases hk : k = h
      · exact hg.trans hk.symm
      · exact ((nb k g b a q hk hg eb ea).2 eq' eq).elim
    · by_cases hk : k = h
      · exact ((nb g k a b q hg hk ea eb).2 eq eq').elim
      · simp only [upd_ne _ _ hg] at ea
        simp only [upd_ne _ _ hk] at eb
        exact r.inji g k a b q ea eb eq eq'
  · intro q b e
    by_cases hq : q = s.nb
    · subst hq
      exact ⟨h, _, upd_same _ _ _, rfl⟩
    · obtain ⟨g, z, e1, e2⟩ := r.ownp q b ((upd_ne s.blocks _ hq).symm.trans e)
      have hg : g ≠ h := by
        intro e'
        subst e'
        rw [(f.obj e1).1] at e2
        cases e2
      exact ⟨g, z, (upd_ne _ _ hg).trans e1, e2⟩
  · intro q e
    by_cases hq : q = s.nm
    · subst hq
      exact ⟨h, _, upd_same _ _ _, rfl⟩
    · obtain ⟨g, z, e1, e2⟩ := r.owni q ((upd_ne s.maps _ hq).symm.trans e)
      have hg : g ≠ h := by
        intro e'
        subst e'
        rw [(f.obj e1).2] at e2
        cases e2
      exact ⟨g, z, (upd_ne _ _ hg).trans e1, e2⟩

/-- `put` in the box of a connected object. -/
theorem boxPut_conn {bs : Nat} {s : State} {t : Spec.State} (r : R bs s t) {h : Nat} {o : Obj} {u : Spec.User} {p i : Nat}
    (ho : s.objs h = some o) (c : Conn bs s o u p i) (m : List UInt8) :
    (Spec.tryPut t h u m = none ∧ boxPut s h o m = .ok none) ∨ ∃ s' t', Spec.tryPut t h u m = some t' ∧ boxPut s h o m = .ok (some s') ∧ R bs s' t' := by
  have hs : o.pos = u.pos ∧ o.size = bs ∧ o.ptr = some p ∧ o.info = some i := by rw [c.obj]; exact ⟨rfl, rfl, rfl, rfl⟩
  simp only [Spec.tryPut, boxPut, hs.1, hs.2.1, c.len, hs.2.2.1, block, c.blk, Res.ok_bind, setBlock, setObj]
  by_cases hl : u.pos + m.length ≤ bs
  · refine Or.inr ⟨_, _, if_pos hl, if_pos hl, ?_⟩
    have hb : (patch u.buf u.pos m).length = bs := by
      have := c.len
      simp only [patch, List.length_append, List.length_take, List.length_drop]
      omega
    have q := r.move ho c hb (u.pos + m.length) (ring := s.ring) (by rw [r.ring]; exact r.rlen)
    have e : o = ⟨some p, bs, o.pos, some i⟩ := by
      rw [c.obj]
    rw [e]
    simp only [Spec.State.set, Spec.write, c.on, r.ring]
    rw [← r.ring]
    rw [r.ring] at q ⊢
    exact q
  · exact Or.inl ⟨if_neg hl, if_neg hl⟩

/-- `flush` of a connected object. -/
theorem flush_conn {bs room : Nat} {s : State} {t : Spec.State} (r : R bs s t) {h : Nat} {o : Obj} {u : Spec.User} {p i : Nat}
    (ho : s.objs h = some o) (c : Conn bs s o u p i) :
    ∃ s' o', flush room s h o = .ok s' ∧ R bs s' (Spec.flush room t h u) ∧ s'.objs h = some o' ∧ Conn bs s' o' ⟨true, List.replicate bs 0, 0⟩ p i := by
  have e : o = ⟨some p, bs, u.pos, some i⟩ := c.obj
  subst e
  simp only [flush, block, c.blk, Res.ok_bind, c.map, if_true, setBlock, setObj, Spec.flush, Spec.State.set, c.on, Bool.true_and, decide_eq_true_eq, c.len]
  have hb : (List.replicate bs (0 : UInt8)).length = bs := List.length_replicate
  refine ⟨_, _, rfl, ?_, upd_same _ _ _, ?_⟩
  · by_cases hl : s.ring.length < room
    · rw [if_pos hl, if_pos (by rw [← r.ring]; exact hl)]
      have q := r.move ho c hb 0 (ring := t.ring ++ [u.buf]) (by
        intro b hm
        rcases List.mem_append.1 hm with hm | hm
        · exact r.rlen b hm
        · rw [List.mem_singleton.1 hm]; exact c.len)
      rw [← r.ring] at q ⊢
      exact q
    · rw [if_neg hl, if_neg (by rw [← r.ring]; exact hl)]
      have q := r.move ho c hb 0 (ring := t.ring) r.rlen
      rw [← r.ring] at q ⊢
      exact q
  · split <;> exact ⟨rfl, hb, rfl, upd_same _ _ _, c.map, c.pl, c.il⟩

/-- Every call that is specified does what it should. -/
theorem step_sim {bs room : Nat} {s : State} {t t' : Spec.State} (r : R bs s t) {op : Op} {y : Reply} (e : Spec.step bs room t op = some (t', y)) :
    ∃ s', step bs room s op = .ok (s', y) ∧ R bs s' t' := by
  cases op with
  | make h =>
    rcases r.cases h with ⟨e1, e2⟩ | ⟨e1, e2⟩ | ⟨o, u, p, i, e1, e2, c⟩ <;> simp only [Spec.step, e2] at e <;> first | cases e | skip
    refine ⟨_, by simp only [step, e1]; rfl, ?_⟩
    exact r.free (by rw [e1, e2]; trivial) (x := some .new) (y := some _) ⟨rfl, rfl⟩
  | copy h g =>
    rcases r.cases h with ⟨e1, e2⟩ | ⟨e1, e2⟩ | ⟨o, u, p, i, e1, e2, c⟩
    · simp only [Spec.step, e2] at e; cases e
    · rcases r.cases g with ⟨e3, e4⟩ | ⟨e3, e4⟩ | ⟨o', u', p', i', e3, e4, c'⟩ <;> simp only [Spec.step, e2, e4] at e <;> first | (cases e; done) | skip
      cases e
      refine ⟨_, by simp only [step, e1, e3]; rfl, ?_⟩
      exact r.free (by rw [e3, e4]; trivial) (x := some .new) (y := some _) ⟨rfl, rfl⟩
    · rcases r.cases g with ⟨e3, e4⟩ | ⟨e3, e4⟩ | ⟨o', u', p', i', e3, e4, c'⟩ <;> simp only [Spec.step, e2, e4, c.on, if_true] at e <;> cases e
  | assign h g =>
    by_cases hg : h = g
    · subst hg
      rcases r.cases h with ⟨e1, e2⟩ | ⟨e1, e2⟩ | ⟨o, u, p, i, e1, e2, c⟩ <;> simp only [Spec.step, e2, if_true] at e <;> cases e
      all_goals
        refine ⟨s, ?_, r⟩
        simp only [step, e1, setObj]
        congr 2
        have : ∀ o, s.objs h = some o → upd s.objs h (some o) = s.objs := by
          intro o ho
          funext j
          by_cases hj : j = h
          · subst hj; rw [upd_same, ho]
          · rw [upd_ne _ _ hj]
        rw [this _ e1]
    · rcases r.cases h with ⟨e1, e2⟩ | ⟨e1, e2⟩ | ⟨o, u, p, i, e1, e2, c⟩
      · simp only [Spec.step, e2] at e; cases e
      · rcases r.cases g with ⟨e3, e4⟩ | ⟨e3, e4⟩ | ⟨o', u', p', i', e3, e4, c'⟩
        · simp only [Spec.step, e2, e4] at e; cases e
        · simp only [Spec.step, e2, e4, if_neg hg] at e
          cases e
          refine ⟨_, by simp only [step, e1, e3]; rfl, ?_⟩
          exact r.free (by rw [e3, e4]; exact ⟨rfl, rfl⟩) (x := some .new) (y := some _) ⟨rfl, rfl⟩
        · simp [Spec.step, e2, e4, if_neg hg, c'.on] at e
      · rcases r.cases g with ⟨e3, e4⟩ | ⟨e3, e4⟩ | ⟨o', u', p', i', e3, e4, c'⟩ <;> simp [Spec.step, e2, e4, if_neg hg, c.on] at e
  | connect h =>
    rcases r.cases h with ⟨e1, e2⟩ | ⟨e1, e2⟩ | ⟨o, u, p, i, e1, e2, c⟩
    · simp only [Spec.step, e2] at e; cases e
    · simp only [Spec.step, e2] at e
      cases e
      refine ⟨_, by simp only [step, e1, Obj.new]; rfl, ?_⟩
      exact r.connect (by rw [e1, e2]; exact ⟨rfl, rfl⟩)
    · simp only [Spec.step, e2, c.on, if_true] at e
      cases e
      exact ⟨s, by simp only [step, e1, c.obj], r⟩
  | put h m =>
    rcases r.cases h with ⟨e1, e2⟩ | ⟨e1, e2⟩ | ⟨o, u, p, i, e1, e2, c⟩
    · simp only [Spec.step, e2] at e; cases e
    · have hf : Free (s.objs h) (t.us h) := by rw [e1, e2]; exact ⟨rfl, rfl⟩
      have q := r.free hf (x := some .new) (y := some ⟨false, [], 0⟩) ⟨rfl, rfl⟩
      have q' := q.free (h := h) (by simp only [upd_same, if_true]; exact ⟨rfl, rfl⟩) (x := some .new) (y := some ⟨false, [], 0⟩) ⟨rfl, rfl⟩
      cases m with
      | nil =>
        simp only [Spec.step, e2, Spec.tryPut, List.length_nil, Nat.add_zero, Nat.le_refl, if_true, Spec.write, List.take_nil, List.drop_nil, List.append_nil, Option.some.injEq, Prod.mk.injEq] at e
        obtain ⟨rfl, rfl⟩ := e
        refine ⟨_, by simp only [step, e1, boxPut, Obj.new, List.length_nil, Nat.add_zero, Nat.le_refl, if_true, block, Res.ok_bind, setBlock]; rfl, ?_⟩
        exact q
      | cons a m =>
        have hn : ¬ (0 + (a :: m).length ≤ 0) := by simp
        simp only [Spec.step, e2, Spec.tryPut, List.length_nil, if_neg hn, Spec.flush, List.replicate_zero] at e
        simp only [Option.some.injEq, Prod.mk.injEq] at e
        obtain ⟨rfl, rfl⟩ := e
        refine ⟨_, by simp only [step, e1, boxPut, Obj.new, if_neg hn, block, Res.ok_bind, setBlock, flush, setObj, upd_same]; rfl, ?_⟩
        exact q
    · simp only [Spec.step, e2] at e
      simp only [step, e1]
      rcases boxPut_conn r e1 c m with ⟨f1, f2⟩ | ⟨s', t'', f1, f2, q⟩
      · rw [f1] at e
        rw [f2]
        simp only [Res.ok_bind] at e ⊢
        obtain ⟨s1, o1, g1, g2, g3, g4⟩ := flush_conn (room := room) r e1 c
        rw [g1]
        simp only [Res.ok_bind, g3]
        rw [c.on, c.len] at e
        rcases boxPut_conn g2 g3 g4 m with ⟨k1, k2⟩ | ⟨s2, t2, k1, k2, q⟩
        · rw [k1] at e
          rw [k2]
          simp only [Option.some.injEq, Prod.mk.injEq] at e
          obtain ⟨rfl, rfl⟩ := e
          exact ⟨s1, rfl, g2⟩
        · rw [k1] at e
          rw [k2]
          simp only [Option.some.injEq, Prod.mk.injEq] at e
          obtain ⟨rfl, rfl⟩ := e
          exact ⟨s2, rfl, q⟩
      · rw [f1] at e
        rw [f2]
        simp only [Option.some.injEq, Prod.mk.injEq] at e
        obtain ⟨rfl, rfl⟩ := e
        exact ⟨s', rfl, q⟩
  | get h k =>
    rcases r.cases h with ⟨e1, e2⟩ | ⟨e1, e2⟩ | ⟨o, u, p, i, e1, e2, c⟩
    · simp only [Spec.step, e2] at e; cases e
    · have hf : Free (s.objs h) (t.us h) := by rw [e1, e2]; exact ⟨rfl, rfl⟩
      have q := r.free hf (x := some .new) (y := some ⟨false, [], 0⟩) ⟨rfl, rfl⟩
      cases k with
      | zero =>
        simp only [Spec.step, e2, List.length_nil, Nat.add_zero, Nat.le_refl, if_true, Option.some.injEq, Prod.mk.injEq] at e
        obtain ⟨rfl, rfl⟩ := e
        refine ⟨_, by simp only [step, e1, Obj.new, Nat.add_zero, Nat.le_refl, if_true, block, Res.ok_bind]; rfl, ?_⟩
        exact q
      | succ k =>
        have hn : ¬ (0 + (k + 1) ≤ 0) := by simp
        simp only [Spec.step, e2, List.length_nil, if_neg hn, Option.some.injEq, Prod.mk.injEq] at e
        obtain ⟨rfl, rfl⟩ := e
        exact ⟨s, by simp only [step, e1, Obj.new, if_neg hn], r⟩
    · have eo : o = ⟨some p, bs, u.pos, some i⟩ := c.obj
      subst eo
      simp only [Spec.step, e2, c.len] at e
      simp only [step, e1, block, c.blk, Res.ok_bind]
      by_cases hl : u.pos + k ≤ bs
      · rw [if_pos hl] at e ⊢
        simp only [Option.some.injEq, Prod.mk.injEq] at e
        obtain ⟨rfl, rfl⟩ := e
        refine ⟨_, rfl, ?_⟩
        have q := r.move e1 c c.len (u.pos + k) (ring := t.ring) r.rlen
        have eb : upd s.blocks p (some u.buf) = s.blocks := by
          funext j
          by_cases hj : j = p
          · subst hj; rw [upd_same, c.blk]
          · rw [upd_ne _ _ hj]
        rw [eb] at q
        rw [← r.ring] at q
        simp only [Spec.State.set, c.on, setObj]
        rw [show t = ⟨t.us, s.ring⟩ by rw [r.ring]]
        exact q
      · rw [if_neg hl] at e ⊢
        simp only [Option.some.injEq, Prod.mk.injEq] at e
        obtain ⟨rfl, rfl⟩ := e
        exact ⟨s, rfl, r⟩
  | flush h =>
    rcases r.cases h with ⟨e1, e2⟩ | ⟨e1, e2⟩ | ⟨o, u, p, i, e1, e2, c⟩
    · simp only [Spec.step, e2] at e; cases e
    · have hf : Free (s.objs h) (t.us h) := by rw [e1, e2]; exact ⟨rfl, rfl⟩
      have q := r.free hf (x := some .new) (y := some ⟨false, [], 0⟩) ⟨rfl, rfl⟩
      simp only [Spec.step, e2, Option.some.injEq, Prod.mk.injEq] at e
      obtain ⟨rfl, rfl⟩ := e
      refine ⟨_, by simp only [step, e1, flush, Obj.new, block, Res.ok_bind, setBlock]; rfl, ?_⟩
      exact q
    · simp only [Spec.step, e2, Option.some.injEq, Prod.mk.injEq] at e
      obtain ⟨rfl, rfl⟩ := e
      obtain ⟨s1, o1, g1, g2, -, -⟩ := flush_conn (room := room) r e1 c
      exact ⟨s1, by simp only [step, e1, g1, Res.ok_bind], g2⟩
  | unflush h =>
    rcases r.cases h with ⟨e1, e2⟩ | ⟨e1, e2⟩ | ⟨o, u, p, i, e1, e2, c⟩
    · simp only [Spec.step, e2] at e; cases e
    · simp only [Spec.step, e2] at e
      cases e
      exact ⟨s, by simp only [step, e1, unflush, Obj.new], r⟩
    · have eo : o = ⟨some p, bs, u.pos, some i⟩ := c.obj
      subst eo
      simp only [Spec.step, e2, c.on, if_true] at e
      simp only [step, e1, unflush, r.ring, block, c.blk, Res.ok_bind, c.map, if_true]
      cases er : t.ring with
      | nil =>
        rw [er] at e
        cases e
        exact ⟨s, rfl, r⟩
      | cons b rest =>
        rw [er] at e
        simp only [Option.some.injEq, Prod.mk.injEq] at e
        obtain ⟨rfl, rfl⟩ := e
        refine ⟨_, rfl, ?_⟩
        exact r.move e1 c (r.rlen b (by rw [er]; exact List.mem_cons_self)) 0 (ring := rest) (fun x hx => r.rlen x (by rw [er]; exact List.mem_cons_of_mem _ hx))
  | disconnect h =>
    rcases r.cases h with ⟨e1, e2⟩ | ⟨e1, e2⟩ | ⟨o, u, p, i, e1, e2, c⟩
    · simp only [Spec.step, e2] at e; cases e
    · have hf : Free (s.objs h) (t.us h) := by rw [e1, e2]; exact ⟨rfl, rfl⟩
      have q := r.free hf (x := some .new) (y := some ⟨false, [], 0⟩) ⟨rfl, rfl⟩
      simp only [Spec.step, e2, Option.some.injEq, Prod.mk.injEq] at e
      obtain ⟨rfl, rfl⟩ := e
      refine ⟨_, by simp only [step, e1, disconnect, Obj.new, Res.ok_bind]; rfl, ?_⟩
      exact q
    · have eo : o = ⟨some p, bs, u.pos, some i⟩ := c.obj
      subst eo
      simp only [Spec.step, e2, Option.some.injEq, Prod.mk.injEq] at e
      obtain ⟨rfl, rfl⟩ := e
      refine ⟨_, by simp only [step, e1, disconnect, deallocate, c.blk, Res.ok_bind]; rfl, ?_⟩
      exact r.drop e1 c (x := some .new) (y := some _) ⟨rfl, rfl⟩
  | destroy h =>
    rcases r.cases h with ⟨e1, e2⟩ | ⟨e1, e2⟩ | ⟨o, u, p, i, e1, e2, c⟩
    · simp only [Spec.step, e2] at e; cases e
    · have hf : Free (s.objs h) (t.us h) := by rw [e1, e2]; exact ⟨rfl, rfl⟩
      simp only [Spec.step, e2, Option.some.injEq, Prod.mk.injEq] at e
      obtain ⟨rfl, rfl⟩ := e
      refine ⟨_, by simp only [step, e1, destroy, disconnect, deallocate, Obj.new, Res.ok_bind]; rfl, ?_⟩
      exact r.free hf (x := none) (y := none) trivial
    · have eo : o = ⟨some p, bs, u.pos, some i⟩ := c.obj
      subst eo
      simp only [Spec.step, e2, Option.some.injEq, Prod.mk.injEq] at e
      obtain ⟨rfl, rfl⟩ := e
      refine ⟨_, by simp only [step, e1, destroy, disconnect, deallocate, c.blk, Res.ok_bind]; rfl, ?_⟩
      exact r.drop e1 c (x := none) (y := none) trivial

theorem run_sim {bs room : Nat} (ops : List Op) : ∀ {s : State} {t t' : Spec.State} (_ : R bs s t) {ys : List Reply} (_ : Spec.run bs room t ops = some (t', ys)),
    ∃ s', run bs room s ops = .ok (s', ys) ∧ R bs s' t' := by
  induction ops with
  | nil =>
    intro s t t' r ys e
    simp only [Spec.run, Option.some.injEq, Prod.mk.injEq] at e
    obtain ⟨rfl, rfl⟩ := e
    exact ⟨s, rfl, r⟩
  | cons op ops ih =>
    intro s t t' r ys e
    cases e1 : Spec.step bs room t op with
    | none => simp only [Spec.run, e1] at e; cases e
    | some z =>
      obtain ⟨t1, y⟩ := z
      cases e2 : Spec.run bs room t1 ops with
      | none => simp only [Spec.run, e1, e2] at e; cases e
      | some z =>
        obtain ⟨t2, zs⟩ := z
        simp only [Spec.run, e1, e2, Option.some.injEq, Prod.mk.injEq] at e
        obtain ⟨rfl, rfl⟩ := e
        obtain ⟨s1, f1, r1⟩ := step_sim r e1
        obtain ⟨s2, f2, r2⟩ := ih r1 e2
        exact ⟨s2, by simp only [run, f1, f2, Res.ok_bind], r2⟩

theorem run_append {bs room : Nat} (a b : List Op) : ∀ (s : State),
    run bs room s (a ++ b) = (do let (s, x) ← run bs room s a; let (s, y) ← run bs room s b; .ok (s, x ++ y)) := by
  induction a with
  | nil =>
    intro s
    simp only [List.nil_append, run, Res.ok_bind]
    cases run bs room s b <;> rfl
  | cons op a ih =>
    intro s
    simp only [List.cons_append, run]
    cases step bs room s op with
    | ub => rfl
    | ok z =>
      simp only [Res.ok_bind, ih]
      cases run bs room z.1 a with
      | ub => rfl
      | ok w =>
        simp only [Res.ok_bind]
        cases run bs room w.1 b <;> rfl

end Verif.QueueCopy
