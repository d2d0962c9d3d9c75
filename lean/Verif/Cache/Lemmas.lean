import Verif.Cache.Model
import Verif.Cache.Spec
import Mathlib.Data.List.Induction

set_option linter.unusedSimpArgs false
set_option linter.unusedVariables false
set_option linter.unusedSectionVars false

namespace Verif.Cache

variable {K V : Type} [DecidableEq K] [Inhabited V]

/-- what a node stores besides the links -/
structure Ent (K V : Type) where
  key : K
  val : V
  size : UInt64
  time : UInt64

/-- Doubly linked segment: the nodes of `l` in order, preceded by `p` and followed by `q`. -/
def Dl (h : Heap K V) : Option Nat → List (Nat × Ent K V) → Option Nat → Prop
  | _, [], _ => True
  | p, (a, e) :: l, q =>
    h a = some ⟨e.key, e.val, p, (l.head?.map (·.1)).or q, e.size, e.time⟩ ∧ Dl h (some a) l q

def lastA (l : List (Nat × Ent K V)) (p : Option Nat) : Option Nat := (l.getLast?.map (·.1)).or p
def headA (l : List (Nat × Ent K V)) (q : Option Nat) : Option Nat := (l.head?.map (·.1)).or q

theorem Dl_frame {h h' : Heap K V} : ∀ {l : List (Nat × Ent K V)} {p q}, (∀ x ∈ l, h' x.1 = h x.1) → Dl h p l q → Dl h' p l q := by
  intro l
  induction l with
  | nil => intros; trivial
  | cons x l ih =>
    intro p q hf hd
    obtain ⟨a, e⟩ := x
    exact ⟨by rw [hf (a, e) (by simp)]; exact hd.1, ih (fun y hy => hf y (by simp [hy])) hd.2⟩

theorem Dl_append {h : Heap K V} : ∀ {xs ys : List (Nat × Ent K V)} {p q},
    Dl h p (xs ++ ys) q ↔ Dl h p xs (headA ys q) ∧ Dl h (lastA xs p) ys q := by
  intro xs
  induction xs with
  | nil => intro ys p q; simp [Dl, lastA]
  | cons x xs ih =>
    intro ys p q
    obtain ⟨a, e⟩ := x
    simp only [List.cons_append, Dl, ih, and_assoc]
    have e1 : ((xs ++ ys).head?.map (·.1)).or q = (xs.head?.map (·.1)).or (headA ys q) := by
      cases xs <;> simp [headA]
    have e2 : lastA ((a, e) :: xs) p = lastA xs (some a) := by
      cases hx : xs with
      | nil => simp [lastA]
      | cons y ys => simp [lastA, List.getLast?_cons]
    rw [e1, e2]

theorem Dl_deref {h : Heap K V} {a : Nat} {e : Ent K V} {l p q} (hd : Dl h p ((a, e) :: l) q) :
    deref h a = .ok ⟨e.key, e.val, p, headA l q, e.size, e.time⟩ := by
  unfold deref
  rw [hd.1]
  rfl

theorem setPrev_head {h : Heap K V} {a : Nat} {e : Ent K V} {l p q} (p' : Option Nat) (hd : Dl h p ((a, e) :: l) q)
    (hn : ∀ x ∈ l, x.1 ≠ a) :
    ∃ h', setPrev h a p' = .ok h' ∧ Dl h' p' ((a, e) :: l) q ∧ ∀ x, x ≠ a → h' x = h x := by
  unfold setPrev
  rw [Dl_deref hd, Res.ok_bind]
  refine ⟨_, rfl, ⟨by simp [upd, headA], Dl_frame (fun x hx => by simp [upd, hn x hx]) hd.2⟩, ?_⟩
  intro x hx
  simp [upd, hx]

theorem setNext_last {h : Heap K V} {a : Nat} {e : Ent K V} {l p q} (q' : Option Nat) (hd : Dl h p (l ++ [(a, e)]) q)
    (hn : ∀ x ∈ l, x.1 ≠ a) :
    ∃ h', setNext h a q' = .ok h' ∧ Dl h' p (l ++ [(a, e)]) q' ∧ ∀ x, x ≠ a → h' x = h x := by
  unfold setNext
  rw [Dl_append] at hd
  rw [Dl_deref hd.2, Res.ok_bind]
  refine ⟨_, rfl, Dl_append.mpr ⟨?_, ?_⟩, ?_⟩
  · have : headA [(a, e)] q' = headA [(a, e)] q := rfl
    rw [this]
    exact Dl_frame (fun x hx => by simp [upd, hn x hx]) hd.1
  · exact ⟨by simp [upd, headA], trivial⟩
  · intro x hx
    simp [upd, hx]

def sumU (l : List (Nat × Ent K V)) : UInt64 := l.foldr (fun x s => x.2.size + s) 0

theorem sumU_append (a b : List (Nat × Ent K V)) : sumU (a ++ b) = sumU a + sumU b := by
  induction a with
  | nil => simp [sumU]
  | cons x a ih =>
    simp only [sumU, List.cons_append, List.foldr_cons] at ih ⊢
    rw [ih]; grind

theorem sumU_cons (x) (b : List (Nat × Ent K V)) : sumU (x :: b) = x.2.size + sumU b := rfl

/-- The representation invariant: the cache holds exactly the entries `l`, threaded in this order. -/
structure Rep (s : Cache K V) (l : List (Nat × Ent K V)) : Prop where
  dl : Dl s.heap none l none
  beg : s.begp = headA l none
  fin : s.endp = lastA l none
  tbl : ∀ k a, s.data k = some a ↔ ∃ e, (a, e) ∈ l ∧ e.key = k
  addr : (l.map (·.1)).Nodup
  keys : (l.map (·.2.key)).Nodup
  bound : ∀ x ∈ l, x.1 < s.fresh
  size : s.size_cur = sumU l
  len : l.length ≤ s.fresh
  alive : ∀ x, (s.heap x).isSome → x ∈ l.map (·.1)

theorem rep_init (m t : UInt64) : Rep (init m t : Cache K V) [] :=
  { dl := trivial, beg := rfl, fin := rfl, tbl := by simp [init], addr := by simp, keys := by simp, bound := by simp, size := rfl, len := by simp, alive := by simp [init] }

theorem mem_split_nodup {l : List (Nat × Ent K V)} {a : Nat} {e : Ent K V} (h : (a, e) ∈ l) (hn : (l.map (·.1)).Nodup)
    (hk : (l.map (·.2.key)).Nodup) :
    ∃ xs ys, l = xs ++ (a, e) :: ys ∧ (∀ x ∈ xs, x.1 ≠ a) ∧ (∀ x ∈ ys, x.1 ≠ a) ∧
      (∀ x ∈ xs, x.2.key ≠ e.key) ∧ (∀ x ∈ ys, x.2.key ≠ e.key) ∧ (∀ x ∈ xs, ∀ y ∈ ys, x.1 ≠ y.1) ∧
      ((xs ++ ys).map (·.1)).Nodup ∧ ((xs ++ ys).map (·.2.key)).Nodup ∧ (∀ x ∈ xs, ∀ y ∈ ys, x.2.key ≠ y.2.key) := by
  obtain ⟨xs, ys, rfl⟩ := List.append_of_mem h
  refine ⟨xs, ys, rfl, ?_⟩
  simp only [List.map_append, List.map_cons, List.nodup_append, List.nodup_cons, List.mem_map, List.mem_cons] at hn hk
  obtain ⟨n1, ⟨n2, n3⟩, n4⟩ := hn
  obtain ⟨k1, ⟨k2, k3⟩, k4⟩ := hk
  refine ⟨fun x hx => n4 x.1 ⟨x, hx, rfl⟩ a (Or.inl rfl), fun x hx hxa => n2 ⟨x, hx, hxa⟩,
    fun x hx => k4 _ ⟨x, hx, rfl⟩ _ (Or.inl rfl), fun x hx hxa => k2 ⟨x, hx, hxa⟩,
    fun x hx y hy => n4 x.1 ⟨x, hx, rfl⟩ y.1 (Or.inr ⟨y, hy, rfl⟩), ?_, ?_, fun x hx y hy => k4 _ ⟨x, hx, rfl⟩ _ (Or.inr ⟨y, hy, rfl⟩)⟩
  · rw [List.map_append, List.nodup_append]
    refine ⟨n1, n3, ?_⟩
    simp only [List.mem_map]
    intro x hx y hy
    exact n4 x hx y (Or.inr hy)
  · rw [List.map_append, List.nodup_append]
    refine ⟨k1, k3, ?_⟩
    simp only [List.mem_map]
    intro x hx y hy
    exact k4 x hx y (Or.inr hy)

theorem headA_append (xs ys : List (Nat × Ent K V)) (q) : headA (xs ++ ys) q = headA xs (headA ys q) := by
  cases xs <;> simp [headA]

theorem lastA_append (xs ys : List (Nat × Ent K V)) (p) : lastA (xs ++ ys) p = lastA ys (lastA xs p) := by
  rcases List.eq_nil_or_concat ys with rfl | ⟨ys', y, rfl⟩
  · simp [lastA]
  · rw [List.concat_eq_append]; simp [lastA, List.getLast?_append]

theorem lastA_cons (a e) (ys : List (Nat × Ent K V)) (p) : lastA ((a, e) :: ys) p = lastA ys (some a) := by
  cases ys with
  | nil => simp [lastA]
  | cons y ys => simp [lastA, List.getLast?_cons]

/-- Unlinking the node `a`: its successor's `prev` and its predecessor's `next` are redirected. -/
theorem unlink {h : Heap K V} {xs ys : List (Nat × Ent K V)} {a : Nat} {e : Ent K V}
    (hd : Dl h none (xs ++ (a, e) :: ys) none)
    (hn : ((xs ++ (a, e) :: ys).map (·.1)).Nodup) :
    ∃ h1 h2,
      fixNext h (headA ys none) (lastA xs none) (lastA (xs ++ (a, e) :: ys) none) = .ok (h1, lastA (xs ++ ys) none) ∧
      fixPrev h1 (lastA xs none) (headA ys none) (headA (xs ++ (a, e) :: ys) none) = .ok (h2, headA (xs ++ ys) none) ∧
      Dl h2 none (xs ++ ys) none ∧ h2 a = h a := by
  simp only [List.map_append, List.map_cons, List.nodup_append, List.nodup_cons, List.mem_map, List.mem_cons] at hn
  obtain ⟨n1, ⟨n2, n3⟩, n4⟩ := hn
  rw [Dl_append] at hd
  obtain ⟨d1, d2⟩ := hd
  have d3 := d2.2
  -- first update
  obtain ⟨h1, e1, f1, g1, ga⟩ : ∃ h1, fixNext h (headA ys none) (lastA xs none) (lastA (xs ++ (a, e) :: ys) none)
        = .ok (h1, lastA (xs ++ ys) none) ∧ Dl h1 (lastA xs none) ys none ∧ (∀ x ∈ xs, h1 x.1 = h x.1) ∧ h1 a = h a := by
    cases ys with
    | nil => exact ⟨h, by simp [fixNext, headA], trivial, fun _ _ => rfl, rfl⟩
    | cons y ys =>
      obtain ⟨b, eb⟩ := y
      obtain ⟨h', e', f', g'⟩ := setPrev_head (lastA xs none) d3 (by
        intro x hx hxb
        simp only [List.map_cons, List.nodup_cons, List.mem_map] at n3
        exact n3.1 ⟨x, hx, hxb⟩)
      refine ⟨h', ?_, f', ?_, ?_⟩
      · simp only [fixNext, headA, List.head?_cons, Option.map_some, Option.some_or]
        rw [e', Res.ok_bind, lastA_append, lastA_append, lastA_cons, lastA_cons, lastA_cons]
      · intro x hx
        exact g' _ (n4 x.1 ⟨x, hx, rfl⟩ b (Or.inr ⟨(b, eb), by simp, rfl⟩))
      · exact g' _ (fun hab => n2 ⟨(b, eb), by simp, hab.symm⟩)
  have d1' : Dl h1 none xs (some a) := Dl_frame g1 d1
  -- second update
  obtain ⟨h2, e2, f2, g2⟩ : ∃ h2, fixPrev h1 (lastA xs none) (headA ys none) (headA (xs ++ (a, e) :: ys) none)
        = .ok (h2, headA (xs ++ ys) none) ∧ Dl h2 none xs (headA ys none) ∧
          ∀ z, (∀ x ∈ xs, x.1 ≠ z) → h2 z = h1 z := by
    rcases List.eq_nil_or_concat xs with rfl | ⟨xs', x, rfl⟩
    · exact ⟨h1, rfl, trivial, fun _ _ => rfl⟩
    · obtain ⟨c, ec⟩ := x
      rw [List.concat_eq_append] at *
      obtain ⟨h', e', f', g'⟩ := setNext_last (headA ys none) d1' (by
        intro x hx hxc
        rw [List.map_append, List.nodup_append] at n1
        exact n1.2.2 x.1 (List.mem_map.mpr ⟨x, hx, rfl⟩) c (by simp) hxc)
      refine ⟨h', ?_, f', fun z hz => g' z (fun h => hz (c, ec) (by simp) h.symm)⟩
      have hl : lastA (xs' ++ [(c, ec)]) none = some c := by simp [lastA]
      rw [hl, fixPrev, e', Res.ok_bind, headA_append, headA_append]
      congr 2
      cases xs' <;> simp [headA]
  refine ⟨h1, h2, e1, e2, Dl_append.mpr ⟨f2, Dl_frame ?_ f1⟩, ?_⟩
  · intro y hy
    exact g2 _ (fun x hx => n4 x.1 ⟨x, hx, rfl⟩ y.1 (Or.inr ⟨y, hy, rfl⟩))
  · rw [g2 a (fun x hx => n4 x.1 ⟨x, hx, rfl⟩ a (Or.inl rfl)), ga]

/-- no cell is created or freed -/
def SameDom (h h' : Heap K V) : Prop := ∀ x, (h' x).isSome = (h x).isSome

theorem SameDom.trans {h h' h'' : Heap K V} (a : SameDom h h') (b : SameDom h' h'') : SameDom h h'' :=
  fun x => (b x).trans (a x)

theorem setPrev_dom {h h' : Heap K V} {a v} (e : setPrev h a v = .ok h') : SameDom h h' := by
  unfold setPrev deref at e
  cases ha : h a with
  | none => rw [ha] at e; simp at e
  | some n =>
    rw [ha] at e
    simp only [Res.ok_bind, Res.ok.injEq] at e
    subst e
    intro x
    unfold upd
    split
    · rename_i hx; subst hx; rw [ha]; rfl
    · rfl

theorem setNext_dom {h h' : Heap K V} {a v} (e : setNext h a v = .ok h') : SameDom h h' := by
  unfold setNext deref at e
  cases ha : h a with
  | none => rw [ha] at e; simp at e
  | some n =>
    rw [ha] at e
    simp only [Res.ok_bind, Res.ok.injEq] at e
    subst e
    intro x
    unfold upd
    split
    · rename_i hx; subst hx; rw [ha]; rfl
    · rfl

theorem fixNext_dom {h h' : Heap K V} {n p e0 e1} (e : fixNext h n p e0 = .ok (h', e1)) : SameDom h h' := by
  unfold fixNext at e
  cases n with
  | none => simp only [Res.ok.injEq, Prod.mk.injEq] at e; rw [← e.1]; exact fun _ => rfl
  | some b =>
    simp only at e
    cases hs : setPrev h b p with
    | ub => rw [hs] at e; simp at e
    | ok h1 =>
      rw [hs] at e
      simp only [Res.ok_bind, Res.ok.injEq, Prod.mk.injEq] at e
      rw [← e.1]; exact setPrev_dom hs

theorem fixPrev_dom {h h' : Heap K V} {n p e0 e1} (e : fixPrev h n p e0 = .ok (h', e1)) : SameDom h h' := by
  unfold fixPrev at e
  cases n with
  | none => simp only [Res.ok.injEq, Prod.mk.injEq] at e; rw [← e.1]; exact fun _ => rfl
  | some b =>
    simp only at e
    cases hs : setNext h b p with
    | ub => rw [hs] at e; simp at e
    | ok h1 =>
      rw [hs] at e
      simp only [Res.ok_bind, Res.ok.injEq, Prod.mk.injEq] at e
      rw [← e.1]; exact setNext_dom hs

theorem linkEnd_dom {h h' : Heap K V} {o a} (e : linkEnd h o a = .ok h') : SameDom h h' := by
  unfold linkEnd at e
  cases o with
  | none => simp only [Res.ok.injEq] at e; rw [← e]; exact fun _ => rfl
  | some b => exact setNext_dom e

theorem upd_dom {h : Heap K V} {a : Nat} {n n' : Node K V} (e : h a = some n') : SameDom h (upd h a (some n)) := by
  intro x
  unfold upd
  split
  · rename_i hx; subst hx; rw [e]; rfl
  · rfl

theorem rep_erase {s : Cache K V} {xs ys : List (Nat × Ent K V)} {a : Nat} {e : Ent K V}
    (hr : Rep s (xs ++ (a, e) :: ys)) {h2 : Heap K V} (f : Dl h2 none (xs ++ ys) none)
    (hdom : SameDom s.heap h2) :
    Rep (tblErase { s with
        heap := h2, endp := lastA (xs ++ ys) none, begp := headA (xs ++ ys) none, size_cur := s.size_cur - e.size } e.key a)
      (xs ++ ys) := by
  have nd := hr.addr
  have nk := hr.keys
  simp only [List.map_append, List.map_cons, List.nodup_append, List.nodup_cons, List.mem_map, List.mem_cons] at nd nk
  obtain ⟨n1, ⟨n2, n3⟩, n4⟩ := nd
  obtain ⟨k1, ⟨k2, k3⟩, k4⟩ := nk
  have hne : ∀ x ∈ xs ++ ys, x.1 ≠ a := by
    intro x hx
    rcases List.mem_append.mp hx with hx | hx
    · exact n4 x.1 ⟨x, hx, rfl⟩ a (Or.inl rfl)
    · exact fun h => n2 ⟨x, hx, h⟩
  have hke : ∀ x ∈ xs ++ ys, x.2.key ≠ e.key := by
    intro x hx
    rcases List.mem_append.mp hx with hx | hx
    · exact k4 _ ⟨x, hx, rfl⟩ _ (Or.inl rfl)
    · exact fun h => k2 ⟨x, hx, h⟩
  constructor
  · exact Dl_frame (fun x hx => by simp [tblErase, upd, hne x hx]) f
  · rfl
  · rfl
  · intro k b
    simp only [tblErase]
    by_cases hk : k = e.key
    · subst hk
      simp only [if_true]
      constructor
      · intro h; exact absurd h (by simp)
      · rintro ⟨e', he', hke'⟩; exact absurd hke' (hke _ he')
    · rw [if_neg hk, hr.tbl]
      constructor
      · rintro ⟨e', he', rfl⟩
        refine ⟨e', ?_, rfl⟩
        simp only [List.mem_append, List.mem_cons] at he' ⊢
        rcases he' with h | h | h
        · exact Or.inl h
        · injection h with h1 h2; subst h2; exact absurd rfl hk
        · exact Or.inr h
      · rintro ⟨e', he', rfl⟩
        refine ⟨e', ?_, rfl⟩
        simp only [List.mem_append, List.mem_cons] at he' ⊢
        rcases he' with h | h
        · exact Or.inl h
        · exact Or.inr (Or.inr h)
  · rw [List.map_append, List.nodup_append]
    refine ⟨n1, n3, ?_⟩
    simp only [List.mem_map]
    exact fun x hx y hy => n4 x hx y (Or.inr hy)
  · rw [List.map_append, List.nodup_append]
    refine ⟨k1, k3, ?_⟩
    simp only [List.mem_map]
    exact fun x hx y hy => k4 x hx y (Or.inr hy)
  · intro x hx
    apply hr.bound x
    rcases List.mem_append.mp hx with h | h <;> simp [h]
  · show s.size_cur - e.size = _
    rw [hr.size, sumU_append, sumU_append, sumU_cons]
    grind
  · have := hr.len
    simp only [List.length_append, List.length_cons] at this
    show (xs ++ ys).length ≤ s.fresh
    simp only [List.length_append]; omega
  · intro x hx
    simp only [tblErase, upd] at hx
    by_cases hxa : x = a
    · rw [if_pos hxa] at hx; simp at hx
    · rw [if_neg hxa, hdom x] at hx
      have := hr.alive x hx
      simp only [List.map_append, List.map_cons, List.mem_append, List.mem_cons] at this ⊢
      rcases this with h | h | h
      · exact Or.inl h
      · exact absurd h hxa
      · exact Or.inr h

theorem eraseAt_spec {s : Cache K V} {xs ys : List (Nat × Ent K V)} {a : Nat} {e : Ent K V}
    (hr : Rep s (xs ++ (a, e) :: ys)) :
    ∃ s', eraseAt s a = .ok s' ∧ Rep s' (xs ++ ys) ∧ s'.size_max = s.size_max ∧ s'.time_max = s.time_max := by
  obtain ⟨h1, h2, e1, e2, f, ga⟩ := unlink hr.dl hr.addr
  have hda := (Dl_append.mp hr.dl).2
  refine ⟨_, ?_, rep_erase hr f ((fixNext_dom e1).trans (fixPrev_dom e2)), rfl, rfl⟩
  unfold eraseAt
  rw [Dl_deref hda, Res.ok_bind]
  dsimp only
  rw [hr.fin, hr.beg, e1, Res.ok_bind]
  dsimp only
  rw [e2, Res.ok_bind]

def evictU (max : UInt64) : List (Nat × Ent K V) → List (Nat × Ent K V)
  | [] => []
  | x :: l => if sumU (x :: l) > max then evictU max l else x :: l

theorem dropLoop_spec : ∀ (fuel : Nat) (s : Cache K V) (l : List (Nat × Ent K V)), Rep s l → l.length ≤ fuel →
    ∃ s', dropLoop fuel s = .ok s' ∧ Rep s' (evictU s.size_max l) ∧ s'.size_max = s.size_max ∧ s'.time_max = s.time_max := by
  intro fuel
  induction fuel with
  | zero =>
    intro s l hr hl
    have : l = [] := List.eq_nil_of_length_eq_zero (by omega)
    subst this
    refine ⟨s, ?_, hr, rfl, rfl⟩
    unfold dropLoop
    rw [hr.size, if_neg]
    simp [sumU]
  | succ fuel ih =>
    intro s l hr hl
    unfold dropLoop
    cases l with
    | nil =>
      refine ⟨s, ?_, hr, rfl, rfl⟩
      rw [hr.size, if_neg]
      simp [sumU]
    | cons x l =>
      obtain ⟨a, e⟩ := x
      rw [evictU]
      by_cases h : sumU ((a, e) :: l) > s.size_max
      · rw [if_pos h, if_pos (by rw [hr.size]; exact h), hr.beg]
        obtain ⟨h1, h2, e1, e2, f, ga⟩ := unlink (xs := []) (ys := l) hr.dl hr.addr
        have hda := Dl_deref (hr.dl)
        have e12 : h1 = h2 ∧ headA l none = headA ([] ++ l) none := by
          simp only [lastA, List.getLast?_nil, Option.map_none, Option.none_or, fixPrev] at e2
          simp only [Res.ok.injEq, Prod.mk.injEq] at e2
          exact e2
        obtain ⟨rfl, _⟩ := e12
        have hda1 : deref h1 a = .ok ⟨e.key, e.val, none, headA l none, e.size, e.time⟩ := by
          unfold deref; rw [ga]; unfold deref at hda; exact hda
        simp only [headA, List.head?_cons, Option.map_some, Option.some_or]
        rw [hda, Res.ok_bind]
        simp only [List.nil_append] at e1
        dsimp only
        rw [hr.fin]
        have hlast : lastA ([] : List (Nat × Ent K V)) none = none := rfl
        rw [hlast] at e1
        rw [e1, Res.ok_bind]
        dsimp only
        rw [hda1, Res.ok_bind]
        have htbl : s.data e.key = some a := (hr.tbl e.key a).mpr ⟨e, by simp, rfl⟩
        simp only [htbl]
        have hrep := rep_erase (xs := []) (ys := l) hr f (fixNext_dom e1)
        simp only [List.nil_append] at hrep
        exact ih _ l hrep (by simpa using hl)
      · rw [if_neg h, if_neg (by rw [hr.size]; exact h)]
        exact ⟨s, rfl, hr, rfl, rfl⟩

theorem drop_spec (s : Cache K V) (l : List (Nat × Ent K V)) (hr : Rep s l) :
    ∃ s', drop_last_unused s = .ok s' ∧ Rep s' (evictU s.size_max l) ∧ s'.size_max = s.size_max ∧ s'.time_max = s.time_max := by
  unfold drop_last_unused
  cases l with
  | nil => rw [hr.beg]; exact ⟨s, rfl, hr, rfl, rfl⟩
  | cons x l =>
    rw [hr.beg]
    simp only [headA, List.head?_cons, Option.map_some, Option.some_or]
    exact dropLoop_spec _ s _ hr hr.len

/-- linking `a` behind the last node -/
theorem linkEnd_spec {h : Heap K V} {zs : List (Nat × Ent K V)} {a : Nat} (hd : Dl h none zs none)
    (hn : (zs.map (·.1)).Nodup) (ha : ∀ x ∈ zs, x.1 ≠ a) :
    ∃ h', linkEnd h (lastA zs none) a = .ok h' ∧ Dl h' none zs (some a) ∧ h' a = h a := by
  rcases List.eq_nil_or_concat zs with rfl | ⟨zs', z, rfl⟩
  · exact ⟨h, rfl, trivial, rfl⟩
  · obtain ⟨c, ec⟩ := z
    rw [List.concat_eq_append] at *
    have hl : lastA (zs' ++ [(c, ec)]) none = some c := by simp [lastA]
    obtain ⟨h', e', f', g'⟩ := setNext_last (some a) hd (by
        intro x hx hxc
        rw [List.map_append, List.nodup_append] at hn
        exact hn.2.2 x.1 (List.mem_map.mpr ⟨x, hx, rfl⟩) c (by simp) hxc)
    exact ⟨h', by rw [hl, linkEnd, e'], f', g' a (fun h => ha (c, ec) (by simp) h.symm)⟩

/-- one more node at the end -/
theorem Dl_snoc {h : Heap K V} {zs : List (Nat × Ent K V)} {a : Nat} {e : Ent K V} (hd : Dl h none zs (some a))
    (ha : h a = some ⟨e.key, e.val, lastA zs none, none, e.size, e.time⟩) : Dl h none (zs ++ [(a, e)]) none := by
  rw [Dl_append]
  exact ⟨hd, by simpa [Dl] using ha⟩

theorem tbl_move {xs ys : List (Nat × Ent K V)} {a : Nat} {e e' : Ent K V} (hk : e'.key = e.key) (k : K) (b : Nat) :
    (∃ f, (b, f) ∈ xs ++ (a, e) :: ys ∧ f.key = k) ↔ (∃ f, (b, f) ∈ (xs ++ ys) ++ [(a, e')] ∧ f.key = k) := by
  simp only [List.mem_append, List.mem_cons, List.mem_nil_iff, or_false]
  constructor
  · rintro ⟨f, h | h | h, rfl⟩
    · exact ⟨f, Or.inl (Or.inl h), rfl⟩
    · injection h with h1 h2; subst h1; subst h2; exact ⟨e', Or.inr rfl, hk⟩
    · exact ⟨f, Or.inl (Or.inr h), rfl⟩
  · rintro ⟨f, (h | h) | h, rfl⟩
    · exact ⟨f, Or.inl h, rfl⟩
    · exact ⟨f, Or.inr (Or.inr h), rfl⟩
    · injection h with h1 h2; subst h1; subst h2; exact ⟨e, Or.inr (Or.inl rfl), hk.symm⟩

theorem mem_move {xs ys : List (Nat × Ent K V)} {a : Nat} {e e' : Ent K V} {x : Nat} (h : x ∈ (xs ++ (a, e) :: ys).map (·.1)) :
    x ∈ ((xs ++ ys) ++ [(a, e')]).map (·.1) := by
  simp only [List.map_append, List.map_cons, List.map_nil, List.mem_append, List.mem_cons, List.mem_nil_iff, or_false] at h ⊢
  rcases h with h | h | h
  · exact Or.inl (Or.inl h)
  · exact Or.inr h
  · exact Or.inl (Or.inr h)

theorem nodup_move {α β} {f : α → β} {xs ys : List α} {x y : α} (hf : f y = f x) (h : ((xs ++ x :: ys).map f).Nodup) :
    (((xs ++ ys) ++ [y]).map f).Nodup := by
  simp only [List.map_append, List.map_cons, List.map_nil, List.nodup_append, List.nodup_cons, List.mem_append, List.mem_cons,
    List.mem_nil_iff, or_false, List.mem_map] at h ⊢
  obtain ⟨h1, ⟨h2, h3⟩, h4⟩ := h
  refine ⟨⟨h1, h3, fun a ha b hb => h4 a ha b (Or.inr hb)⟩, ⟨by simp, by simp⟩, ?_⟩
  rintro a (ha | ha) b rfl
  · rw [hf]; exact h4 a ha _ (Or.inl rfl)
  · rw [hf]; rintro rfl; exact h2 ha

/-- `set` of a key that is present -/
theorem set_existing (cap : V → UInt64) {s : Cache K V} {xs ys : List (Nat × Ent K V)} {a : Nat} {e : Ent K V}
    (hr : Rep s (xs ++ (a, e) :: ys)) (v : V) (u : Bool) (now : UInt64) :
    ∃ s', set cap s e.key v u now = .ok s' ∧
      Rep s' ((xs ++ ys) ++ [(a, ⟨e.key, v, cap v, if u then now else e.time⟩)]) ∧
      s'.size_max = s.size_max ∧ s'.time_max = s.time_max := by
  have htbl : s.data e.key = some a := (hr.tbl e.key a).mpr ⟨e, by simp, rfl⟩
  have hda := (Dl_append.mp hr.dl).2
  have hne : ∀ x ∈ xs ++ ys, x.1 ≠ a := by
    have nd := hr.addr
    simp only [List.map_append, List.map_cons, List.nodup_append, List.nodup_cons, List.mem_map, List.mem_cons] at nd
    obtain ⟨n1, ⟨n2, n3⟩, n4⟩ := nd
    intro x hx
    rcases List.mem_append.mp hx with hx | hx
    · exact n4 x.1 ⟨x, hx, rfl⟩ a (Or.inl rfl)
    · exact fun h => n2 ⟨x, hx, h⟩
  have hsz : s.size_cur - e.size + cap v
      = sumU ((xs ++ ys) ++ [(a, ⟨e.key, v, cap v, if u then now else e.time⟩)]) := by
    rw [hr.size]
    simp only [sumU_append, sumU_cons]
    simp only [sumU, List.foldr_nil]
    grind
  have hbound : ∀ x ∈ (xs ++ ys) ++ [(a, (⟨e.key, v, cap v, if u then now else e.time⟩ : Ent K V))], x.1 < s.fresh := by
    intro x hx
    simp only [List.mem_append, List.mem_singleton] at hx
    rcases hx with (h | h) | h
    · exact hr.bound x (by simp [h])
    · exact hr.bound x (by simp [h])
    · subst h; exact hr.bound (a, e) (by simp)
  have hlen : ((xs ++ ys) ++ [(a, (⟨e.key, v, cap v, if u then now else e.time⟩ : Ent K V))]).length ≤ s.fresh := by
    have := hr.len
    simp only [List.length_append, List.length_cons, List.length_nil] at this ⊢
    omega
  unfold set
  rw [htbl]
  dsimp only
  rw [Dl_deref hda, Res.ok_bind]
  dsimp only
  cases ys with
  | nil =>
    simp only [headA, List.head?_nil, Option.map_none, Option.none_or]
    refine ⟨_, rfl, ?_, rfl, rfl⟩
    simp only [List.append_nil] at *
    constructor
    · apply Dl_snoc
      · have := (Dl_append.mp hr.dl).1
        refine Dl_frame (fun x hx => ?_) this
        simp [upd, hne x hx]
      · simp [upd, assign]
    · show s.begp = _
      rw [hr.beg, headA_append, headA_append]
      rfl
    · show s.endp = _
      rw [hr.fin, lastA_append, lastA_append]
      rfl
    · intro k b
      show s.data k = some b ↔ _
      rw [hr.tbl]
      have := tbl_move (xs := xs) (ys := []) (a := a) (e := e)
        (e' := ⟨e.key, v, cap v, if u then now else e.time⟩) rfl k b
      simpa using this
    · have := nodup_move (f := fun x : Nat × Ent K V => x.1) (ys := []) (x := (a, e)) (y := (a, ⟨e.key, v, cap v, if u then now else e.time⟩)) rfl hr.addr
      simpa using this
    · have := nodup_move (f := fun x : Nat × Ent K V => x.2.key) (ys := []) (x := (a, e)) (y := (a, ⟨e.key, v, cap v, if u then now else e.time⟩)) rfl hr.keys
      simpa using this
    · exact hbound
    · exact hsz
    · exact hlen
    · intro x hx
      rw [show _ = _ from upd_dom (n' := _) hda.1 x] at hx
      have := mem_move (e' := ⟨e.key, v, cap v, if u then now else e.time⟩) (hr.alive x hx)
      simpa using this
  | cons y ys =>
    obtain ⟨b, eb⟩ := y
    obtain ⟨h1, h2, e1, e2, f, ga⟩ := unlink hr.dl hr.addr
    have hhead : headA ((b, eb) :: ys) none = some b := rfl
    have e1' : setPrev s.heap b (lastA xs none) = .ok h1 := by
      rw [hhead, fixNext] at e1
      cases hsp : setPrev s.heap b (lastA xs none) with
      | ub => rw [hsp] at e1; simp at e1
      | ok h' =>
        rw [hsp, Res.ok_bind] at e1
        simp only [Res.ok.injEq, Prod.mk.injEq] at e1
        rw [e1.1]
    rw [hhead]
    dsimp only
    rw [e1', Res.ok_bind, hr.beg]
    rw [hhead] at e2
    rw [e2, Res.ok_bind]
    dsimp only
    have hfin : s.endp = lastA (xs ++ (b, eb) :: ys) none := by
      rw [hr.fin, lastA_append, lastA_append, lastA_cons, lastA_cons, lastA_cons]
    have hd2 : deref h2 a = .ok ⟨e.key, e.val, lastA xs none, some b, e.size, e.time⟩ := by
      unfold deref
      rw [ga]
      have := hda.1
      rw [this]
      rfl
    have hfin2 : ∃ c, lastA (xs ++ (b, eb) :: ys) none = some c := by
      rw [lastA_append, lastA_cons]
      rcases List.eq_nil_or_concat ys with rfl | ⟨ys', y, rfl⟩
      · exact ⟨b, rfl⟩
      · rw [List.concat_eq_append]; simp [lastA]
    obtain ⟨c, hc⟩ := hfin2
    have st1 : setNext h2 a none = .ok (upd h2 a (some ⟨e.key, e.val, lastA xs none, none, e.size, e.time⟩)) := by
      unfold setNext; rw [hd2]; rfl
    rw [st1, Res.ok_bind]
    have st2 : setPrev (upd h2 a (some ⟨e.key, e.val, lastA xs none, none, e.size, e.time⟩)) a s.endp
        = .ok (upd (upd h2 a (some ⟨e.key, e.val, lastA xs none, none, e.size, e.time⟩)) a
            (some ⟨e.key, e.val, s.endp, none, e.size, e.time⟩)) := by
      unfold setPrev deref; simp [upd]
    rw [st2, Res.ok_bind, hfin, hc]
    dsimp only
    generalize hH : (upd (upd h2 a (some ⟨e.key, e.val, lastA xs none, none, e.size, e.time⟩)) a
            (some (⟨e.key, e.val, some c, none, e.size, e.time⟩ : Node K V))) = H
    have hHa : H a = some ⟨e.key, e.val, some c, none, e.size, e.time⟩ := by rw [← hH]; simp [upd]
    have hHd : Dl H none (xs ++ (b, eb) :: ys) none := by
      rw [← hH]
      exact Dl_frame (fun x hx => by simp [upd, hne x hx]) f
    have hnd : ((xs ++ (b, eb) :: ys).map (·.1)).Nodup := by
      have := nodup_move (f := fun x : Nat × Ent K V => x.1) (y := (a, e)) rfl hr.addr
      rw [List.map_append, List.nodup_append] at this
      exact this.1
    obtain ⟨h3, e3, f3, ga3⟩ := linkEnd_spec hHd hnd hne
    rw [hc, linkEnd] at e3
    rw [e3, Res.ok_bind]
    have hd3 : deref h3 a = .ok ⟨e.key, e.val, some c, none, e.size, e.time⟩ := by
      unfold deref; rw [ga3, hHa]
    rw [hd3, Res.ok_bind]
    dsimp only
    refine ⟨_, rfl, ?_, rfl, rfl⟩
    constructor
    · apply Dl_snoc
      · exact Dl_frame (fun x hx => by simp [upd, hne x hx]) f3
      · rw [hc]; simp [upd, assign]
    · rw [headA_append (xs ++ (b, eb) :: ys)]
      show headA (xs ++ (b, eb) :: ys) none = _
      cases xs <;> simp [headA]
    · rw [lastA_append (xs ++ (b, eb) :: ys)]
      rfl
    · intro k b
      show s.data k = some b ↔ _
      rw [hr.tbl]
      exact tbl_move (e := e) (e' := ⟨e.key, v, cap v, if u then now else e.time⟩) rfl k b
    · exact nodup_move (x := (a, e)) rfl hr.addr
    · exact nodup_move (x := (a, e)) rfl hr.keys
    · exact hbound
    · exact hsz
    · exact hlen
    · intro x hx
      have d1 := (fixNext_dom e1).trans (fixPrev_dom e2)
      have hd2' : h2 a = some ⟨e.key, e.val, lastA xs none, some b, e.size, e.time⟩ := by
        rw [ga]; exact hda.1
      have d2 : SameDom h2 H := by
        rw [← hH]
        exact (upd_dom hd2').trans (upd_dom (by simp only [upd, if_true]; rfl))
      have d3 : SameDom H h3 := setNext_dom e3
      have d4 := upd_dom (n := assign cap ⟨e.key, e.val, some c, none, e.size, e.time⟩ v u now) (ga3.trans hHa)
      rw [show _ = _ from (((d1.trans d2).trans d3).trans d4) x] at hx
      exact mem_move (hr.alive x hx)

/-- `set` of a new key -/
theorem set_new (cap : V → UInt64) {s : Cache K V} {l : List (Nat × Ent K V)} (hr : Rep s l) (k : K) (v : V) (u : Bool) (now : UInt64)
    (hk : s.data k = none) :
    ∃ s', set cap s k v u now = .ok s' ∧ Rep s' (evictU s.size_max (l ++ [(s.fresh, ⟨k, v, cap v, now⟩)])) ∧
      s'.size_max = s.size_max ∧ s'.time_max = s.time_max := by
  have hne : ∀ x ∈ l, x.1 ≠ s.fresh := fun x hx h => by have := hr.bound x hx; omega
  have hkne : ∀ x ∈ l, x.2.key ≠ k := by
    intro x hx h
    have := (hr.tbl k x.1).mpr ⟨x.2, hx, h⟩
    rw [hk] at this
    exact absurd this (by simp)
  unfold set
  rw [hk]
  dsimp only
  have st1 : setPrev (upd s.heap s.fresh (some { key := k, elem := default, prev := none, next := none, size := 0, time := now }))
      s.fresh s.endp = .ok (upd (upd s.heap s.fresh (some { key := k, elem := default, prev := none, next := none, size := 0, time := now }))
        s.fresh (some { key := k, elem := default, prev := s.endp, next := none, size := 0, time := now })) := by
    unfold setPrev deref; simp [upd]
  rw [st1, Res.ok_bind]
  generalize hH : (upd (upd s.heap s.fresh (some { key := k, elem := default, prev := none, next := none, size := 0, time := now }))
        s.fresh (some ({ key := k, elem := default, prev := s.endp, next := none, size := 0, time := now } : Node K V))) = H
  have hHa : H s.fresh = some { key := k, elem := default, prev := s.endp, next := none, size := 0, time := now } := by
    rw [← hH]; simp [upd]
  have hHd : Dl H none l none := by
    rw [← hH]
    exact Dl_frame (fun x hx => by simp [upd, hne x hx]) hr.dl
  obtain ⟨h3, e3, f3, ga3⟩ := linkEnd_spec hHd hr.addr hne
  rw [← hr.fin] at e3
  rw [e3, Res.ok_bind]
  have hd3 : deref h3 s.fresh = .ok { key := k, elem := default, prev := s.endp, next := none, size := 0, time := now } := by
    unfold deref; rw [ga3, hHa]
  rw [hd3, Res.ok_bind]
  apply drop_spec
  constructor
  · apply Dl_snoc
    · exact Dl_frame (fun x hx => by simp [upd, hne x hx]) f3
    · simp [upd, hr.fin]
  · rw [headA_append]
    show (match s.begp with | none => some s.fresh | some b => some b) = _
    rw [hr.beg]
    cases l <;> simp [headA]
  · rw [lastA_append]; rfl
  · intro k' b
    show (if k' = k then some s.fresh else s.data k') = some b ↔ _
    by_cases hkk : k' = k
    · subst hkk
      simp only [if_true, Option.some.injEq, List.mem_append, List.mem_singleton]
      constructor
      · rintro rfl; exact ⟨_, Or.inr rfl, rfl⟩
      · rintro ⟨f, h | h, hf⟩
        · exact absurd hf (hkne _ h)
        · injection h with h1 _; exact h1.symm
    · rw [if_neg hkk, hr.tbl]
      simp only [List.mem_append, List.mem_singleton]
      constructor
      · rintro ⟨f, h, hf⟩; exact ⟨f, Or.inl h, hf⟩
      · rintro ⟨f, h | h, hf⟩
        · exact ⟨f, h, hf⟩
        · injection h with _ h2; subst h2; exact absurd hf.symm hkk
  · rw [List.map_append, List.nodup_append]
    refine ⟨hr.addr, by simp, ?_⟩
    simp only [List.mem_map, List.map_cons, List.map_nil, List.mem_singleton]
    rintro a ⟨x, hx, rfl⟩ b rfl
    exact hne x hx
  · rw [List.map_append, List.nodup_append]
    refine ⟨hr.keys, by simp, ?_⟩
    simp only [List.mem_map, List.map_cons, List.map_nil, List.mem_singleton]
    rintro a ⟨x, hx, rfl⟩ b rfl
    exact hkne x hx
  · intro x hx
    show x.1 < s.fresh + 1
    rcases List.mem_append.mp hx with h | h
    · have := hr.bound x h; omega
    · rw [List.mem_singleton] at h; subst h; exact Nat.lt_succ_self _
  · show s.size_cur + cap v = _
    rw [hr.size, sumU_append, sumU_cons]
    simp only [sumU, List.foldr_nil]
    grind
  · have := hr.len
    show (l ++ [_]).length ≤ s.fresh + 1
    simp only [List.length_append, List.length_cons, List.length_nil]; omega
  · intro x hx
    simp only [upd] at hx
    rw [List.map_append, List.mem_append]
    by_cases hxa : x = s.fresh
    · exact Or.inr (by simp [hxa])
    · rw [if_neg hxa, linkEnd_dom e3 x, ← hH] at hx
      simp only [upd, if_neg hxa] at hx
      exact Or.inl (hr.alive x hx)

/-! ### operations on the list -/

def toEntry (x : Nat × Ent K V) : Spec.Entry K V := ⟨x.2.key, x.2.val, x.2.size.toNat, x.2.time.toNat⟩

theorem data_none {s : Cache K V} {l : List (Nat × Ent K V)} (hr : Rep s l) {k : K} (h : s.data k = none) :
    ∀ x ∈ l, x.2.key ≠ k := by
  intro x hx hk
  have := (hr.tbl k x.1).mpr ⟨x.2, hx, hk⟩
  rw [h] at this
  exact absurd this (by simp)

theorem data_some {s : Cache K V} {l : List (Nat × Ent K V)} (hr : Rep s l) {k : K} {a : Nat} (h : s.data k = some a) :
    ∃ xs e ys, l = xs ++ (a, e) :: ys ∧ e.key = k := by
  obtain ⟨e, he, hk⟩ := (hr.tbl k a).mp h
  obtain ⟨xs, ys, h⟩ := List.append_of_mem he
  exact ⟨xs, e, ys, h, hk⟩

theorem keys_split {xs ys : List (Nat × Ent K V)} {a : Nat} {e : Ent K V} (h : ((xs ++ (a, e) :: ys).map (fun x => x.2.key)).Nodup) :
    ∀ x ∈ xs ++ ys, x.2.key ≠ e.key := by
  simp only [List.map_append, List.map_cons, List.nodup_append, List.nodup_cons, List.mem_map, List.mem_cons] at h
  obtain ⟨k1, ⟨k2, k3⟩, k4⟩ := h
  intro x hx
  rcases List.mem_append.mp hx with hx | hx
  · exact k4 _ ⟨x, hx, rfl⟩ _ (Or.inl rfl)
  · exact fun h => k2 ⟨x, hx, h⟩

theorem lookup_none {l : List (Nat × Ent K V)} {k : K} (h : ∀ x ∈ l, x.2.key ≠ k) : Spec.lookup (l.map toEntry) k = none := by
  unfold Spec.lookup
  rw [List.find?_eq_none]
  simp only [List.mem_map]
  rintro e ⟨x, hx, rfl⟩
  simp [toEntry, h x hx]

theorem lookup_split {xs ys : List (Nat × Ent K V)} {a : Nat} {e : Ent K V} (h : ∀ x ∈ xs ++ ys, x.2.key ≠ e.key) :
    Spec.lookup ((xs ++ (a, e) :: ys).map toEntry) e.key = some (toEntry (a, e)) := by
  unfold Spec.lookup
  rw [List.map_append, List.find?_append]
  have : List.find? (fun x => decide (x.key = e.key)) (xs.map toEntry) = none :=
    lookup_none (fun x hx => h x (by simp [hx]))
  rw [this]
  simp [toEntry]

theorem remove_none {l : List (Nat × Ent K V)} {k : K} (h : ∀ x ∈ l, x.2.key ≠ k) :
    Spec.remove (l.map toEntry) k = l.map toEntry := by
  unfold Spec.remove
  rw [List.filter_eq_self]
  simp only [List.mem_map]
  rintro e ⟨x, hx, rfl⟩
  simp [toEntry, h x hx]

theorem remove_split {xs ys : List (Nat × Ent K V)} {a : Nat} {e : Ent K V} (h : ∀ x ∈ xs ++ ys, x.2.key ≠ e.key) :
    Spec.remove ((xs ++ (a, e) :: ys).map toEntry) e.key = (xs ++ ys).map toEntry := by
  have h1 := remove_none (l := xs) (k := e.key) (fun x hx => h x (by simp [hx]))
  have h2 := remove_none (l := ys) (k := e.key) (fun x hx => h x (by simp [hx]))
  unfold Spec.remove at *
  rw [List.map_append, List.map_cons, List.filter_append, List.filter_cons, h1, h2]
  simp [toEntry]

theorem total_cons (e : Spec.Entry K V) (l : List (Spec.Entry K V)) : Spec.total (e :: l) = e.size + Spec.total l := by
  simp [Spec.total]

theorem total_append (l l' : List (Spec.Entry K V)) : Spec.total (l ++ l') = Spec.total l + Spec.total l' := by
  simp [Spec.total]

theorem sumU_toNat : ∀ (l : List (Nat × Ent K V)), Spec.total (l.map toEntry) < 2 ^ 64 → (sumU l).toNat = Spec.total (l.map toEntry) := by
  intro l
  induction l with
  | nil => intro _; rfl
  | cons x l ih =>
    intro h
    rw [List.map_cons, total_cons] at h ⊢
    have : (toEntry x).size = x.2.size.toNat := rfl
    rw [this] at h ⊢
    have ih := ih (by omega)
    obtain ⟨a, e⟩ := x
    rw [sumU_cons, UInt64.toNat_add, ih]
    exact Nat.mod_eq_of_lt h

theorem evictU_spec (max : UInt64) : ∀ (l : List (Nat × Ent K V)), Spec.total (l.map toEntry) < 2 ^ 64 →
    (evictU max l).map toEntry = Spec.evict max.toNat (l.map toEntry) := by
  intro l
  induction l with
  | nil => intro _; rfl
  | cons x l ih =>
    intro h
    have hs := sumU_toNat _ h
    rw [evictU]
    rw [List.map_cons] at h hs ⊢
    rw [Spec.evict]
    by_cases hc : sumU (x :: l) > max
    · have hc' : max.toNat < (sumU (x :: l)).toNat := hc
      rw [if_pos hc, if_neg (by omega)]
      apply ih
      rw [total_cons] at h; omega
    · have hc' : ¬ max.toNat < (sumU (x :: l)).toNat := hc
      rw [if_neg hc, if_pos (by omega), List.map_cons]

theorem evict_le (max : Nat) : ∀ (l : List (Spec.Entry K V)), Spec.total (Spec.evict max l) ≤ max := by
  intro l
  induction l with
  | nil => simp [Spec.evict, Spec.total]
  | cons e l ih =>
    rw [Spec.evict]
    split
    · assumption
    · exact ih

theorem evict_suffix (max : Nat) : ∀ (l : List (Spec.Entry K V)), ∃ d, l = d ++ Spec.evict max l ∧
    ∀ d1 d2, d = d1 ++ d2 → d2 ≠ [] → max < Spec.total (d2 ++ Spec.evict max l) := by
  intro l
  induction l with
  | nil => exact ⟨[], rfl, by intro d1 d2 h h2; exact absurd (List.append_eq_nil_iff.mp h.symm).2 h2⟩
  | cons e l ih =>
    rw [Spec.evict]
    split
    · exact ⟨[], rfl, by intro d1 d2 h h2; exact absurd (List.append_eq_nil_iff.mp h.symm).2 h2⟩
    · rename_i hc
      obtain ⟨d, h1, h2⟩ := ih
      refine ⟨e :: d, by rw [List.cons_append, ← h1], ?_⟩
      intro d1 d2 h hne
      cases d1 with
      | nil =>
        rw [List.nil_append] at h
        rw [← h, List.cons_append, ← h1]
        omega
      | cons x d1 =>
        rw [List.cons_append] at h
        injection h with _ h
        exact h2 d1 d2 h hne

theorem evict_total_le (max : Nat) (l : List (Spec.Entry K V)) : Spec.total (Spec.evict max l) ≤ Spec.total l := by
  obtain ⟨d, h, _⟩ := evict_suffix max l
  have : Spec.total l = Spec.total d + Spec.total (Spec.evict max l) := by
    rw [← total_append, ← h]
  omega

/-- `get` on the list -/
theorem get_spec {s : Cache K V} {l : List (Nat × Ent K V)} (hr : Rep s l) (k : K) (now : UInt64) :
    (s.data k = none ∧ get s k now = .ok (s, none)) ∨
    ∃ xs a e ys, l = xs ++ (a, e) :: ys ∧ e.key = k ∧ s.data k = some a ∧
      ((¬ (s.time_max ≠ 0 ∧ e.time + s.time_max < now) ∧ get s k now = .ok (s, some e.val)) ∨
       ((s.time_max ≠ 0 ∧ e.time + s.time_max < now) ∧
        ∃ s', get s k now = .ok (s', none) ∧ Rep s' (xs ++ ys) ∧ s'.size_max = s.size_max ∧ s'.time_max = s.time_max)) := by
  unfold get
  cases hd : s.data k with
  | none => exact Or.inl ⟨rfl, rfl⟩
  | some a =>
    obtain ⟨xs, e, ys, rfl, hk⟩ := data_some hr hd
    refine Or.inr ⟨xs, a, e, ys, rfl, hk, rfl, ?_⟩
    dsimp only
    rw [Dl_deref (Dl_append.mp hr.dl).2, Res.ok_bind]
    dsimp only
    by_cases hc : s.time_max ≠ 0 ∧ e.time + s.time_max < now
    · obtain ⟨s', e1, r1, m1, t1⟩ := eraseAt_spec hr
      rw [if_pos hc, e1]
      exact Or.inr ⟨hc, s', rfl, r1, m1, t1⟩
    · rw [if_neg hc]
      exact Or.inl ⟨hc, rfl⟩

theorem erase_spec {s : Cache K V} {l : List (Nat × Ent K V)} (hr : Rep s l) (k : K) :
    (s.data k = none ∧ erase s k = .ok (s, false)) ∨
    ∃ xs a e ys, l = xs ++ (a, e) :: ys ∧ e.key = k ∧ s.data k = some a ∧
        ∃ s', erase s k = .ok (s', true) ∧ Rep s' (xs ++ ys) ∧ s'.size_max = s.size_max ∧ s'.time_max = s.time_max := by
  unfold erase
  cases hd : s.data k with
  | none => exact Or.inl ⟨rfl, rfl⟩
  | some a =>
    obtain ⟨xs, e, ys, rfl, hk⟩ := data_some hr hd
    obtain ⟨s', e1, r1, m1, t1⟩ := eraseAt_spec hr
    refine Or.inr ⟨xs, a, e, ys, rfl, hk, rfl, s', ?_, r1, m1, t1⟩
    dsimp only
    rw [e1]; rfl

/-- every operation keeps the structure -/
theorem step_rep (cap : V → UInt64) {s : Cache K V} {l : List (Nat × Ent K V)} (hr : Rep s l) (op : Op K V) :
    ∃ s' l', step cap s op = .ok s' ∧ Rep s' l' ∧ s'.size_max = s.size_max ∧ s'.time_max = s.time_max := by
  cases op with
  | get k now =>
    simp only [step]
    rcases get_spec hr k now with ⟨_, h⟩ | ⟨xs, a, e, ys, _, _, _, ⟨_, h⟩ | ⟨_, s', h, r, m, t⟩⟩
    · exact ⟨s, l, by rw [h]; rfl, hr, rfl, rfl⟩
    · exact ⟨s, l, by rw [h]; rfl, hr, rfl, rfl⟩
    · exact ⟨s', _, by rw [h]; rfl, r, m, t⟩
  | set k v u now =>
    simp only [step]
    cases hd : s.data k with
    | none =>
      obtain ⟨s', e, r, m, t⟩ := set_new cap hr k v u now hd
      exact ⟨s', _, e, r, m, t⟩
    | some a =>
      obtain ⟨xs, e, ys, rfl, rfl⟩ := data_some hr hd
      obtain ⟨s', e, r, m, t⟩ := set_existing cap hr v u now
      exact ⟨s', _, e, r, m, t⟩
  | erase k =>
    simp only [step]
    rcases erase_spec hr k with ⟨_, h⟩ | ⟨xs, a, e, ys, _, _, _, s', h, r, m, t⟩
    · exact ⟨s, l, by rw [h]; rfl, hr, rfl, rfl⟩
    · exact ⟨s', _, by rw [h]; rfl, r, m, t⟩

theorem run_rep (cap : V → UInt64) : ∀ (ops : List (Op K V)) (s : Cache K V) (l : List (Nat × Ent K V)), Rep s l →
    ∃ s' l', run cap s ops = .ok s' ∧ Rep s' l' ∧ s'.size_max = s.size_max ∧ s'.time_max = s.time_max := by
  intro ops
  induction ops with
  | nil => intro s l hr; exact ⟨s, l, rfl, hr, rfl, rfl⟩
  | cons op ops ih =>
    intro s l hr
    obtain ⟨s1, l1, e1, r1, m1, t1⟩ := step_rep cap hr op
    obtain ⟨s2, l2, e2, r2, m2, t2⟩ := ih s1 l1 r1
    exact ⟨s2, l2, by rw [run, e1]; exact e2, r2, m2.trans m1, t2.trans t1⟩

theorem run_append (cap : V → UInt64) : ∀ (h1 h2 : List (Op K V)) (s : Cache K V),
    run cap s (h1 ++ h2) = (run cap s h1).bind (fun s => run cap s h2) := by
  intro h1
  induction h1 with
  | nil => intro h2 s; rfl
  | cons op h1 ih =>
    intro h2 s
    simp only [List.cons_append, run]
    cases step cap s op with
    | ub => rfl
    | ok s1 => exact ih h2 s1

/-! ### refinement of the specification -/

/-- The event a client sees. -/
def evOf : Op K V → Spec.Event K V
  | .get k now => .get k now.toNat
  | .set k v u now => .set k v u now.toNat
  | .erase k => .erase k

def capN (cap : V → UInt64) (v : V) : Nat := (cap v).toNat

theorem expired_iff (e : Ent K V) (a : Nat) (tm now : UInt64) (h : e.time.toNat + tm.toNat < 2 ^ 64) :
    (tm ≠ 0 ∧ e.time + tm < now) ↔ Spec.Expired tm.toNat now.toNat (toEntry (a, e)) := by
  unfold Spec.Expired toEntry
  have h1 : tm ≠ 0 ↔ tm.toNat ≠ 0 := by
    constructor
    · intro h h'; exact h (UInt64.toNat_inj.mp (by simpa using h'))
    · rintro h rfl; exact h rfl
  have h2 : (e.time + tm < now) ↔ e.time.toNat + tm.toNat < now.toNat := by
    rw [UInt64.lt_iff_toNat_lt, UInt64.toNat_add, Nat.mod_eq_of_lt h]
  rw [h1, h2]

theorem remove_total_le (l : List (Spec.Entry K V)) (k : K) : Spec.total (Spec.remove l k) ≤ Spec.total l := by
  induction l with
  | nil => simp [Spec.remove]
  | cons e l ih =>
    unfold Spec.remove at *
    rw [List.filter_cons]
    split
    · rw [total_cons, total_cons]; omega
    · rw [total_cons]; omega

def evSize (cap : V → Nat) : Spec.Event K V → Nat
  | .set _ v _ _ => cap v
  | _ => 0

theorem setSizes_append (cap : V → Nat) (h h' : List (Spec.Event K V)) :
    Spec.setSizes cap (h ++ h') = Spec.setSizes cap h + Spec.setSizes cap h' := by
  simp [Spec.setSizes]

theorem setSizes_one (cap : V → Nat) (ev : Spec.Event K V) : Spec.setSizes cap [ev] = evSize cap ev := by
  cases ev <;> simp [Spec.setSizes, evSize]

theorem after_total (cap : V → Nat) (max tmax : Nat) (l : List (Spec.Entry K V)) (ev : Spec.Event K V) :
    Spec.total (Spec.after cap max tmax l ev) ≤ Spec.total l + evSize cap ev := by
  cases ev with
  | get k now =>
    simp only [Spec.after, evSize]
    split
    · split
      · have := remove_total_le l k; omega
      · omega
    · omega
  | set k v u now =>
    simp only [Spec.after, evSize]
    split
    · have := remove_total_le l k
      rw [total_append]; simp [Spec.total] at *; omega
    · have := evict_total_le max (l ++ [⟨k, v, cap v, now⟩])
      rw [total_append] at this; simp [Spec.total] at *; omega
  | erase k =>
    have := remove_total_le l k
    simp only [Spec.after]; omega

theorem mem_evict {max : Nat} {l : List (Spec.Entry K V)} {e} (h : e ∈ Spec.evict max l) : e ∈ l := by
  obtain ⟨d, hd, _⟩ := evict_suffix max l
  rw [hd]; exact List.mem_append.mpr (Or.inr h)

theorem mem_lookup {l : List (Spec.Entry K V)} {k : K} {e} (h : Spec.lookup l k = some e) : e ∈ l := List.mem_of_find?_eq_some h

theorem lookup_key {l : List (Spec.Entry K V)} {k : K} {e} (h : Spec.lookup l k = some e) : e.key = k := by
  have := List.find?_some h; simpa using this

/-- the times of the contents stem from sets -/
theorem after_times (cap : V → Nat) (max tmax : Nat) (l : List (Spec.Entry K V)) (ev : Spec.Event K V) (T : Nat)
    (hl : ∀ e ∈ l, e.time < T) (hev : match ev with | .set _ _ _ now => now < T | _ => True) :
    ∀ e ∈ Spec.after cap max tmax l ev, e.time < T := by
  cases ev with
  | get k now =>
    simp only [Spec.after]
    split
    · split
      · intro e he; exact hl e (List.mem_filter.mp he).1
      · exact hl
    · exact hl
  | set k v u now =>
    simp only at hev
    simp only [Spec.after]
    split
    · rename_i e0 h0
      intro e he
      rcases List.mem_append.mp he with he | he
      · exact hl e (List.mem_filter.mp he).1
      · rw [List.mem_singleton] at he; subst he
        dsimp only
        split
        · exact hev
        · exact hl e0 (mem_lookup h0)
    · intro e he
      rcases List.mem_append.mp (mem_evict he) with he | he
      · exact hl e he
      · rw [List.mem_singleton] at he; subst he; exact hev
  | erase k =>
    intro e he; exact hl e (List.mem_filter.mp he).1

theorem step_ref (cap : V → UInt64) {s : Cache K V} {l : List (Nat × Ent K V)} (hr : Rep s l) (op : Op K V)
    (hsz : Spec.total (l.map toEntry) + evSize (capN cap) (evOf op) < 2 ^ 64)
    (htm : ∀ e ∈ l.map toEntry, e.time + s.time_max.toNat < 2 ^ 64) :
    ∃ s' l', step cap s op = .ok s' ∧ Rep s' l' ∧ s'.size_max = s.size_max ∧ s'.time_max = s.time_max ∧
      l'.map toEntry = Spec.after (capN cap) s.size_max.toNat s.time_max.toNat (l.map toEntry) (evOf op) := by
  cases op with
  | get k now =>
    simp only [step, evOf, Spec.after]
    rcases get_spec hr k now with ⟨hd, h⟩ | ⟨xs, a, e, ys, rfl, rfl, hd, h⟩
    · exact ⟨s, l, by rw [h]; rfl, hr, rfl, rfl, by rw [lookup_none (data_none hr hd)]⟩
    · have hks := keys_split hr.keys
      rw [lookup_split hks]
      have hex := expired_iff e a s.time_max now (htm (toEntry (a, e)) (by simp))
      rcases h with ⟨hc, h⟩ | ⟨hc, s', h, r, m, t⟩
      · refine ⟨s, _, by rw [h]; rfl, hr, rfl, rfl, ?_⟩
        dsimp only
        rw [if_neg (by rw [← hex]; exact hc)]
      · refine ⟨s', _, by rw [h]; rfl, r, m, t, ?_⟩
        dsimp only
        rw [if_pos (hex.mp hc), remove_split hks]
  | set k v u now =>
    simp only [step, evOf, Spec.after]
    cases hd : s.data k with
    | none =>
      obtain ⟨s', e, r, m, t⟩ := set_new cap hr k v u now hd
      refine ⟨s', _, e, r, m, t, ?_⟩
      rw [lookup_none (data_none hr hd)]
      dsimp only
      rw [evictU_spec]
      · rw [List.map_append]; rfl
      · rw [List.map_append, total_append]
        simp only [evSize, evOf, capN] at hsz
        simpa [Spec.total, toEntry] using hsz
    | some a =>
      obtain ⟨xs, e, ys, rfl, rfl⟩ := data_some hr hd
      have hks := keys_split hr.keys
      obtain ⟨s', e1, r, m, t⟩ := set_existing cap hr v u now
      refine ⟨s', _, e1, r, m, t, ?_⟩
      rw [lookup_split hks]
      dsimp only
      rw [remove_split hks, List.map_append]
      congr 1
      simp only [List.map_cons, List.map_nil, toEntry, capN]
      cases u <;> rfl
  | erase k =>
    simp only [step, evOf, Spec.after]
    rcases erase_spec hr k with ⟨hd, h⟩ | ⟨xs, a, e, ys, rfl, rfl, hd, s', h, r, m, t⟩
    · exact ⟨s, l, by rw [h]; rfl, hr, rfl, rfl, (remove_none (data_none hr hd)).symm⟩
    · exact ⟨s', _, by rw [h]; rfl, r, m, t, (remove_split (keys_split hr.keys)).symm⟩

theorem contents_snoc (cap : V → Nat) (max tmax : Nat) (h : List (Spec.Event K V)) (ev : Spec.Event K V) :
    Spec.contents cap max tmax (h ++ [ev]) = Spec.after cap max tmax (Spec.contents cap max tmax h) ev := by
  simp [Spec.contents]

theorem contents_total (cap : V → Nat) (max tmax : Nat) (h : List (Spec.Event K V)) :
    Spec.total (Spec.contents cap max tmax h) ≤ Spec.setSizes cap h := by
  induction h using List.reverseRecOn with
  | nil => simp [Spec.contents, Spec.total]
  | append_singleton h ev ih =>
    rw [contents_snoc, setSizes_append, setSizes_one]
    have := after_total cap max tmax (Spec.contents cap max tmax h) ev
    omega

theorem contents_times (cap : V → Nat) (max tmax T : Nat) (h : List (Spec.Event K V))
    (hh : ∀ ev ∈ h, match ev with | .set _ _ _ now => now < T | _ => True) :
    ∀ e ∈ Spec.contents cap max tmax h, e.time < T := by
  induction h using List.reverseRecOn with
  | nil => intro e he; simp [Spec.contents] at he
  | append_singleton h ev ih =>
    rw [contents_snoc]
    exact after_times cap max tmax _ ev T (ih (fun e he => hh e (by simp [he]))) (hh ev (by simp))

theorem Fits_prefix {cap : V → Nat} {tmax : Nat} {h h' : List (Spec.Event K V)} (hf : Spec.Fits cap tmax (h ++ h')) :
    Spec.Fits cap tmax h := by
  refine ⟨?_, fun ev hev => hf.2 ev (by simp [hev])⟩
  have := hf.1
  rw [setSizes_append] at this; omega

theorem Fits_times {cap : V → Nat} {max tmax : Nat} {h : List (Spec.Event K V)} (hf : Spec.Fits cap tmax h) :
    ∀ e ∈ Spec.contents cap max tmax h, e.time + tmax < 2 ^ 64 := by
  intro e he
  have := contents_times cap max tmax (2 ^ 64 - tmax) h (by
    intro ev hev
    have := hf.2 ev hev
    cases ev with
    | set k v u now => simp only at this ⊢; omega
    | get k now => trivial
    | erase k => trivial) e he
  omega

theorem run_ref (cap : V → UInt64) (max tmax : UInt64) (h : List (Op K V)) :
    Spec.Fits (capN cap) tmax.toNat (h.map evOf) →
    ∃ s l, run cap (init max tmax) h = .ok s ∧ Rep s l ∧ s.size_max = max ∧ s.time_max = tmax ∧
      l.map toEntry = Spec.contents (capN cap) max.toNat tmax.toNat (h.map evOf) := by
  induction h using List.reverseRecOn with
  | nil => intro _; exact ⟨_, [], rfl, rep_init max tmax, rfl, rfl, rfl⟩
  | append_singleton h op ih =>
    intro hf
    rw [List.map_append] at hf ⊢
    obtain ⟨s, l, e, r, m, t, hl⟩ := ih (Fits_prefix hf)
    have hsz := hf.1
    rw [setSizes_append, List.map_cons, List.map_nil, setSizes_one] at hsz
    have htot := contents_total (capN cap) max.toNat tmax.toNat (h.map evOf)
    obtain ⟨s', l', e', r', m', t', hl'⟩ := step_ref cap r op (by rw [hl]; omega)
      (by rw [hl, t]; exact Fits_times (Fits_prefix hf))
    refine ⟨s', l', ?_, r', m'.trans m, t'.trans t, ?_⟩
    · rw [run_append, e]
      show run cap s [op] = _
      rw [run, e']; rfl
    · rw [List.map_cons, List.map_nil, contents_snoc, hl', hl, m, t]

end Verif.Cache
