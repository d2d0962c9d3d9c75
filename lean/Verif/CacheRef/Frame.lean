/-
  Two caches in one memory: what one cache does leaves the nodes of the other alone.
-/
import Verif.Cache.Props
import Verif.CacheRef.Lemmas

set_option linter.unusedSectionVars false

namespace Verif.CacheRef
open Cache

variable {K V : Type} [DecidableEq K] [Inhabited V]

/-- The nodes of `h` and those of `F`. -/
def join (h F : Heap K V) : Heap K V := fun x => (h x).or (F x)

theorem join_deref {h F : Heap K V} {a : Nat} {n : Node K V} (e : deref h a = .ok n) : deref (join h F) a = .ok n := by
  unfold deref at *
  cases hh : h a with
  | none => rw [hh] at e; cases e
  | some m => rw [hh] at e; simp only [join, hh, Option.some_or]; exact e

theorem join_upd (h F : Heap K V) (a : Nat) (n : Node K V) : upd (join h F) a (some n) = join (upd h a (some n)) F := by
  funext x
  by_cases hx : x = a <;> simp [upd, join, hx]

theorem join_free {h F : Heap K V} {a : Nat} (hF : F a = none) : upd (join h F) a none = join (upd h a none) F := by
  funext x
  by_cases hx : x = a
  · simp [upd, join, hx, hF]
  · simp [upd, join, hx]

theorem join_setPrev {h h' F : Heap K V} {a : Nat} {v : Option Nat} (e : setPrev h a v = .ok h') : setPrev (join h F) a v = .ok (join h' F) := by
  unfold setPrev at *
  cases hn : deref h a with
  | ub => rw [hn] at e; cases e
  | ok n =>
    rw [hn, Res.ok_bind] at e
    cases e
    rw [join_deref hn, Res.ok_bind, join_upd]

theorem join_setNext {h h' F : Heap K V} {a : Nat} {v : Option Nat} (e : setNext h a v = .ok h') : setNext (join h F) a v = .ok (join h' F) := by
  unfold setNext at *
  cases hn : deref h a with
  | ub => rw [hn] at e; cases e
  | ok n =>
    rw [hn, Res.ok_bind] at e
    cases e
    rw [join_deref hn, Res.ok_bind, join_upd]

theorem join_fixNext {h F : Heap K V} {r : Heap K V × Option Nat} {x y z : Option Nat} (e : fixNext h x y z = .ok r) : fixNext (join h F) x y z = .ok (join r.1 F, r.2) := by
  unfold fixNext at *
  cases x with
  | none => cases e; rfl
  | some b =>
    simp only at e ⊢
    cases hn : setPrev h b y with
    | ub => rw [hn] at e; cases e
    | ok h' => rw [hn, Res.ok_bind] at e; cases e; rw [join_setPrev hn, Res.ok_bind]

theorem join_fixPrev {h F : Heap K V} {r : Heap K V × Option Nat} {x y z : Option Nat} (e : fixPrev h x y z = .ok r) : fixPrev (join h F) x y z = .ok (join r.1 F, r.2) := by
  unfold fixPrev at *
  cases x with
  | none => cases e; rfl
  | some b =>
    simp only at e ⊢
    cases hn : setNext h b y with
    | ub => rw [hn] at e; cases e
    | ok h' => rw [hn, Res.ok_bind] at e; cases e; rw [join_setNext hn, Res.ok_bind]

theorem join_linkEnd {h h' F : Heap K V} {x : Option Nat} {a : Nat} (e : linkEnd h x a = .ok h') : linkEnd (join h F) x a = .ok (join h' F) := by
  unfold linkEnd at *
  cases x with
  | none => cases e; rfl
  | some b => exact join_setNext e

/-- The cache in a larger memory. -/
def wide (s : Cache K V) (F : Heap K V) : Cache K V := { s with heap := join s.heap F }

/-- The nodes of `F` do not belong to the cache `s`. -/
structure Foreign (F : Heap K V) (s : Cache K V) : Prop where
  dom : ∀ x, F x ≠ none → s.heap x = none
  tbl : ∀ x, F x ≠ none → ∀ k, s.data k ≠ some x
  old : ∀ x, F x ≠ none → x < s.fresh

theorem foreign_dom {F : Heap K V} {s : Cache K V} {h : Heap K V} (f : Foreign F s) (hd : SameDom s.heap h) : ∀ x, F x ≠ none → h x = none := by
  intro x hx
  have := hd x
  rw [f.dom x hx] at this
  cases hh : h x with
  | none => rfl
  | some n => rw [hh] at this; simp at this

theorem foreign_deref {F : Heap K V} {s : Cache K V} {a : Nat} {n : Node K V} (f : Foreign F s) (e : deref s.heap a = .ok n) : F a = none := by
  cases hF : F a with
  | none => rfl
  | some m =>
    have := f.dom a (by rw [hF]; simp)
    unfold deref at e
    rw [this] at e
    cases e

theorem wide_eraseAt {F : Heap K V} {s s' : Cache K V} {a : Nat} (f : Foreign F s) (e : eraseAt s a = .ok s') : eraseAt (wide s F) a = .ok (wide s' F) ∧ Foreign F s' := by
  unfold eraseAt at *
  cases hn : deref s.heap a with
  | ub => rw [hn] at e; cases e
  | ok n =>
    rw [hn, Res.ok_bind] at e
    have hn' : deref (wide s F).heap a = .ok n := join_deref hn
    rw [hn', Res.ok_bind]
    cases h1 : fixNext s.heap n.next n.prev s.endp with
    | ub => rw [h1] at e; cases e
    | ok r1 =>
      rw [h1, Res.ok_bind] at e
      have h1' : fixNext (wide s F).heap n.next n.prev (wide s F).endp = .ok (join r1.1 F, r1.2) := join_fixNext h1
      rw [h1', Res.ok_bind]
      cases h2 : fixPrev r1.1 n.prev n.next s.begp with
      | ub => simp only [h2] at e; cases e
      | ok r2 =>
        simp only [h2, Res.ok_bind] at e
        have h2' : fixPrev (join r1.1 F) n.prev n.next (wide s F).begp = .ok (join r2.1 F, r2.2) := join_fixPrev h2
        simp only [h2', Res.ok_bind]
        cases e
        have hF := foreign_deref f hn
        refine ⟨?_, ?_, ?_, f.old⟩
        · simp only [tblErase, wide]
          rw [join_free hF]
        · intro x hx
          simp only [tblErase, upd]
          split
          · rfl
          · exact foreign_dom f ((fixNext_dom h1).trans (fixPrev_dom h2)) x hx
        · intro x hx k
          simp only [tblErase]
          split
          · simp
          · exact f.tbl x hx k

theorem wide_dropLoop {F : Heap K V} : ∀ (fuel : Nat) {s s' : Cache K V}, Foreign F s → dropLoop fuel s = .ok s' → dropLoop fuel (wide s F) = .ok (wide s' F) ∧ Foreign F s' := by
  intro fuel
  induction fuel with
  | zero =>
    intro s s' f e
    unfold dropLoop at e ⊢
    split at e
    · cases e
    · rename_i hc
      cases e
      have hc' : ¬ (wide s F).size_cur > (wide s F).size_max := hc
      rw [if_neg hc']
      exact ⟨rfl, f⟩
  | succ fuel ih =>
    intro s s' f e
    unfold dropLoop at e ⊢
    split at e
    · rename_i hc
      have hc' : (wide s F).size_cur > (wide s F).size_max := hc
      rw [if_pos hc']
      cases hb : s.begp with
      | none => rw [hb] at e; cases e
      | some old =>
        rw [hb] at e
        have hb' : (wide s F).begp = some old := hb
        rw [hb']
        simp only at e ⊢
        cases hn : deref s.heap old with
        | ub => rw [hn] at e; cases e
        | ok n =>
          rw [hn, Res.ok_bind] at e
          have hn' : deref (wide s F).heap old = .ok n := join_deref hn
          rw [hn', Res.ok_bind]
          cases h1 : fixNext s.heap n.next none s.endp with
          | ub => rw [h1] at e; cases e
          | ok r1 =>
            rw [h1, Res.ok_bind] at e
            have h1' : fixNext (wide s F).heap n.next none (wide s F).endp = .ok (join r1.1 F, r1.2) := join_fixNext h1
            rw [h1', Res.ok_bind]
            simp only at e ⊢
            cases h2 : deref r1.1 old with
            | ub => rw [h2] at e; cases e
            | ok m =>
              rw [h2, Res.ok_bind] at e
              have h2' : deref (join r1.1 F) old = .ok m := join_deref h2
              rw [h2', Res.ok_bind]
              have hd : (wide s F).data m.key = s.data m.key := rfl
              rw [hd]
              have fd := foreign_dom f (fixNext_dom h1)
              cases hk : s.data m.key with
              | none =>
                rw [hk] at e
                exact ih (s := { s with heap := r1.1, begp := m.next, endp := r1.2, size_cur := s.size_cur - m.size }) ⟨fd, f.tbl, f.old⟩ e
              | some a =>
                rw [hk] at e
                have hF : F a = none := by
                  cases hF : F a with
                  | none => rfl
                  | some q => exact absurd hk (f.tbl a (by rw [hF]; simp) _)
                simp only at e ⊢
                have hf2 : Foreign F (tblErase { s with heap := r1.1, begp := m.next, endp := r1.2, size_cur := s.size_cur - m.size } m.key a) := by
                  refine ⟨?_, ?_, f.old⟩
                  · intro x hx
                    simp only [tblErase, upd]
                    split
                    · rfl
                    · exact fd x hx
                  · intro x hx k
                    simp only [tblErase]
                    split
                    · simp
                    · exact f.tbl x hx k
                obtain ⟨g1, g2⟩ := ih hf2 e
                refine ⟨?_, g2⟩
                rw [← g1]
                congr 1
                simp only [tblErase, wide]
                rw [join_free hF]
    · rename_i hc
      cases e
      have hc' : ¬ (wide s F).size_cur > (wide s F).size_max := hc
      rw [if_neg hc']
      exact ⟨rfl, f⟩

theorem wide_drop {F : Heap K V} {s s' : Cache K V} (f : Foreign F s) (e : drop_last_unused s = .ok s') : drop_last_unused (wide s F) = .ok (wide s' F) ∧ Foreign F s' := by
  unfold drop_last_unused at *
  cases hb : s.begp with
  | none =>
    rw [hb] at e
    have hb' : (wide s F).begp = none := hb
    rw [hb']
    cases e
    exact ⟨rfl, f⟩
  | some b =>
    rw [hb] at e
    have hb' : (wide s F).begp = some b := hb
    rw [hb']
    exact wide_dropLoop _ f e

theorem wide_get {F : Heap K V} {s s' : Cache K V} {k : K} {now : UInt64} {v : Option V} (f : Foreign F s) (e : Cache.get s k now = .ok (s', v)) :
    Cache.get (wide s F) k now = .ok (wide s' F, v) ∧ Foreign F s' := by
  unfold Cache.get at *
  have hd : (wide s F).data k = s.data k := rfl
  rw [hd]
  cases hk : s.data k with
  | none => rw [hk] at e; cases e; exact ⟨rfl, f⟩
  | some a =>
    rw [hk] at e
    simp only at e ⊢
    cases hn : deref s.heap a with
    | ub => rw [hn] at e; cases e
    | ok n =>
      rw [hn, Res.ok_bind] at e
      have hn' : deref (wide s F).heap a = .ok n := join_deref hn
      rw [hn', Res.ok_bind]
      have ht : (wide s F).time_max = s.time_max := rfl
      rw [ht]
      split at e
      · rename_i hc
        rw [if_pos hc]
        cases h1 : eraseAt s a with
        | ub => rw [h1] at e; cases e
        | ok s1 =>
          rw [h1, Res.ok_bind] at e
          cases e
          obtain ⟨g1, g2⟩ := wide_eraseAt f h1
          rw [g1, Res.ok_bind]
          exact ⟨rfl, g2⟩
      · rename_i hc
        rw [if_neg hc]
        cases e
        exact ⟨rfl, f⟩

theorem wide_erase {F : Heap K V} {s s' : Cache K V} {k : K} {b : Bool} (f : Foreign F s) (e : Cache.erase s k = .ok (s', b)) :
    Cache.erase (wide s F) k = .ok (wide s' F, b) ∧ Foreign F s' := by
  unfold Cache.erase at *
  have hd : (wide s F).data k = s.data k := rfl
  rw [hd]
  cases hk : s.data k with
  | none => rw [hk] at e; cases e; exact ⟨rfl, f⟩
  | some a =>
    rw [hk] at e
    simp only at e ⊢
    cases h1 : eraseAt s a with
    | ub => rw [h1] at e; cases e
    | ok s1 =>
      rw [h1, Res.ok_bind] at e
      cases e
      obtain ⟨g1, g2⟩ := wide_eraseAt f h1
      rw [g1, Res.ok_bind]
      exact ⟨rfl, g2⟩

theorem wide_set {F : Heap K V} {cap : V → UInt64} {s s' : Cache K V} {k : K} {v : V} {u : Bool} {now : UInt64} (f : Foreign F s) (e : Cache.set cap s k v u now = .ok s') :
    Cache.set cap (wide s F) k v u now = .ok (wide s' F) ∧ Foreign F s' := by
  unfold Cache.set at *
  have hd : (wide s F).data k = s.data k := rfl
  have he : (wide s F).endp = s.endp := rfl
  rw [hd]
  cases hk : s.data k with
  | some a =>
    rw [hk] at e
    simp only at e ⊢
    cases hn : deref s.heap a with
    | ub => rw [hn] at e; cases e
    | ok n =>
      rw [hn, Res.ok_bind] at e
      have hn' : deref (wide s F).heap a = .ok n := join_deref hn
      rw [hn', Res.ok_bind]
      cases hx : n.next with
      | none =>
        rw [hx] at e
        simp only at e ⊢
        cases e
        refine ⟨?_, ?_, f.tbl, f.old⟩
        · simp only [wide]
          rw [join_upd]
        · intro x hx
          simp only [upd]
          split
          · rename_i hxa; subst hxa; exact absurd (foreign_deref f hn) hx
          · exact f.dom x hx
      | some b =>
        rw [hx] at e
        simp only at e ⊢
        cases h1 : setPrev s.heap b n.prev with
        | ub => rw [h1] at e; cases e
        | ok g1 =>
          rw [h1, Res.ok_bind] at e
          have h1' : setPrev (wide s F).heap b n.prev = .ok (join g1 F) := join_setPrev h1
          rw [h1', Res.ok_bind]
          cases h2 : fixPrev g1 n.prev (some b) s.begp with
          | ub => rw [h2] at e; cases e
          | ok r2 =>
            rw [h2, Res.ok_bind] at e
            have h2' : fixPrev (join g1 F) n.prev (some b) (wide s F).begp = .ok (join r2.1 F, r2.2) := join_fixPrev h2
            rw [h2', Res.ok_bind]
            simp only at e ⊢
            cases h3 : setNext r2.1 a none with
            | ub => rw [h3] at e; cases e
            | ok g3 =>
              rw [h3, Res.ok_bind] at e
              rw [join_setNext h3, Res.ok_bind]
              cases h4 : setPrev g3 a s.endp with
              | ub => rw [h4] at e; cases e
              | ok g4 =>
                rw [h4, Res.ok_bind] at e
                rw [he, join_setPrev h4, Res.ok_bind]
                cases hend : s.endp with
                | none => rw [hend] at e; cases e
                | some en =>
                  rw [hend] at e
                  simp only at e ⊢
                  cases h5 : setNext g4 en (some a) with
                  | ub => rw [h5] at e; cases e
                  | ok g5 =>
                    rw [h5, Res.ok_bind] at e
                    rw [join_setNext h5, Res.ok_bind]
                    cases h6 : deref g5 a with
                    | ub => rw [h6] at e; cases e
                    | ok n' =>
                      rw [h6, Res.ok_bind] at e
                      rw [join_deref h6, Res.ok_bind]
                      cases e
                      have hdom := (((setPrev_dom h1).trans (fixPrev_dom (e1 := r2.2) (h' := r2.1) h2)).trans (setNext_dom h3)).trans ((setPrev_dom h4).trans (setNext_dom h5))
                      refine ⟨?_, ?_, f.tbl, f.old⟩
                      · simp only [wide]
                        rw [join_upd]
                      · intro x hx
                        simp only [upd]
                        split
                        · rename_i hxa; subst hxa; exact absurd (foreign_deref f hn) hx
                        · exact foreign_dom f hdom x hx
  | none =>
    rw [hk] at e
    have hfr : (wide s F).fresh = s.fresh := rfl
    simp only [he, hfr] at e ⊢
    rw [show upd (wide s F).heap s.fresh (some { key := k, elem := default, prev := none, next := none, size := 0, time := now }) =
      join (upd s.heap s.fresh (some { key := k, elem := default, prev := none, next := none, size := 0, time := now })) F from join_upd _ _ _ _]
    cases h1 : setPrev (upd s.heap s.fresh (some { key := k, elem := default, prev := none, next := none, size := 0, time := now })) s.fresh s.endp with
    | ub => rw [h1] at e; cases e
    | ok g1 =>
      rw [h1, Res.ok_bind] at e
      rw [join_setPrev h1, Res.ok_bind]
      cases h2 : linkEnd g1 s.endp s.fresh with
      | ub => rw [h2] at e; cases e
      | ok g2 =>
        rw [h2, Res.ok_bind] at e
        rw [join_linkEnd h2, Res.ok_bind]
        cases h3 : deref g2 s.fresh with
        | ub => rw [h3] at e; cases e
        | ok n =>
          rw [h3, Res.ok_bind] at e
          rw [join_deref h3, Res.ok_bind, join_upd]
          have hdom := (setPrev_dom h1).trans (linkEnd_dom h2)
          have hF : F s.fresh = none := by
            cases hF : F s.fresh with
            | none => rfl
            | some q => exact absurd (f.old _ (by rw [hF]; simp)) (Nat.lt_irrefl _)
          refine wide_drop ⟨?_, ?_, ?_⟩ e
          · intro x hx
            have hxf : x ≠ s.fresh := by rintro rfl; exact hx hF
            have := hdom x
            simp only [upd, if_neg hxf, f.dom x hx] at this ⊢
            cases hg : g2 x with
            | none => rfl
            | some q => rw [hg] at this; simp at this
          · intro x hx q
            have hxf : x ≠ s.fresh := by rintro rfl; exact hx hF
            simp only
            split
            · simpa using fun h => hxf h.symm
            · exact f.tbl x hx q
          · intro x hx
            exact Nat.lt_succ_of_lt (f.old x hx)

theorem wide_step {F : Heap K V} {cap : V → UInt64} {s s' : Cache K V} {o : Op K V} (f : Foreign F s) (e : step cap s o = .ok s') :
    step cap (wide s F) o = .ok (wide s' F) ∧ Foreign F s' := by
  cases o with
  | get k now =>
    simp only [step] at *
    cases h : Cache.get s k now with
    | ub => rw [h] at e; cases e
    | ok r =>
      rw [h, Res.ok_bind] at e
      cases e
      obtain ⟨g1, g2⟩ := wide_get f h
      rw [g1]
      exact ⟨rfl, g2⟩
  | set k v u now => exact wide_set f e
  | erase k =>
    simp only [step] at *
    cases h : Cache.erase s k with
    | ub => rw [h] at e; cases e
    | ok r =>
      rw [h, Res.ok_bind] at e
      cases e
      obtain ⟨g1, g2⟩ := wide_erase f h
      rw [g1]
      exact ⟨rfl, g2⟩

/-! ### Two caches -/

/-- Two caches, each with its own nodes. -/
structure Apart (t : Two K V) (l1 l2 : List (Nat × Ent K V)) (h1 h2 : Heap K V) : Prop where
  one : Rep (asCache t.one h1 t.fresh) l1
  two : Rep (asCache t.two h2 t.fresh) l2
  all : t.heap = join h1 h2
  dis : ∀ x, h1 x ≠ none → h2 x = none

theorem rep_foreign {s : Cache K V} {l : List (Nat × Ent K V)} (hr : Rep s l) {F : Heap K V} (hd : ∀ x, F x ≠ none → s.heap x = none) (hb : ∀ x, F x ≠ none → x < s.fresh) :
    Foreign F s := by
  refine ⟨hd, ?_, hb⟩
  intro x hx k hk
  obtain ⟨xs, e, ys, rfl, -⟩ := data_some hr hk
  have := Dl_deref (Dl_append.mp hr.dl).2
  unfold deref at this
  rw [hd x hx] at this
  cases this

theorem rep_old {s : Cache K V} {l : List (Nat × Ent K V)} (hr : Rep s l) (x : Nat) (hx : s.heap x ≠ none) : x < s.fresh := by
  by_contra h
  exact hx (rep_big hr x (by omega))

theorem join_comm {h F : Heap K V} (hd : ∀ x, h x ≠ none → F x = none) : join h F = join F h := by
  funext x
  unfold join
  cases hh : h x with
  | none => simp
  | some n => rw [hd x (by rw [hh]; simp)]; simp

theorem rep_fresh {v : View K} {h : Heap K V} {n m : Nat} {l : List (Nat × Ent K V)} (hr : Rep (asCache v h n) l) (hm : n ≤ m) : Rep (asCache v h m) l :=
  ⟨hr.dl, hr.beg, hr.fin, hr.tbl, hr.addr, hr.keys, fun x hx => Nat.lt_of_lt_of_le (hr.bound x hx) hm, hr.size, Nat.le_trans hr.len hm, hr.alive⟩

theorem Apart.swap {t : Two K V} {l1 l2 : List (Nat × Ent K V)} {h1 h2 : Heap K V} (a : Apart t l1 l2 h1 h2) : Apart { t with one := t.two, two := t.one } l2 l1 h2 h1 := by
  refine ⟨a.two, a.one, by rw [a.all]; exact join_comm a.dis, ?_⟩
  intro x hx
  by_contra hn
  exact hx (a.dis x hn)

theorem apart_foreign {t : Two K V} {l1 l2 : List (Nat × Ent K V)} {h1 h2 : Heap K V} (a : Apart t l1 l2 h1 h2) : Foreign h2 (asCache t.one h1 t.fresh) := by
  refine rep_foreign a.one ?_ (rep_old a.two)
  intro x hx
  by_contra hn
  exact hx (a.dis x hn)

theorem apart_step (cap : V → UInt64) {t : Two K V} {l1 l2 : List (Nat × Ent K V)} {h1 h2 : Heap K V} (a : Apart t l1 l2 h1 h2) (o : Op K V)
    (hsz : Spec.total (l1.map toEntry) + evSize (capN cap) (evOf o) < 2 ^ 64) (htm : ∀ e ∈ l1.map toEntry, e.time + t.one.time_max.toNat < 2 ^ 64) :
    ∃ t' l1' h1', step2 cap t (.one o) = .ok t' ∧ Apart t' l1' l2 h1' h2 ∧ t'.two = t.two ∧ t'.one.size_max = t.one.size_max ∧ t'.one.time_max = t.one.time_max ∧
      l1'.map toEntry = Spec.after (capN cap) t.one.size_max.toNat t.one.time_max.toNat (l1.map toEntry) (evOf o) := by
  obtain ⟨s', l', e, r, m, tm, hl⟩ := step_ref cap a.one o hsz htm
  have hw : asCache t.one t.heap t.fresh = wide (asCache t.one h1 t.fresh) h2 := by rw [a.all]; rfl
  obtain ⟨e', f'⟩ := wide_step (apart_foreign a) e
  refine ⟨{ t with heap := join s'.heap h2, fresh := s'.fresh, one := viewOf s' }, l', s'.heap, ?_, ⟨r, rep_fresh a.two (step_fresh e), rfl, ?_⟩, rfl, m, tm, hl⟩
  · simp only [step2, hw, e', Res.ok_bind]
    rfl
  · intro x hx
    by_contra hn
    exact hx (f'.dom x hn)

theorem apart_step_two (cap : V → UInt64) {t : Two K V} {l1 l2 : List (Nat × Ent K V)} {h1 h2 : Heap K V} (a : Apart t l1 l2 h1 h2) (o : Op K V)
    (hsz : Spec.total (l2.map toEntry) + evSize (capN cap) (evOf o) < 2 ^ 64) (htm : ∀ e ∈ l2.map toEntry, e.time + t.two.time_max.toNat < 2 ^ 64) :
    ∃ t' l2' h2', step2 cap t (.two o) = .ok t' ∧ Apart t' l1 l2' h1 h2' ∧ t'.one = t.one ∧ t'.two.size_max = t.two.size_max ∧ t'.two.time_max = t.two.time_max ∧
      l2'.map toEntry = Spec.after (capN cap) t.two.size_max.toNat t.two.time_max.toNat (l2.map toEntry) (evOf o) := by
  obtain ⟨t', l', h', e, a', q1, q2, q3, q4⟩ := apart_step cap a.swap o hsz htm
  refine ⟨{ t' with one := t'.two, two := t'.one }, l', h', ?_, a'.swap, q1, q2, q3, q4⟩
  simp only [step2] at e ⊢
  cases hs : step cap (asCache t.two t.heap t.fresh) o with
  | ub => rw [hs] at e; cases e
  | ok s' =>
    rw [hs, Res.ok_bind] at e
    cases e
    rfl

theorem apart_get {t : Two K V} {l1 l2 : List (Nat × Ent K V)} {h1 h2 : Heap K V} (a : Apart t l1 l2 h1 h2) (k : K) (now : UInt64)
    (htm : ∀ e ∈ l1.map toEntry, e.time + t.one.time_max.toNat < 2 ^ 64) :
    ∃ s', Cache.get (asCache t.one t.heap t.fresh) k now = .ok (s', match Spec.lookup (l1.map toEntry) k with
      | none => none
      | some e => if Spec.Expired t.one.time_max.toNat now.toNat e then none else some e.val) := by
  have hw : asCache t.one t.heap t.fresh = wide (asCache t.one h1 t.fresh) h2 := by rw [a.all]; rfl
  rw [hw]
  have f := apart_foreign a
  rcases get_spec a.one k now with ⟨hd, h⟩ | ⟨xs, b, e, ys, rfl, rfl, hd, h⟩
  · rw [lookup_none (data_none a.one hd)]
    exact ⟨_, (wide_get f h).1⟩
  · rw [lookup_split (keys_split a.one.keys)]
    have hex := expired_iff e b t.one.time_max now (htm (toEntry (b, e)) (by simp))
    rcases h with ⟨hc, h⟩ | ⟨hc, s', h, -⟩
    · refine ⟨wide (asCache t.one h1 t.fresh) h2, ?_⟩
      simp only [if_neg (fun hx => hc (hex.2 hx))]
      exact (wide_get f h).1
    · refine ⟨wide s' h2, ?_⟩
      simp only [if_pos (hex.1 hc)]
      exact (wide_get f h).1

/-- The destruction of one cache frees its nodes and no others. -/
theorem apart_destroy {t : Two K V} {l1 l2 : List (Nat × Ent K V)} {h1 h2 : Heap K V} (a : Apart t l1 l2 h1 h2) : destroy t.heap t.one = h2 := by
  funext x
  rw [a.all]
  unfold destroy join
  cases hh : h1 x with
  | some n =>
    obtain ⟨e, he, hk, -⟩ := rep_heap a.one (x := x) (n := n) hh
    have hd : t.one.data n.key = some x := (a.one.tbl n.key x).2 ⟨e, he, hk.symm⟩
    simp only [Option.some_or, hd, if_true]
    rw [a.dis x (by rw [hh]; simp)]
  | none =>
    simp only [Option.none_or]
    cases h2x : h2 x with
    | none => rfl
    | some n =>
      simp only
      rw [if_neg]
      intro hd
      exact (apart_foreign a).tbl x (by rw [h2x]; simp) n.key hd

/-- The copy of an empty cache. -/
theorem apart_copy {s : Cache K V} (hr : Rep s []) : Apart (copy s) [] [] (fun _ => none) (fun _ => none) := by
  have hh : ∀ x, s.heap x = none := by
    intro x
    cases hx : s.heap x with
    | none => rfl
    | some n => exact absurd (hr.alive x (by rw [hx]; rfl)) (by simp)
  have hd : ∀ k, s.data k = none := by
    intro k
    cases hx : s.data k with
    | none => rfl
    | some a => obtain ⟨e, he, -⟩ := (hr.tbl k a).1 hx; simp at he
  refine ⟨⟨trivial, hr.beg, hr.fin, ?_, by simp, by simp, by simp, hr.size, by simp, by simp [asCache]⟩, ⟨trivial, hr.beg, hr.fin, ?_, by simp, by simp, by simp, hr.size, by simp, by simp [asCache]⟩, ?_, by simp⟩
  · intro k a
    simp [asCache, copy, viewOf, hd]
  · intro k a
    simp [asCache, copy, viewOf, hd]
  · funext x
    simp [copy, copied, hh, join]

end Verif.CacheRef
