import Verif.CacheThrow.Model
import Verif.CacheThrow.Spec
import Verif.Cache.Props

set_option linter.unusedSectionVars false

namespace Verif.CacheThrow

open Cache

variable {K V : Type} [DecidableEq K] [Inhabited V]

/-- The same cache with another accounted size and limit. -/
theorem Rep.limit {s : Cache K V} {l : List (Nat × Ent K V)} (hr : Rep s l) (m : UInt64) : Rep { s with size_max := m } l :=
  ⟨hr.dl, hr.beg, hr.fin, hr.tbl, hr.addr, hr.keys, hr.bound, hr.size, hr.len, hr.alive⟩

theorem dropLoop_max (fuel : Nat) (s : Cache K V) (h : ¬ s.size_cur > s.size_max) : dropLoop fuel s = .ok s := by
  cases fuel <;> simp only [dropLoop] <;> rw [if_neg h]

theorem drop_max (s : Cache K V) (h : ¬ s.size_cur > s.size_max) : drop_last_unused s = .ok s := by
  unfold drop_last_unused
  cases s.begp with
  | none => rfl
  | some b => exact dropLoop_max _ _ h

theorem not_gt_max (x : UInt64) : ¬ x > (-1 : UInt64) := by
  have := x.toNat_lt
  rw [gt_iff_lt, UInt64.lt_iff_toNat_lt]
  have : (-1 : UInt64).toNat = 2 ^ 64 - 1 := by decide
  omega

theorem evictU_max (l : List (Nat × Ent K V)) : evictU (-1) l = l := by
  cases l with
  | nil => rfl
  | cons x l => rw [evictU, if_neg (not_gt_max _)]

theorem setPrev_size {h h' : Heap K V} {a : Nat} {p : Option Nat} (e : setPrev h a p = .ok h') {x : Nat} {n' : Node K V} (hx : h' x = some n') :
    ∃ n, h x = some n ∧ n.size = n'.size := by
  unfold setPrev deref at e
  cases ha : h a with
  | none => rw [ha] at e; simp at e
  | some n =>
    rw [ha, Res.ok_bind] at e
    injection e with e
    subst e
    by_cases hxa : x = a
    · subst hxa
      simp only [upd, if_true, Option.some.injEq] at hx
      exact ⟨n, ha, by rw [← hx]⟩
    · simp only [upd, if_neg hxa] at hx
      exact ⟨n', hx, rfl⟩

theorem setNext_size {h h' : Heap K V} {a : Nat} {p : Option Nat} (e : setNext h a p = .ok h') {x : Nat} {n' : Node K V} (hx : h' x = some n') :
    ∃ n, h x = some n ∧ n.size = n'.size := by
  unfold setNext deref at e
  cases ha : h a with
  | none => rw [ha] at e; simp at e
  | some n =>
    rw [ha, Res.ok_bind] at e
    injection e with e
    subst e
    by_cases hxa : x = a
    · subst hxa
      simp only [upd, if_true, Option.some.injEq] at hx
      exact ⟨n, ha, by rw [← hx]⟩
    · simp only [upd, if_neg hxa] at hx
      exact ⟨n', hx, rfl⟩

theorem deref_some {h : Heap K V} {a : Nat} {n : Node K V} (e : deref h a = .ok n) : h a = some n := by
  unfold deref at e
  cases ha : h a with
  | none => rw [ha] at e; simp at e
  | some m => rw [ha] at e; injection e with e; rw [e]

/-- For a new key: as a `set` of a value of size 0 without a limit. -/
theorem throw_new_eq (s : Cache K V) (k : K) (w : V) (now : UInt64) (hk : s.data k = none) :
    setThrow s k w now = (Cache.set (fun _ => 0) { s with size_max := -1 } k w false now).map (fun s' => { s' with size_max := s.size_max }) := by
  unfold setThrow Cache.set
  simp only [hk]
  cases hp : setPrev (upd s.heap s.fresh (some { key := k, elem := default, prev := none, next := none, size := 0, time := now })) s.fresh s.endp with
  | ub => simp only [Res.ub_bind, Res.map]
  | ok h1 =>
    simp only [Res.ok_bind]
    cases hl : linkEnd h1 s.endp s.fresh with
    | ub => simp only [Res.ub_bind, Res.map]
    | ok h2 =>
      simp only [Res.ok_bind]
      cases hd : deref h2 s.fresh with
      | ub => simp only [Res.ub_bind, Res.map]
      | ok n =>
        have hn : n.size = 0 := by
          have h2n := deref_some hd
          have : ∃ m, h1 s.fresh = some m ∧ m.size = n.size := by
            unfold linkEnd at hl
            cases he : s.endp with
            | none => rw [he] at hl; injection hl with hl; subst hl; exact ⟨n, h2n, rfl⟩
            | some b => rw [he] at hl; exact setNext_size hl h2n
          obtain ⟨m, hm, hms⟩ := this
          obtain ⟨m', hm', hms'⟩ := setPrev_size hp hm
          simp only [upd, if_true, Option.some.injEq] at hm'
          rw [← hms, ← hms', ← hm']
        simp only [Res.ok_bind]
        rw [drop_max _ (not_gt_max _)]
        obtain ⟨key, elem, prev, next, size, time⟩ := n
        simp only at hn
        subst hn
        simp only [Res.map, UInt64.add_zero]
        rfl

theorem throw_new {s : Cache K V} {l : List (Nat × Ent K V)} (hr : Rep s l) (k : K) (w : V) (now : UInt64) (hk : s.data k = none) :
    ∃ s', setThrow s k w now = .ok s' ∧ Rep s' (l ++ [(s.fresh, ⟨k, w, 0, now⟩)]) ∧ s'.size_max = s.size_max ∧ s'.time_max = s.time_max := by
  obtain ⟨s', e, r, m, t⟩ := set_new (fun _ => 0) (Rep.limit hr (-1)) k w false now hk
  rw [throw_new_eq s k w now hk, e]
  refine ⟨_, rfl, ?_, rfl, t⟩
  rw [evictU_max] at r
  exact Rep.limit r _

/-- For a key that is there: as a `set` of a value of the old size, but the accounted size is less. -/
theorem throw_old_eq {s : Cache K V} {k : K} (w : V) (now : UInt64) {a : Nat} {n : Node K V} (hk : s.data k = some a) (hn : s.heap a = some n) :
    setThrow s k w now = (Cache.set (fun _ => n.size) s k w false now).map (fun s' => { s' with size_cur := s'.size_cur - n.size }) := by
  unfold setThrow Cache.set
  simp only [hk]
  have hd : deref s.heap a = .ok n := by unfold deref; rw [hn]
  simp only [hd, Res.ok_bind]
  cases hnx : n.next with
  | none =>
    simp only [Res.map, assign]
    congr 2
    all_goals grind
  | some b =>
    simp only
    cases h1e : setPrev s.heap b n.prev with
    | ub => simp only [Res.ub_bind, Res.map]
    | ok h1 =>
      simp only [Res.ok_bind]
      cases h2e : fixPrev h1 n.prev (some b) s.begp with
      | ub => simp only [Res.ub_bind, Res.map]
      | ok h2 =>
        obtain ⟨h2, bp⟩ := h2
        simp only [Res.ok_bind]
        cases h3e : setNext h2 a none with
        | ub => simp only [Res.ub_bind, Res.map]
        | ok h3 =>
          simp only [Res.ok_bind]
          cases h4e : setPrev h3 a s.endp with
          | ub => simp only [Res.ub_bind, Res.map]
          | ok h4 =>
            simp only [Res.ok_bind]
            cases hen : s.endp with
            | none => simp only [Res.map]
            | some e =>
              simp only
              cases h5e : setNext h4 e (some a) with
              | ub => simp only [Res.ub_bind, Res.map]
              | ok h5 =>
                simp only [Res.ok_bind]
                cases h6e : deref h5 a with
                | ub => simp only [Res.ub_bind, Res.map]
                | ok n' =>
                  have hs : n'.size = n.size := by
                    obtain ⟨m5, q5, r5⟩ := setNext_size h5e (deref_some h6e)
                    obtain ⟨m4, q4, r4⟩ := setPrev_size h4e q5
                    obtain ⟨m3, q3, r3⟩ := setNext_size h3e q4
                    have : ∃ m, h1 a = some m ∧ m.size = m3.size := by
                      unfold fixPrev at h2e
                      cases hp : n.prev with
                      | none => rw [hp] at h2e; simp only [Res.ok.injEq, Prod.mk.injEq] at h2e; rw [h2e.1]; exact ⟨m3, q3, rfl⟩
                      | some c =>
                        rw [hp] at h2e
                        simp only at h2e
                        cases hc : setNext h1 c (some b) with
                        | ub => rw [hc] at h2e; simp at h2e
                        | ok h' =>
                          rw [hc, Res.ok_bind] at h2e
                          simp only [Res.ok.injEq, Prod.mk.injEq] at h2e
                          rw [← h2e.1] at q3
                          exact setNext_size hc q3
                    obtain ⟨m2, q2, r2⟩ := this
                    obtain ⟨m1, q1, r1⟩ := setPrev_size h1e q2
                    rw [hn] at q1; injection q1 with q1; subst q1
                    rw [← r5, ← r4, ← r3, ← r2, ← r1]
                  simp only [Res.ok_bind, Res.map, assign, hs]
                  congr 2
                  all_goals grind

theorem throw_old {s : Cache K V} {xs ys : List (Nat × Ent K V)} {a : Nat} {e : Ent K V} (hr : Rep s (xs ++ (a, e) :: ys)) (w : V) (now : UInt64) :
    ∃ s', setThrow s e.key w now = .ok s' ∧ Rep { s' with size_cur := s'.size_cur + e.size } ((xs ++ ys) ++ [(a, ⟨e.key, w, e.size, e.time⟩)]) ∧
      s'.size_max = s.size_max ∧ s'.time_max = s.time_max := by
  have hk : s.data e.key = some a := (hr.tbl e.key a).mpr ⟨e, by simp, rfl⟩
  obtain ⟨s', he, r, m, t⟩ := set_existing (fun _ => e.size) hr w false now
  have hn := deref_some (Dl_deref (Dl_append.mp hr.dl).2)
  rw [throw_old_eq w now hk hn, he]
  refine ⟨_, rfl, ?_, m, t⟩
  have hz : s'.size_cur - e.size + e.size = s'.size_cur := by grind
  simp only [hz]
  exact r

/-- To the specification. -/
def evT : OpT K V → Spec.EventT K V
  | .op o => .ev (evOf o)
  | .noInsert k => .noInsert k
  | .noAssign k w now => .noAssign k w now.toNat

theorem runT_ref (cap : V → UInt64) : ∀ (h : List (OpT K V)) (s : Cache K V) (l : List (Nat × Ent K V)), Rep s l →
    Spec.NewKeys (fun v => (cap v).toNat) s.size_max.toNat s.time_max.toNat (l.map toEntry) (h.map evT) →
    Cache.Spec.total (l.map toEntry) + Cache.Spec.setSizes (fun v => (cap v).toNat) (Spec.events (h.map evT)) < 2 ^ 64 →
    (∀ e ∈ l.map toEntry, e.time + s.time_max.toNat < 2 ^ 64) →
    (∀ t ∈ Spec.times (h.map evT), t + s.time_max.toNat < 2 ^ 64) →
    ∃ s' l', runT cap s h = .ok s' ∧ Rep s' l' ∧ s'.size_max = s.size_max ∧ s'.time_max = s.time_max ∧
      l'.map toEntry = (h.map evT).foldl (Spec.actual (fun v => (cap v).toNat) s.size_max.toNat s.time_max.toNat) (l.map toEntry) := by
  intro h
  induction h with
  | nil => intro s l hr _ _ _ _; exact ⟨s, l, rfl, hr, rfl, rfl, rfl⟩
  | cons o h ih =>
    intro s l hr hn hsz htm hts
    rw [List.map_cons] at hn hsz hts
    obtain ⟨hn1, hn2⟩ := hn
    have main : ∃ s1 l1, stepT cap s o = .ok s1 ∧ Rep s1 l1 ∧ s1.size_max = s.size_max ∧ s1.time_max = s.time_max ∧
        l1.map toEntry = Spec.actual (fun v => (cap v).toNat) s.size_max.toNat s.time_max.toNat (l.map toEntry) (evT o) ∧
        Cache.Spec.total (l1.map toEntry) + Cache.Spec.setSizes (fun v => (cap v).toNat) (Spec.events (h.map evT)) < 2 ^ 64 ∧
        (∀ e ∈ l1.map toEntry, e.time + s.time_max.toNat < 2 ^ 64) ∧
        (∀ t ∈ Spec.times (h.map evT), t + s.time_max.toNat < 2 ^ 64) := by
      cases o with
      | op o =>
        have hz : Cache.Spec.setSizes (fun v => (cap v).toNat) (Spec.events (evT (.op o) :: h.map evT)) =
            evSize (capN cap) (evOf o) + Cache.Spec.setSizes (fun v => (cap v).toNat) (Spec.events (h.map evT)) := by
          show Cache.Spec.setSizes _ ([evOf o] ++ Spec.events (h.map evT)) = _
          rw [setSizes_append, setSizes_one]
          rfl
        rw [hz] at hsz
        obtain ⟨s1, l1, e1, r1, m1, t1, hl1⟩ := step_ref cap hr o (by omega) htm
        refine ⟨s1, l1, e1, r1, m1, t1, hl1, ?_, ?_, ?_⟩
        · have := after_total (capN cap) s.size_max.toNat s.time_max.toNat (l.map toEntry) (evOf o)
          rw [← hl1] at this
          omega
        · rw [hl1]
          intro e he
          have := after_times (capN cap) s.size_max.toNat s.time_max.toNat (l.map toEntry) (evOf o) (2 ^ 64 - s.time_max.toNat)
            (fun e he => by have := htm e he; omega)
            (by
              cases o with
              | set k v u now =>
                have := hts now.toNat (by simp [Spec.times, evT, evOf])
                simp only [evOf]; omega
              | get k now => trivial
              | erase k => trivial) e he
          omega
        · intro t ht
          exact hts t (by
            simp only [Spec.times, List.flatMap_cons, List.mem_append]
            exact Or.inr ht)
      | noInsert k =>
        exact ⟨s, l, rfl, hr, rfl, rfl, rfl, hsz, htm, hts⟩
      | noAssign k w now =>
        have hk : s.data k = none := by
          cases hd : s.data k with
          | none => rfl
          | some a =>
            obtain ⟨xs, e, ys, rfl, rfl⟩ := data_some hr hd
            have : Cache.Spec.lookup _ e.key = none := hn1
            rw [lookup_split (keys_split hr.keys)] at this
            simp at this
        obtain ⟨s1, e1, r1, m1, t1⟩ := throw_new hr k w now hk
        refine ⟨s1, _, e1, r1, m1, t1, ?_, ?_, ?_, ?_⟩
        · rw [List.map_append]; rfl
        · rw [List.map_append, total_append]
          exact hsz
        · intro e he
          rw [List.map_append, List.mem_append] at he
          rcases he with he | he
          · exact htm e he
          · simp only [List.map_cons, List.map_nil, List.mem_singleton] at he
            subst he
            exact hts _ (by simp [Spec.times, evT, toEntry])
        · intro t ht
          exact hts t (by
            simp only [Spec.times, List.flatMap_cons, List.mem_append]
            exact Or.inr ht)
    obtain ⟨s1, l1, e1, r1, m1, t1, hl1, hz1, ht1, hts1⟩ := main
    obtain ⟨s2, l2, e2, r2, m2, t2, hl2⟩ := ih s1 l1 r1 (by rw [hl1, m1, t1]; exact hn2) hz1 (by rw [t1]; exact ht1) (by rw [t1]; exact hts1)
    refine ⟨s2, l2, ?_, r2, m2.trans m1, t2.trans t1, ?_⟩
    · show Res.bind _ _ = _
      rw [e1]; exact e2
    · rw [hl2, List.map_cons, List.foldl_cons, hl1, m1, t1]

/-! ### a cache with one entry, an empty cache with a wrong size -/

theorem throw_one {s : Cache K V} {k : K} {a : Nat} {x : V} {sz tm : UInt64} (hd : s.data k = some a) (hh : s.heap a = some ⟨k, x, none, none, sz, tm⟩) (w : V) (now : UInt64) :
    setThrow s k w now = .ok { s with size_cur := s.size_cur - sz, heap := upd s.heap a (some ⟨k, w, none, none, sz, tm⟩) } := by
  unfold setThrow deref
  rw [hd]
  simp only [hh, Res.ok_bind]

theorem erase_one {s : Cache K V} {k : K} {a : Nat} {x : V} {sz tm : UInt64} (hd : s.data k = some a) (hh : s.heap a = some ⟨k, x, none, none, sz, tm⟩) :
    erase s k = .ok ({ s with data := fun y => if y = k then none else s.data y, heap := upd s.heap a none, begp := none, endp := none, size_cur := s.size_cur - sz }, true) := by
  unfold erase eraseAt deref
  rw [hd]
  simp only [hh, Res.ok_bind, fixNext, fixPrev, tblErase]

theorem dropLoop_one {s : Cache K V} {a : Nat} {n : Node K V} (hb : s.begp = some a) (hh : s.heap a = some n) (hn : n.next = none) (hd : s.data n.key = some a)
    (h1 : s.size_cur > s.size_max) (h2 : s.size_cur - n.size > s.size_max) (f : Nat) : dropLoop (f + 2) s = .ub := by
  have hr : deref s.heap a = .ok n := by unfold deref; rw [hh]
  rw [dropLoop, if_pos h1, hb]
  simp only [hr, Res.ok_bind, hn, fixNext, hd, tblErase]
  rw [dropLoop, if_pos h2]

theorem set_empty {s : Cache K V} {k : K} (cap : V → UInt64) (v : V) (u : Bool) (now : UInt64) (hd : s.data k = none) (hb : s.begp = none) (he : s.endp = none)
    (h1 : s.size_cur + cap v > s.size_max) (h2 : s.size_cur > s.size_max) (hf : 0 < s.fresh) : Cache.set cap s k v u now = .ub := by
  obtain ⟨f, hf⟩ : ∃ f, s.fresh = f + 1 := ⟨s.fresh - 1, by omega⟩
  have hc : s.size_cur + cap v - cap v = s.size_cur := by grind
  unfold Cache.set
  simp only [hd, he, hb, setPrev, deref, upd, if_true, Res.ok_bind, linkEnd, drop_last_unused]
  rw [show s.fresh + 1 = f + 2 by omega]
  exact dropLoop_one (a := s.fresh) (n := ⟨k, v, none, none, cap v, now⟩) rfl (by simp [upd]) rfl (by simp) h1 (by simpa only [hc] using h2) f

end Verif.CacheThrow
