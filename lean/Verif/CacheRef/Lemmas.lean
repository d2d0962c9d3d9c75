/-
  Where the nodes of a cache are, and how they move.
-/
import Verif.Cache.Lemmas
import Verif.CacheRef.Model

set_option linter.unusedSectionVars false

namespace Verif.CacheRef
open Cache

variable {K V : Type} [DecidableEq K] [Inhabited V]

/-! ### Addresses are not used again -/

theorem eraseAt_fresh {s s' : Cache K V} {a : Nat} (h : eraseAt s a = .ok s') : s'.fresh = s.fresh := by
  unfold eraseAt at h
  cases h1 : deref s.heap a with
  | ub => rw [h1] at h; cases h
  | ok n =>
    rw [h1] at h
    simp only [Res.ok_bind] at h
    cases h2 : fixNext s.heap n.next n.prev s.endp with
    | ub => rw [h2] at h; cases h
    | ok p =>
      rw [h2] at h
      simp only [Res.ok_bind] at h
      cases h3 : fixPrev p.1 n.prev n.next s.begp with
      | ub => rw [h3] at h; cases h
      | ok q =>
        rw [h3] at h
        simp only [Res.ok_bind] at h
        cases h
        rfl

theorem dropLoop_fresh : ∀ (fuel : Nat) {s s' : Cache K V}, dropLoop fuel s = .ok s' → s'.fresh = s.fresh := by
  intro fuel
  induction fuel with
  | zero =>
    intro s s' h
    unfold dropLoop at h
    split at h
    · cases h
    · cases h; rfl
  | succ fuel ih =>
    intro s s' h
    unfold dropLoop at h
    split at h
    · cases hb : s.begp with
      | none => rw [hb] at h; cases h
      | some old =>
        rw [hb] at h
        simp only at h
        cases h1 : deref s.heap old with
        | ub => rw [h1] at h; cases h
        | ok n =>
          rw [h1] at h
          simp only [Res.ok_bind] at h
          cases h2 : fixNext s.heap n.next none s.endp with
          | ub => rw [h2] at h; cases h
          | ok p =>
            rw [h2] at h
            simp only [Res.ok_bind] at h
            cases h3 : deref p.1 old with
            | ub => rw [h3] at h; cases h
            | ok m =>
              rw [h3] at h
              simp only [Res.ok_bind] at h
              have := ih h
              rw [this]
              split <;> rfl
    · cases h; rfl

theorem drop_fresh {s s' : Cache K V} (h : drop_last_unused s = .ok s') : s'.fresh = s.fresh := by
  unfold drop_last_unused at h
  split at h
  · cases h; rfl
  · exact dropLoop_fresh _ h

theorem set_fresh {cap : V → UInt64} {s s' : Cache K V} {k : K} {v : V} {u : Bool} {now : UInt64} (h : Cache.set cap s k v u now = .ok s') : s.fresh ≤ s'.fresh := by
  unfold Cache.set at h
  cases hd : s.data k with
  | some a =>
    rw [hd] at h
    simp only at h
    cases h1 : deref s.heap a with
    | ub => rw [h1] at h; cases h
    | ok n =>
      rw [h1] at h
      simp only [Res.ok_bind] at h
      cases hn : n.next with
      | none => rw [hn] at h; cases h; exact Nat.le_refl _
      | some b =>
        rw [hn] at h
        simp only at h
        cases h2 : setPrev s.heap b n.prev with
        | ub => rw [h2] at h; cases h
        | ok p =>
          rw [h2] at h
          simp only [Res.ok_bind] at h
          cases h3 : fixPrev p n.prev (some b) s.begp with
          | ub => rw [h3] at h; cases h
          | ok q =>
            rw [h3] at h
            simp only [Res.ok_bind] at h
            cases h4 : setNext q.1 a none with
            | ub => rw [h4] at h; cases h
            | ok r =>
              rw [h4] at h
              simp only [Res.ok_bind] at h
              cases h5 : setPrev r a s.endp with
              | ub => rw [h5] at h; cases h
              | ok r2 =>
                rw [h5] at h
                simp only [Res.ok_bind] at h
                cases he : s.endp with
                | none => rw [he] at h; cases h
                | some e =>
                  rw [he] at h
                  simp only at h
                  cases h6 : setNext r2 e (some a) with
                  | ub => rw [h6] at h; cases h
                  | ok r3 =>
                    rw [h6] at h
                    simp only [Res.ok_bind] at h
                    cases h7 : deref r3 a with
                    | ub => rw [h7] at h; cases h
                    | ok m =>
                      rw [h7] at h
                      simp only [Res.ok_bind] at h
                      cases h
                      exact Nat.le_refl _
  | none =>
    rw [hd] at h
    simp only at h
    cases h1 : setPrev (upd s.heap s.fresh (some { key := k, elem := default, prev := none, next := none, size := 0, time := now })) s.fresh s.endp with
    | ub => rw [h1] at h; cases h
    | ok p =>
      rw [h1] at h
      simp only [Res.ok_bind] at h
      cases h2 : linkEnd p s.endp s.fresh with
      | ub => rw [h2] at h; cases h
      | ok q =>
        rw [h2] at h
        simp only [Res.ok_bind] at h
        cases h3 : deref q s.fresh with
        | ub => rw [h3] at h; cases h
        | ok n =>
          rw [h3] at h
          simp only [Res.ok_bind] at h
          rw [drop_fresh h]
          exact Nat.le_succ _

theorem step_fresh {cap : V → UInt64} {s s' : Cache K V} {op : Op K V} (h : step cap s op = .ok s') : s.fresh ≤ s'.fresh := by
  cases op with
  | get k now =>
    simp only [step, Cache.get] at h
    cases hd : s.data k with
    | none => rw [hd] at h; cases h; exact Nat.le_refl _
    | some a =>
      rw [hd] at h
      simp only at h
      cases h1 : deref s.heap a with
      | ub => rw [h1] at h; cases h
      | ok n =>
        rw [h1] at h
        simp only [Res.ok_bind] at h
        split at h
        · cases h2 : eraseAt s a with
          | ub => rw [h2] at h; cases h
          | ok t =>
            rw [h2] at h
            cases h
            exact Nat.le_of_eq (eraseAt_fresh h2).symm
        · cases h; exact Nat.le_refl _
  | set k v u now => exact set_fresh h
  | erase k =>
    simp only [step, erase] at h
    cases hd : s.data k with
    | none => rw [hd] at h; cases h; exact Nat.le_refl _
    | some a =>
      rw [hd] at h
      simp only at h
      cases h2 : eraseAt s a with
      | ub => rw [h2] at h; cases h
      | ok t =>
        rw [h2] at h
        cases h
        exact Nat.le_of_eq (eraseAt_fresh h2).symm

/-! ### Entries keep their nodes -/

/-- The entries of `l'` that are in nodes older than `fresh` were in `l`, in the same node; the others have keys that were not in `l`. -/
def Stay (fresh : Nat) (l l' : List (Nat × Ent K V)) : Prop :=
  (∀ x ∈ l', x.1 < fresh → ∃ e0, (x.1, e0) ∈ l ∧ e0.key = x.2.key) ∧ (∀ x ∈ l', fresh ≤ x.1 → ∀ y ∈ l, y.2.key ≠ x.2.key)

theorem Stay.sub {s : Cache K V} {l l' : List (Nat × Ent K V)} (hr : Rep s l) (h : ∀ x ∈ l', x ∈ l) : Stay s.fresh l l' :=
  ⟨fun x hx _ => ⟨x.2, h x hx, rfl⟩, fun x hx hf => absurd (hr.bound x (h x hx)) (by omega)⟩

theorem evictU_mem (max : UInt64) (l : List (Nat × Ent K V)) : ∀ x ∈ evictU max l, x ∈ l := by
  induction l with
  | nil => intro x hx; exact hx
  | cons y l ih =>
    intro x hx
    unfold evictU at hx
    split at hx
    · exact List.mem_cons_of_mem _ (ih x hx)
    · exact hx

theorem step_track (cap : V → UInt64) {s : Cache K V} {l : List (Nat × Ent K V)} (hr : Rep s l) (op : Op K V)
    (hsz : Spec.total (l.map toEntry) + evSize (capN cap) (evOf op) < 2 ^ 64)
    (htm : ∀ e ∈ l.map toEntry, e.time + s.time_max.toNat < 2 ^ 64) :
    ∃ s' l', step cap s op = .ok s' ∧ Rep s' l' ∧ s'.size_max = s.size_max ∧ s'.time_max = s.time_max ∧
      l'.map toEntry = Spec.after (capN cap) s.size_max.toNat s.time_max.toNat (l.map toEntry) (evOf op) ∧ Stay s.fresh l l' := by
  cases op with
  | get k now =>
    simp only [step, evOf, Spec.after]
    rcases get_spec hr k now with ⟨hd, h⟩ | ⟨xs, a, e, ys, rfl, rfl, hd, h⟩
    · exact ⟨s, l, by rw [h]; rfl, hr, rfl, rfl, by rw [lookup_none (data_none hr hd)], .sub hr (fun _ h => h)⟩
    · have hks := keys_split hr.keys
      rw [lookup_split hks]
      have hex := expired_iff e a s.time_max now (htm (toEntry (a, e)) (by simp))
      rcases h with ⟨hc, h⟩ | ⟨hc, s', h, r, m, t⟩
      · refine ⟨s, _, by rw [h]; rfl, hr, rfl, rfl, ?_, .sub hr (fun _ h => h)⟩
        dsimp only
        rw [if_neg (by rw [← hex]; exact hc)]
      · refine ⟨s', _, by rw [h]; rfl, r, m, t, ?_, .sub hr (fun x hx => by simp only [List.mem_append, List.mem_cons] at hx ⊢; tauto)⟩
        dsimp only
        rw [if_pos (hex.mp hc), remove_split hks]
  | set k v u now =>
    simp only [step, evOf, Spec.after]
    cases hd : s.data k with
    | none =>
      obtain ⟨s', e, r, m, t⟩ := set_new cap hr k v u now hd
      refine ⟨s', _, e, r, m, t, ?_, ?_⟩
      · rw [lookup_none (data_none hr hd)]
        dsimp only
        rw [evictU_spec]
        · rw [List.map_append]; rfl
        · rw [List.map_append, total_append]
          simp only [evSize, evOf, capN] at hsz
          simpa [Spec.total, toEntry] using hsz
      · refine ⟨fun x hx hf => ?_, fun x hx hf => ?_⟩
        · rcases List.mem_append.1 (evictU_mem _ _ x hx) with h | h
          · exact ⟨x.2, h, rfl⟩
          · rw [List.mem_singleton] at h
            subst h
            exact absurd hf (Nat.lt_irrefl _)
        · rcases List.mem_append.1 (evictU_mem _ _ x hx) with h | h
          · exact absurd (hr.bound x h) (by omega)
          · rw [List.mem_singleton] at h
            subst h
            exact data_none hr hd
    | some a =>
      obtain ⟨xs, e, ys, rfl, rfl⟩ := data_some hr hd
      have hks := keys_split hr.keys
      obtain ⟨s', e1, r, m, t⟩ := set_existing cap hr v u now
      refine ⟨s', _, e1, r, m, t, ?_, ?_⟩
      · rw [lookup_split hks]
        dsimp only
        rw [remove_split hks, List.map_append]
        congr 1
        simp only [List.map_cons, List.map_nil, toEntry, capN]
        cases u <;> rfl
      · refine ⟨fun x hx _ => ?_, fun x hx hf => ?_⟩
        · rcases List.mem_append.1 hx with h | h
          · exact ⟨x.2, by simp only [List.mem_append, List.mem_cons] at h ⊢; tauto, rfl⟩
          · rw [List.mem_singleton] at h
            subst h
            exact ⟨e, by simp, rfl⟩
        · rcases List.mem_append.1 hx with h | h
          · exact absurd (hr.bound x (by simp only [List.mem_append, List.mem_cons] at h ⊢; tauto)) (by omega)
          · rw [List.mem_singleton] at h
            subst h
            exact absurd (hr.bound (a, e) (by simp)) (by simp only at hf ⊢; omega)
  | erase k =>
    simp only [step, evOf, Spec.after]
    rcases erase_spec hr k with ⟨hd, h⟩ | ⟨xs, a, e, ys, rfl, rfl, hd, s', h, r, m, t⟩
    · exact ⟨s, l, by rw [h]; rfl, hr, rfl, rfl, (remove_none (data_none hr hd)).symm, .sub hr (fun _ h => h)⟩
    · exact ⟨s', _, by rw [h]; rfl, r, m, t, (remove_split (keys_split hr.keys)).symm,
        .sub hr (fun x hx => by simp only [List.mem_append, List.mem_cons] at hx ⊢; tauto)⟩

/-- The entry of `k` is in the node `a`. -/
def Live (l : List (Nat × Ent K V)) (a : Nat) (k : K) : Prop := ∃ e, (a, e) ∈ l ∧ e.key = k

/-- The node `a` has been freed. -/
def Gone (s : Cache K V) (l : List (Nat × Ent K V)) (a : Nat) : Prop := a < s.fresh ∧ ∀ x ∈ l, x.1 ≠ a

theorem inj_of_nodup {α β : Type} (f : α → β) : ∀ {l : List α}, (l.map f).Nodup → ∀ {x y : α}, x ∈ l → y ∈ l → f x = f y → x = y := by
  intro l
  induction l with
  | nil => intro _ x y hx; cases hx
  | cons z l ih =>
    intro hn x y hx hy he
    rw [List.map_cons, List.nodup_cons] at hn
    rcases List.mem_cons.1 hx with rfl | hx' <;> rcases List.mem_cons.1 hy with rfl | hy'
    · rfl
    · exact absurd (List.mem_map.2 ⟨y, hy', he.symm⟩) hn.1
    · exact absurd (List.mem_map.2 ⟨x, hx', he⟩) hn.1
    · exact ih hn.2 hx' hy' he

theorem mem_key {l : List (Nat × Ent K V)} (hk : (l.map (·.2.key)).Nodup) {x y : Nat × Ent K V} (hx : x ∈ l) (hy : y ∈ l) (h : x.2.key = y.2.key) : x = y :=
  inj_of_nodup (fun x : Nat × Ent K V => x.2.key) hk hx hy h

theorem mem_addr {l : List (Nat × Ent K V)} (hk : (l.map (·.1)).Nodup) {x y : Nat × Ent K V} (hx : x ∈ l) (hy : y ∈ l) (h : x.1 = y.1) : x = y :=
  inj_of_nodup (fun x : Nat × Ent K V => x.1) hk hx hy h

theorem lookup_iff {l : List (Nat × Ent K V)} {k : K} : Spec.lookup (l.map toEntry) k ≠ none ↔ ∃ x ∈ l, x.2.key = k := by
  unfold Spec.lookup
  simp [List.find?_eq_none, toEntry]
  exact ⟨fun ⟨a, b, h, hk⟩ => ⟨a, b, h, of_decide_eq_true hk⟩, fun ⟨a, b, h, hk⟩ => ⟨a, b, h, decide_eq_true hk⟩⟩

theorem live_step {s s' : Cache K V} {l l' : List (Nat × Ent K V)} {a : Nat} {k : K} (hr : Rep s l) (st : Stay s.fresh l l') (hf : s.fresh ≤ s'.fresh)
    (hl : Live l a k) : (Spec.lookup (l'.map toEntry) k ≠ none → Live l' a k) ∧ (Spec.lookup (l'.map toEntry) k = none → Gone s' l' a) := by
  obtain ⟨e, he, hk⟩ := hl
  refine ⟨fun h => ?_, fun h => ⟨Nat.lt_of_lt_of_le (hr.bound _ he) hf, fun x hx hxa => ?_⟩⟩
  · obtain ⟨x, hx, hxk⟩ := lookup_iff.1 h
    by_cases hxf : x.1 < s.fresh
    · obtain ⟨e0, h0, h1⟩ := st.1 x hx hxf
      have := mem_key hr.keys h0 he (by rw [h1, hxk, hk])
      have : x.1 = a := congrArg Prod.fst this
      exact ⟨x.2, by rw [← this]; exact hx, hxk⟩
    · exact absurd (hk.trans hxk.symm) (st.2 x hx (by omega) _ he)
  · have hb := hr.bound _ he
    obtain ⟨e0, h0, h1⟩ := st.1 x hx (by rw [hxa]; exact hb)
    rw [hxa] at h0
    have := mem_addr hr.addr h0 he rfl
    have h2 : e0 = e := congrArg Prod.snd this
    have : ∃ x ∈ l', x.2.key = k := ⟨x, hx, by rw [← h1, h2, hk]⟩
    exact lookup_iff.2 this h

theorem gone_step {s s' : Cache K V} {l l' : List (Nat × Ent K V)} {a : Nat} (st : Stay s.fresh l l') (hf : s.fresh ≤ s'.fresh) (hg : Gone s l a) : Gone s' l' a := by
  refine ⟨Nat.lt_of_lt_of_le hg.1 hf, fun x hx hxa => ?_⟩
  obtain ⟨e0, h0, -⟩ := st.1 x hx (by rw [hxa]; exact hg.1)
  exact hg.2 _ h0 hxa

theorem run_track (cap : V → UInt64) (max tmax : UInt64) (a : Nat) (k : K) (h2 : List (Op K V)) : ∀ (hist : List (Op K V)) (s : Cache K V) (l : List (Nat × Ent K V)),
    Rep s l → s.size_max = max → s.time_max = tmax → l.map toEntry = Spec.contents (capN cap) max.toNat tmax.toNat (hist.map evOf) →
    Spec.Fits (capN cap) tmax.toNat ((hist ++ h2).map evOf) →
    ∃ s2 l2, run cap s h2 = .ok s2 ∧ Rep s2 l2 ∧ l2.map toEntry = Spec.contents (capN cap) max.toNat tmax.toNat ((hist ++ h2).map evOf) ∧
      (Gone s l a → Gone s2 l2 a) ∧
      (Live l a k → (∀ i, Spec.lookup (Spec.contents (capN cap) max.toNat tmax.toNat ((hist ++ h2.take i).map evOf)) k ≠ none) → Live l2 a k) ∧
      (Live l a k → (∃ i, Spec.lookup (Spec.contents (capN cap) max.toNat tmax.toNat ((hist ++ h2.take i).map evOf)) k = none) → Gone s2 l2 a) := by
  induction h2 with
  | nil =>
    intro hist s l hr hm ht hl hf
    refine ⟨s, l, rfl, hr, by rw [List.append_nil]; exact hl, id, fun h _ => h, fun ⟨e, he, hk⟩ ⟨i, hi⟩ => ?_⟩
    rw [List.take_nil, List.append_nil, ← hl] at hi
    exact absurd hi (lookup_iff.2 ⟨_, he, hk⟩)
  | cons op h2 ih =>
    intro hist s l hr hm ht hl hf
    have e : hist ++ op :: h2 = (hist ++ [op]) ++ h2 := by simp
    have hf1 : Spec.Fits (capN cap) tmax.toNat (hist.map evOf ++ [evOf op]) := by
      rw [e, List.map_append] at hf
      have := Fits_prefix hf
      rwa [List.map_append] at this
    have hsz := hf1.1
    rw [setSizes_append, setSizes_one] at hsz
    have htot := contents_total (capN cap) max.toNat tmax.toNat (hist.map evOf)
    obtain ⟨s1, l1, t1, r1, m1, tm1, hl1, st⟩ := step_track cap hr op (by rw [hl]; omega) (by rw [hl, ht]; exact Fits_times (Fits_prefix hf1))
    have hc1 : l1.map toEntry = Spec.contents (capN cap) max.toNat tmax.toNat ((hist ++ [op]).map evOf) := by
      rw [List.map_append, List.map_cons, List.map_nil, contents_snoc, hl1, hl, hm, ht]
    have hfr := step_fresh t1
    obtain ⟨s2, l2, t2, r2, hl2, g2, k2, d2⟩ := ih (hist ++ [op]) s1 l1 r1 (m1.trans hm) (tm1.trans ht) hc1 (by rw [← e]; exact hf)
    refine ⟨s2, l2, by rw [run, t1]; exact t2, r2, by rw [e]; exact hl2, fun g => g2 (gone_step st hfr g), fun hL hall => ?_, fun hL hex => ?_⟩
    · have h1 := hall 1
      rw [List.take_succ_cons, List.take_zero, ← hc1] at h1
      refine k2 ((live_step hr st hfr hL).1 h1) (fun i => ?_)
      have := hall (i + 1)
      rwa [List.take_succ_cons, show hist ++ op :: h2.take i = (hist ++ [op]) ++ h2.take i by simp] at this
    · by_cases h1 : Spec.lookup (l1.map toEntry) k = none
      · exact g2 ((live_step hr st hfr hL).2 h1)
      · refine d2 ((live_step hr st hfr hL).1 h1) ?_
        obtain ⟨i, hi⟩ := hex
        cases i with
        | zero =>
          rw [List.take_zero, List.append_nil, ← hl] at hi
          obtain ⟨e, he, hk⟩ := hL
          exact absurd hi (lookup_iff.2 ⟨_, he, hk⟩)
        | succ i =>
          rw [List.take_succ_cons, show hist ++ op :: h2.take i = (hist ++ [op]) ++ h2.take i by simp] at hi
          exact ⟨i, hi⟩

theorem live_read {s : Cache K V} {l : List (Nat × Ent K V)} {a : Nat} {k : K} (hr : Rep s l) (h : Live l a k) :
    ∃ e, Spec.lookup (l.map toEntry) k = some e ∧ readPtr s a = .ok e.val := by
  obtain ⟨e, he, rfl⟩ := h
  obtain ⟨xs, ys, rfl⟩ := List.append_of_mem he
  refine ⟨toEntry (a, e), lookup_split (keys_split hr.keys), ?_⟩
  unfold readPtr
  rw [Dl_deref (Dl_append.mp hr.dl).2]
  rfl

theorem gone_read {s : Cache K V} {l : List (Nat × Ent K V)} {a : Nat} (hr : Rep s l) (h : Gone s l a) : readPtr s a = .ub := by
  unfold readPtr deref
  cases hh : s.heap a with
  | none => rfl
  | some n =>
    have := hr.alive a (by rw [hh]; rfl)
    obtain ⟨x, hx, hxa⟩ := List.mem_map.1 this
    exact absurd hxa (h.2 x hx)

/-! ### dbg -/

/-- The lines for the nodes `l`, whose neighbours are `p` and `q`. -/
def rowsOf : Option Nat → List (Nat × Ent K V) → Option Nat → List (Row K)
  | _, [], _ => []
  | p, (a, e) :: l, q => ⟨e.key, e.size, p, headA l q, e.time⟩ :: rowsOf (some a) l q

theorem walk_rows {h : Heap K V} : ∀ {l : List (Nat × Ent K V)} {p : Option Nat} (fuel : Nat), Dl h p l none → l.length ≤ fuel →
    walk h fuel (headA l none) = .ok (rowsOf p l none) := by
  intro l
  induction l with
  | nil => intro p fuel _ _; cases fuel <;> rfl
  | cons x l ih =>
    intro p fuel hd hf
    obtain ⟨a, e⟩ := x
    cases fuel with
    | zero => simp at hf
    | succ fuel =>
      have hh : headA ((a, e) :: l) none = some a := rfl
      rw [hh, walk, Dl_deref hd, Res.ok_bind]
      have := ih (p := some a) fuel (by exact hd.2) (by simpa using hf)
      simp only [this, Res.ok_bind, rowsOf]

theorem rowsOf_map : ∀ (l : List (Nat × Ent K V)) (p q : Option Nat),
    (rowsOf p l q).map (fun r => (r.key, r.size.toNat, r.time.toNat)) = (l.map toEntry).map (fun e => (e.key, e.size, e.time)) := by
  intro l
  induction l with
  | nil => intro p q; rfl
  | cons x l ih =>
    intro p q
    simp only [rowsOf, List.map_cons, ih]
    rfl

theorem rowsOf_length : ∀ (l : List (Nat × Ent K V)) (p q : Option Nat), (rowsOf p l q).length = l.length := by
  intro l
  induction l with
  | nil => intro p q; rfl
  | cons x l ih => intro p q; simp only [rowsOf, List.length_cons, ih]

theorem rowsOf_get : ∀ (l : List (Nat × Ent K V)) (p : Option Nat) (i : Nat) (r : Row K), (rowsOf p l none)[i]? = some r →
    r.next = (l.map (·.1))[i + 1]? ∧ r.prev = (if i = 0 then p else (l.map (·.1))[i - 1]?) ∧ ∃ y, l[i]? = some y ∧ r.key = y.2.key := by
  intro l
  induction l with
  | nil => intro p i r h; simp [rowsOf] at h
  | cons x l ih =>
    intro p i r h
    cases i with
    | zero =>
      simp only [rowsOf, List.getElem?_cons_zero, Option.some.injEq] at h
      subst h
      refine ⟨?_, by simp, x, rfl, rfl⟩
      cases l <;> simp [headA]
    | succ i =>
      simp only [rowsOf, List.getElem?_cons_succ] at h
      obtain ⟨h1, h2, y, hy, hk⟩ := ih _ _ _ h
      refine ⟨by rw [h1]; simp, ?_, y, by rw [List.getElem?_cons_succ]; exact hy, hk⟩
      rw [h2]
      cases i <;> simp

theorem count_length {s : Cache K V} {l : List (Nat × Ent K V)} (hr : Rep s l) : count s = l.length := by
  have : ((List.range s.fresh).filter fun a => (s.heap a).isSome).Perm (l.map (·.1)) := by
    rw [List.perm_ext_iff_of_nodup (List.nodup_range.sublist List.filter_sublist) hr.addr]
    intro a
    rw [List.mem_filter, List.mem_range]
    constructor
    · exact fun h => hr.alive a h.2
    · intro h
      obtain ⟨x, hx, rfl⟩ := List.mem_map.1 h
      refine ⟨hr.bound x hx, ?_⟩
      obtain ⟨xs, ys, rfl⟩ := List.append_of_mem hx
      have := Dl_deref (e := x.2) (a := x.1) (Dl_append.mp hr.dl).2
      unfold deref at this
      cases hh : s.heap x.1 with
      | none => rw [hh] at this; cases this
      | some n => rfl
  rw [count, this.length_eq, List.length_map]

theorem dbg_spec {s : Cache K V} {l : List (Nat × Ent K V)} (hr : Rep s l) (now : UInt64) :
    dbg s now true = .ok ⟨l.length, sumU l, s.size_max, now - s.time_max, rowsOf none l none⟩ := by
  simp only [dbg, if_true]
  rw [hr.beg, walk_rows s.fresh hr.dl hr.len, Res.ok_bind, count_length hr, hr.size]

/-! ### A value of the cache as argument -/

def Holds (h : Heap K V) (p : Nat) (v : V) : Prop := readVal h p = .ok v

theorem holds_upd {h : Heap K V} {p a : Nat} {v : V} {n m : Node K V} (hh : Holds h p v) (hn : deref h a = .ok n) (he : m.elem = n.elem) : Holds (upd h a (some m)) p v := by
  unfold Holds readVal deref upd at *
  by_cases hp : p = a
  · subst hp
    cases hx : h p with
    | none => rw [hx] at hn; cases hn
    | some x =>
      rw [hx] at hn hh
      cases hn
      simp only [if_true, Res.ok_bind] at hh ⊢
      rw [he]
      exact hh
  · simp only [if_neg hp]
    exact hh

theorem holds_setPrev {h h' : Heap K V} {p a : Nat} {v : V} {q : Option Nat} (hh : Holds h p v) (e : setPrev h a q = .ok h') : Holds h' p v := by
  unfold setPrev at e
  cases hn : deref h a with
  | ub => rw [hn] at e; cases e
  | ok n => rw [hn] at e; cases e; exact holds_upd hh hn rfl

theorem holds_setNext {h h' : Heap K V} {p a : Nat} {v : V} {q : Option Nat} (hh : Holds h p v) (e : setNext h a q = .ok h') : Holds h' p v := by
  unfold setNext at e
  cases hn : deref h a with
  | ub => rw [hn] at e; cases e
  | ok n => rw [hn] at e; cases e; exact holds_upd hh hn rfl

theorem holds_fixPrev {h : Heap K V} {r : Heap K V × Option Nat} {p : Nat} {v : V} {x y z : Option Nat} (hh : Holds h p v) (e : fixPrev h x y z = .ok r) : Holds r.1 p v := by
  unfold fixPrev at e
  cases x with
  | none => cases e; exact hh
  | some b =>
    simp only at e
    cases hn : setNext h b y with
    | ub => rw [hn] at e; cases e
    | ok h' => rw [hn] at e; cases e; exact holds_setNext hh hn

theorem holds_linkEnd {h h' : Heap K V} {p a : Nat} {v : V} {x : Option Nat} (hh : Holds h p v) (e : linkEnd h x a = .ok h') : Holds h' p v := by
  unfold linkEnd at e
  cases x with
  | none => cases e; exact hh
  | some b => exact holds_setNext hh e

theorem assignFrom_eq (cap : V → UInt64) {h : Heap K V} {p a : Nat} {v : V} (n : Node K V) (upt : Bool) (now : UInt64) (hh : Holds h p v) :
    assignFrom cap h a p n upt now = .ok (upd h a (some (assign cap n v upt now)), cap v) := by
  have hh' : readVal h p = .ok v := hh
  have h2 : readVal (upd h a (some { n with elem := v })) p = .ok v := by
    unfold readVal deref upd at *
    by_cases hp : p = a
    · simp [hp]
    · simp only [if_neg hp]; exact hh
  have e : ∀ m m' : Node K V, upd (upd h a (some m)) a (some m') = upd h a (some m') := by
    intro m m'
    funext x
    unfold upd
    by_cases hx : x = a <;> simp [hx]
  simp only [assignFrom, hh', Res.ok_bind, h2, e, assign]

theorem setFrom_eq (cap : V → UInt64) (s : Cache K V) (k : K) (p : Nat) (v : V) (upt : Bool) (now : UInt64) (hh : readPtr s p = .ok v) (hp : p ≠ s.fresh) :
    setFrom cap s k p upt now = Cache.set cap s k v upt now := by
  have hh : Holds s.heap p v := hh
  unfold setFrom Cache.set
  cases hd : s.data k with
  | some a =>
    simp only
    cases hn : deref s.heap a with
    | ub => rfl
    | ok n =>
      simp only [Res.ok_bind]
      cases hx : n.next with
      | none => simp only [assignFrom_eq cap n upt now hh, Res.ok_bind]
      | some b =>
        simp only
        cases h1 : setPrev s.heap b n.prev with
        | ub => rfl
        | ok g1 =>
          simp only [Res.ok_bind]
          cases h2 : fixPrev g1 n.prev (some b) s.begp with
          | ub => rfl
          | ok r2 =>
            obtain ⟨g2, bp⟩ := r2
            simp only [Res.ok_bind]
            cases h3 : setNext g2 a none with
            | ub => rfl
            | ok g3 =>
              simp only [Res.ok_bind]
              cases h4 : setPrev g3 a s.endp with
              | ub => rfl
              | ok g4 =>
                simp only [Res.ok_bind]
                cases h5 : s.endp with
                | none => rfl
                | some e =>
                  simp only
                  cases h6 : setNext g4 e (some a) with
                  | ub => rfl
                  | ok g6 =>
                    simp only [Res.ok_bind]
                    have hg : Holds g6 p v := holds_setNext (holds_setPrev (holds_setNext (holds_fixPrev (holds_setPrev hh h1) h2) h3) h4) h6
                    cases h7 : deref g6 a with
                    | ub => rfl
                    | ok n' => simp only [Res.ok_bind, assignFrom_eq cap n' upt now hg]
  | none =>
    simp only
    have h0 : Holds (upd s.heap s.fresh (some { key := k, elem := default, prev := none, next := none, size := 0, time := now })) p v := by
      unfold Holds readVal deref upd at *
      simp only [if_neg hp]
      exact hh
    cases h1 : setPrev (upd s.heap s.fresh (some { key := k, elem := default, prev := none, next := none, size := 0, time := now })) s.fresh s.endp with
    | ub => rfl
    | ok g1 =>
      simp only [Res.ok_bind]
      cases h2 : linkEnd g1 s.endp s.fresh with
      | ub => rfl
      | ok g2 =>
        simp only [Res.ok_bind]
        cases h3 : deref g2 s.fresh with
        | ub => rfl
        | ok n =>
          simp only [Res.ok_bind, assignFrom_eq cap n false now (holds_linkEnd (holds_setPrev h0 h1) h2), assign, Bool.false_eq_true, if_false]
          cases s.begp <;> rfl

/-! ### Copies -/

theorem rep_heap {s : Cache K V} {l : List (Nat × Ent K V)} (hr : Rep s l) {x : Nat} {n : Node K V} (h : s.heap x = some n) : ∃ e, (x, e) ∈ l ∧ n.key = e.key ∧ n.elem = e.val ∧
    n.time = e.time ∧ s.data n.key = some x := by
  obtain ⟨y, hy, hyx⟩ := List.mem_map.1 (hr.alive x (by rw [h]; rfl))
  obtain ⟨a, e⟩ := y
  simp only at hyx
  subst hyx
  obtain ⟨xs, ys, rfl⟩ := List.append_of_mem hy
  have := Dl_deref (Dl_append.mp hr.dl).2
  unfold deref at this
  rw [h] at this
  cases this
  exact ⟨e, by simp, rfl, rfl, rfl, (hr.tbl _ _).2 ⟨e, by simp, rfl⟩⟩

theorem rep_big {s : Cache K V} {l : List (Nat × Ent K V)} (hr : Rep s l) : ∀ x, s.fresh ≤ x → s.heap x = none := by
  intro x hx
  cases h : s.heap x with
  | none => rfl
  | some n =>
    obtain ⟨e, he, -⟩ := rep_heap hr h
    have := hr.bound _ he
    simp only at this
    omega

theorem destroy_two {s : Cache K V} {l : List (Nat × Ent K V)} (hr : Rep s l) : destroy (copy s).heap (copy s).two = s.heap := by
  funext x
  unfold destroy
  by_cases hx : x < s.fresh
  · have e : (copy s).heap x = s.heap x := by simp [copy, hx]
    rw [e]
    cases h : s.heap x with
    | none => rfl
    | some n =>
      simp only
      rw [if_neg]
      simp only [copy, viewOf]
      cases s.data n.key with
      | none => simp
      | some a => simp only [Option.map_some, Option.some.injEq]; omega
  · rw [rep_big hr x (by omega)]
    have e : (copy s).heap x = copied s (x - s.fresh) := by simp [copy, hx]
    rw [e]
    unfold copied
    cases h : s.heap (x - s.fresh) with
    | none => rfl
    | some n =>
      simp only
      by_cases hd : s.data n.key = some (x - s.fresh)
      · rw [if_pos hd]
        simp only [copy, viewOf, hd, Option.map_some]
        rw [if_pos (by congr 1; omega)]
      · rw [if_neg hd]

theorem rep_more {s : Cache K V} {l : List (Nat × Ent K V)} (hr : Rep s l) (n : Nat) : Rep (asCache (viewOf s) s.heap (s.fresh + n)) l :=
  ⟨hr.dl, hr.beg, hr.fin, hr.tbl, hr.addr, hr.keys, fun x hx => Nat.lt_of_lt_of_le (hr.bound x hx) (Nat.le_add_right _ _), hr.size,
    Nat.le_trans hr.len (Nat.le_add_right _ _), hr.alive⟩

/-- What a copy gives for a key. -/
theorem get_copy {s : Cache K V} {l : List (Nat × Ent K V)} (hr : Rep s l) (k : K) (now : UInt64) (htm : ∀ e ∈ l.map toEntry, e.time + s.time_max.toNat < 2 ^ 64)
    (hx : ∀ e, Spec.lookup (l.map toEntry) k = some e → ¬ Spec.Expired s.time_max.toNat now.toNat e) :
    Cache.get (asCache (copy s).two (copy s).heap (copy s).fresh) k now =
      .ok (asCache (copy s).two (copy s).heap (copy s).fresh, (Spec.lookup (l.map toEntry) k).map (·.val)) := by
  unfold Cache.get
  cases hd : s.data k with
  | none =>
    have e : (asCache (copy s).two (copy s).heap (copy s).fresh).data k = none := by simp [asCache, copy, hd]
    rw [e, lookup_none (data_none hr hd)]
    rfl
  | some a =>
    have e : (asCache (copy s).two (copy s).heap (copy s).fresh).data k = some (s.fresh + a) := by simp [asCache, copy, hd]
    rw [e]
    obtain ⟨xs, en, ys, rfl, rfl⟩ := data_some hr hd
    have hl := lookup_split (a := a) (keys_split hr.keys)
    rw [hl] at hx ⊢
    have hn := Dl_deref (Dl_append.mp hr.dl).2
    have hh : s.heap a = some ⟨en.key, en.val, lastA xs none, headA ys none, en.size, en.time⟩ := by
      unfold deref at hn
      cases h : s.heap a with
      | none => rw [h] at hn; cases hn
      | some n => rw [h] at hn; cases hn; rfl
    have hc : (asCache (copy s).two (copy s).heap (copy s).fresh).heap (s.fresh + a) = some ⟨en.key, en.val, lastA xs none, headA ys none, en.size, en.time⟩ := by
      have e1 : (copy s).heap (s.fresh + a) = copied s a := by simp [copy, show ¬ s.fresh + a < s.fresh by omega]
      simp only [asCache, e1, copied, hh, hd, if_true]
    have hex := expired_iff en a s.time_max now (htm (toEntry (a, en)) (by simp))
    simp only [deref, hc, Res.ok_bind]
    rw [if_neg]
    · rfl
    · intro h
      exact hx _ rfl (hex.1 h)

theorem gets_two (cap : V → UInt64) {s : Cache K V} {l : List (Nat × Ent K V)} (hr : Rep s l) (htm : ∀ e ∈ l.map toEntry, e.time + s.time_max.toNat < 2 ^ 64) :
    ∀ (ks : List (K × UInt64)), (∀ q ∈ ks, ∀ e, Spec.lookup (l.map toEntry) q.1 = some e → ¬ Spec.Expired s.time_max.toNat q.2.toNat e) →
    run2 cap (copy s) (ks.map fun q => .two (.get q.1 q.2)) = .ok (copy s) := by
  intro ks
  induction ks with
  | nil => intro _; rfl
  | cons q ks ih =>
    intro h
    rw [List.map_cons, run2]
    have := get_copy hr q.1 q.2 htm (h q (by simp))
    simp only [step2, step, this, Res.ok_bind]
    exact ih (fun q' hq' => h q' (by simp [hq']))

theorem run2_append (cap : V → UInt64) : ∀ (a b : List (Op2 K V)) {t t1 : Two K V}, run2 cap t a = .ok t1 → run2 cap t (a ++ b) = run2 cap t1 b := by
  intro a
  induction a with
  | nil => intro b t t1 h; cases h; rfl
  | cons o a ih =>
    intro b t t1 h
    rw [run2] at h
    rw [List.cons_append, run2]
    cases h1 : step2 cap t o with
    | ub => rw [h1] at h; cases h
    | ok t2 => rw [h1] at h; exact ih b h

/-- The original is gone; the copy still points to it. -/
theorem copy_dangling (cap : V → UInt64) {s : Cache K V} {l : List (Nat × Ent K V)} (hr : Rep s l) (hl : l ≠ []) (k : K) (v : V) (u : Bool) (now : UInt64) (hk : s.data k = none) :
    run2 cap (copy s) [.destroyOne, .two (.set k v u now)] = .ub := by
  obtain ⟨b, xs, rfl⟩ : ∃ b xs, l = xs ++ [b] := ⟨l.getLast hl, l.dropLast, (List.dropLast_concat_getLast hl).symm⟩
  obtain ⟨a, e⟩ := b
  have he : s.endp = some a := by rw [hr.fin]; simp [lastA]
  have ha := hr.bound (a, e) (by simp)
  simp only at ha
  have hg : destroy (copy s).heap (copy s).one a = none := by
    unfold destroy
    have e1 : (copy s).heap a = s.heap a := by simp [copy, ha]
    rw [e1]
    cases h : s.heap a with
    | none => rfl
    | some n =>
      obtain ⟨-, -, -, -, -, hd⟩ := rep_heap hr h
      simp only
      rw [if_pos (by exact hd)]
  have hne : a ≠ s.fresh + s.fresh := by omega
  simp only [run2, step2, Res.ok_bind, step]
  have hset : Cache.set cap (asCache (copy s).two (destroy (copy s).heap (copy s).one) (copy s).fresh) k v u now = .ub := by
    unfold Cache.set
    have e1 : (asCache (copy s).two (destroy (copy s).heap (copy s).one) (copy s).fresh).data k = none := by simp [asCache, copy, hk]
    have e2 : (asCache (copy s).two (destroy (copy s).heap (copy s).one) (copy s).fresh).endp = some a := by simp [asCache, copy, viewOf, he]
    have e3 : (asCache (copy s).two (destroy (copy s).heap (copy s).one) (copy s).fresh).fresh = s.fresh + s.fresh := rfl
    have e4 : (asCache (copy s).two (destroy (copy s).heap (copy s).one) (copy s).fresh).heap = destroy (copy s).heap (copy s).one := rfl
    rw [e1]
    simp only [e2, e3, e4]
    simp only [setPrev, deref, upd, if_true, Res.ok_bind, linkEnd, setNext, if_neg hne, hg, Res.ub_bind]
  rw [hset]
  rfl

end Verif.CacheRef
