import Verif.MapSweep.Spec
import Verif.ShmMap.Props
/-
  Lemmas for C187: the exact effect of one `erase` and one `insert` on the chains, and the three loops.
-/
set_option linter.unusedVariables false
set_option linter.unusedSimpArgs false

namespace Verif.MapSweep

open Verif.ShmPool Verif.ShmMap

variable {V : Type} {N H : Nat}

theorem erase_mid {α : Type} [DecidableEq α] {i : α} : ∀ {xs ys : List α}, i ∉ xs → (xs ++ i :: ys).erase i = xs ++ ys := by
  intro xs ys h
  rw [List.erase_append_right _ h, List.erase_cons_head]

/-- taking node `i` out with the write `first` and freeing it: the exact new state -/
theorem del_exact (hN : N < NONE) {m : Map V} {f : Nat → List Nat} {fr : List Nat} {lk : Nat} {l : Spec.Bindings V}
    (h : Rep N H m f fr lk l) {k : UInt64} {b i : Nat} {xs ys : List Nat} (hb : b < H) (hf : f b = xs ++ i :: ys) (hki : m.key i = k)
    (first : Wr V) (m1 : Map V) (w1 : first.apply N H m = .ok m1) (g1 : m1.pool = m.pool) (g2 : m1.key = m.key) (g3 : m1.val = m.val)
    (hc : Chain m1.next (m1.hash b) (xs ++ ys)) (ho : ∀ c, c < H → c ≠ b → Chain m1.next (m1.hash c) (f c)) :
    (pfree N m.pool i).2 = [.stk (.top fr.length), .stk (.data fr.length i)] ∧
    ∃ m4 fr', applyM N H m [first, .next i NONE, .pool (.stk (.top fr.length)), .pool (.stk (.data fr.length i))] = .ok m4 ∧
      Rep N H m4 (put f b ((f b).erase i)) fr' lk (Spec.unbind l k) ∧ m4.key = m.key ∧ m4.val = m.val ∧ m4.next i = NONE := by
  have hi : i ∈ nodes H f := mem_nodes.mpr ⟨b, hb, by rw [hf]; simp⟩
  have hin := h.lt hi
  have hix : i ∉ xs := by
    have := h.fb_nodup hb
    rw [hf, List.nodup_append] at this
    exact fun hh => this.2.2 i hh i (by simp) rfl
  have hperm := nodes_del hb hf
  have hp := PRep_perm h.pool hperm
  have hnd := hp.nodup
  rw [List.cons_append, List.nodup_cons] at hnd
  have hnot : i ∉ nodes H (put f b (xs ++ ys)) := fun hh => hnd.1 (List.mem_append.mpr (Or.inl hh))
  obtain ⟨e, p', e', _, hp'⟩ := free_spec (al1 := []) hN hp
  rw [List.nil_append] at hp'
  let m2 : Map V := { m1 with next := put m1.next i NONE }
  have w2 : (Wr.next i NONE : Wr V).apply N H m1 = .ok m2 := by simp [Wr.apply, hin, m2]
  have r1 : Rep N H m1 (put f b (xs ++ ys)) fr (lk + 1) (Spec.unbind l k) :=
    rep_del h hb hf hki (by rw [g1]; exact PRep_leak hp) g2 g3 hc ho
  have r2 : Rep N H m2 (put f b (xs ++ ys)) fr (lk + 1) (Spec.unbind l k) :=
    rep_same r1 (by show PRep N m1.pool _ _ _; rw [g1]; exact PRep_leak hp) (fun _ _ => rfl) (fun _ _ => rfl)
      (fun j hj => put_ne _ _ (fun hh => hnot (hh ▸ hj))) rfl
  let m4 : Map V := { m2 with pool := p' }
  have r4 : Rep N H m4 (put f b (xs ++ ys)) (i :: fr) lk (Spec.unbind l k) :=
    rep_same r2 hp' (fun _ _ => rfl) (fun _ _ => rfl) (fun _ _ => rfl) rfl
  have w34 : applyM N H m2 [.pool (.stk (.top fr.length)), .pool (.stk (.data fr.length i))] = .ok m4 := by
    have hm2 : m2.pool = m.pool := g1
    simp only [applyM, Wr.apply, hm2]
    simp only [applyP] at e'
    cases ha : PWr.apply N m.pool (.stk (.top fr.length)) with
    | ub => rw [ha] at e'; simp at e'
    | ok pa =>
      rw [ha] at e'
      simp only [Res.ok_bind] at e' ⊢
      cases hb' : PWr.apply N pa (.stk (.data fr.length i)) with
      | ub => rw [hb'] at e'; simp at e'
      | ok pb =>
        rw [hb'] at e'
        simp only [Res.ok_bind, Res.ok.injEq] at e' ⊢
        subst e'
        rfl
  refine ⟨by rw [e], m4, i :: fr, ?_, by rw [hf, erase_mid hix]; exact r4, g2, g3, put_eq _ _ _⟩
  rw [applyM, w1, Res.ok_bind, applyM, w2, Res.ok_bind]
  exact w34

/-- `erase` of the key of node `i`: exactly this node leaves its chain, and its `next` is the end mark. -/
theorem erase_at (hN : N < NONE) (hH : 0 < H) {m : Map V} {f : Nat → List Nat} {fr : List Nat} {lk : Nat} {l : Spec.Bindings V}
    (h : Rep N H m f fr lk l) {b i : Nat} (hbH : b < H) (hib : i ∈ f b) :
    ∃ m' fr', erase N H m (m.key i) = .ok (m', true) ∧ Rep N H m' (put f b ((f b).erase i)) fr' lk (Spec.unbind l (m.key i)) ∧
      m'.key = m.key ∧ m'.val = m.val ∧ m'.next i = NONE := by
  have hbk := h.bucket b hbH i hib
  generalize hk0 : m.key i = k at hbk ⊢
  subst hbk
  have hb := hbH
  have hm : ∀ i ∈ f (k.toNat % H), i ∈ nodes H f := fun i hi => mem_nodes.mpr ⟨_, hb, hi⟩
  have hch := h.chain _ hb
  have hfn := h.fb_nodup hb
  have huniq : ∀ j ∈ f (k.toNat % H), m.key j = k → j = i := fun j hj hjk => h.key_inj (hm j hj) (hm i hib) (hjk.trans hk0.symm)
  unfold erase unprotected_erase
  rw [if_neg (by omega)]
  dsimp only
  cases hf : f (k.toNat % H) with
  | nil => rw [hf] at hib; cases hib
  | cons x is =>
    rw [hf] at hch hfn
    have hx : x ∈ nodes H f := hm x (by rw [hf]; simp)
    have hxN := h.lt hx
    rw [hch.1, if_pos (by omega), if_pos hxN]
    by_cases hk : k = m.key x
    · rw [if_pos hk]
      have hxi : x = i := huniq x (by rw [hf]; simp) hk.symm
      subst hxi
      obtain ⟨e, m4, fr', h4, r4, q1, q2, q3⟩ := del_exact hN h (xs := []) (i := x) (ys := is) hb hf hk.symm
        (.hash (k.toNat % H) (m.next x)) { m with hash := put m.hash (k.toNat % H) (m.next x) } (by simp [Wr.apply, hb]) rfl rfl rfl
        (by
          show Chain m.next (put m.hash (k.toNat % H) (m.next x) (k.toNat % H)) is
          rw [put_eq]; exact hch.2)
        (by
          intro c hc hcb
          show Chain m.next (put m.hash (k.toNat % H) (m.next x) c) (f c)
          rw [put_ne _ _ hcb]; exact h.chain c hc)
      rw [hf] at r4
      rw [Res.ok_bind, e]
      refine ⟨m4, fr', ?_, r4, q1, q2, q3⟩
      show (applyM N H m _ >>= _) = _
      rw [show ([Wr.hash (k.toNat % H) (m.next x), .next x NONE] ++
        ([PWr.stk (.top fr.length), .stk (.data fr.length x)] : List PWr).map .pool : List (Wr V)) = _ from rfl]
      simp only [List.map_cons, List.map_nil, List.cons_append, List.nil_append]
      rw [h4, Res.ok_bind]
    · rw [if_neg hk]
      have hlen : is.length < N + 1 := by
        have := h.len_le hb
        rw [hf] at this; simp at this; omega
      rcases findPrev_spec (k := k) (p := x) hN hch.2 (fun i hi => h.lt (hm i (by rw [hf]; simp [hi]))) hlen with
        ⟨hno, e⟩ | ⟨xs, q, j, ys, hxs, hki, e⟩
      · exfalso
        rw [hf] at hib
        rcases List.mem_cons.mp hib with rfl | hi
        · exact hk hk0.symm
        · exact hno i hi hk0
      · rw [e, Res.ok_bind]
        dsimp only
        have hf0 := hf
        rw [hxs] at hf hch hfn
        have hf' : f (k.toNat % H) = (xs ++ [q]) ++ j :: ys := by rw [hf]; simp
        have hji : j = i := huniq j (by rw [hf]; simp) hki
        subst hji
        have hq : q ∈ f (k.toNat % H) := by rw [hf]; simp
        obtain ⟨e, m4, fr', h4, r4, q1, q2, q3⟩ := del_exact hN h (xs := xs ++ [q]) (i := j) (ys := ys) hb hf' hki
          (.next q (m.next j)) { m with next := put m.next q (m.next j) } (by simp [Wr.apply, h.lt (hm q hq)]) rfl rfl rfl
          (by
            show Chain (put m.next q (m.next j)) (m.hash _) _
            have := Chain_cut hch hfn
            simpa using this)
          (by
            intro c hc hcb
            show Chain (put m.next q (m.next j)) (m.hash c) (f c)
            refine Chain_frame (fun j hj => put_ne _ _ ?_) (h.chain c hc)
            rintro rfl; exact h.disj hb hc hcb hq hj)
        rw [hf0] at r4
        rw [Res.ok_bind, e]
        refine ⟨m4, fr', ?_, r4, q1, q2, q3⟩
        simp only [List.map_cons, List.map_nil, List.cons_append, List.nil_append]
        rw [h4, Res.ok_bind]

/-- `insert` of a key that is present: exactly its value changes. -/
theorem insert_at (hN : N < NONE) (hH : 0 < H) {m : Map V} {f : Nat → List Nat} {fr : List Nat} {lk : Nat} {l : Spec.Bindings V}
    (h : Rep N H m f fr lk l) {i : Nat} (hi : i ∈ nodes H f) (v : V) :
    insert N H m (m.key i) v = .ok ({ m with val := put m.val i v }, true) := by
  obtain ⟨b, hbH, hib⟩ := mem_nodes.mp hi
  have hbk := h.bucket b hbH i hib
  generalize hk0 : m.key i = k at hbk ⊢
  subst hbk
  have hm : ∀ i ∈ f (k.toNat % H), i ∈ nodes H f := fun i hi => mem_nodes.mpr ⟨_, hbH, hi⟩
  have hch := h.chain _ hbH
  have hne : f (k.toNat % H) ≠ [] := List.ne_nil_of_mem hib
  have he : m.hash (k.toNat % H) ≠ NONE := by
    cases hf : f (k.toNat % H) with
    | nil => exact absurd hf hne
    | cons x xs =>
      rw [hf] at hch
      rw [hch.1]
      have := h.lt (hm x (by rw [hf]; simp)); omega
  unfold ShmMap.insert unprotected_insert
  rw [if_neg (by omega)]
  dsimp only
  rw [if_pos he]
  rcases findLast_spec (k := k) hN hch (fun i hi => h.lt (hm i hi)) (by have := h.len_le hbH; omega : _ ≤ N + 1) hne
    with ⟨j, hj, hkj, e⟩ | ⟨hno, xs, lst, hl, e⟩
  · have hji : j = i := h.key_inj (hm j hj) hi (hkj.trans hk0.symm)
    subst hji
    rw [e, Res.ok_bind]
    simp [applyM, Wr.apply, h.lt hi]
  · exact absurd hk0 (hno i hib)

/-- the chains decide the content -/
theorem rep_content {m : Map V} {f : Nat → List Nat} {fr : List Nat} {lk : Nat} {l l' : Spec.Bindings V}
    (h : Rep N H m f fr lk l) (hp : l'.Perm ((nodes H f).map (fun i => (m.key i, m.val i)))) : Rep N H m f fr lk l' :=
  ⟨h.chain, h.bucket, h.keys, h.pool, hp⟩

theorem flatMap_congr' {α β : Type} {f g : α → List β} : ∀ {l : List α}, (∀ a ∈ l, f a = g a) → l.flatMap f = l.flatMap g := by
  intro l
  induction l with
  | nil => intro _; rfl
  | cons x xs ih =>
    intro h
    rw [List.flatMap_cons, List.flatMap_cons, h x (by simp), ih (fun a ha => h a (List.mem_cons_of_mem _ ha))]

theorem nodes_congr {f g : Nat → List Nat} (h : ∀ b, b < H → f b = g b) : nodes H f = nodes H g := by
  unfold nodes
  exact flatMap_congr' fun b hb => h b (List.mem_range.mp hb)

theorem rest_congr {f g : Nat → List Nat} {i : Nat} (h : ∀ b, i ≤ b → b < H → f b = g b) : rest H f i = rest H g i := by
  unfold rest
  refine flatMap_congr' fun b hb => ?_
  have := List.mem_range'_1.mp hb
  exact h b this.1 (by omega)

theorem rest_put {f : Nat → List Nat} {b : Nat} {zs : List Nat} : rest H (put f b zs) (b + 1) = rest H f (b + 1) :=
  rest_congr fun c hc _ => put_ne _ _ (by omega)

theorem Chain_tail {next : Nat → Nat} {x : Nat} {ys : List Nat} : ∀ {xs : List Nat} {e : Nat}, Chain next e (xs ++ x :: ys) → Chain next x (x :: ys) := by
  intro xs
  induction xs with
  | nil => intro e h; exact ⟨rfl, h.2⟩
  | cons z zs ih => intro e h; exact ih h.2

/-- where `begin()` and operator++ go, with the buckets they pass over -/
theorem scan_exact {m : Map V} {f : Nat → List Nat} {fr : List Nat} {lk : Nat} {l : Spec.Bindings V} (hN : N < NONE)
    (h : Rep N H m f fr lk l) : ∀ n i, i + n = H →
    ((∀ d, i ≤ d → d < H → f d = []) ∧ rest H f i = [] ∧ scan m n i = (NONE, NONE)) ∨
    (∃ c x xs, i ≤ c ∧ c < H ∧ f c = x :: xs ∧ (∀ d, i ≤ d → d < c → f d = []) ∧ rest H f i = x :: xs ++ rest H f (c + 1) ∧ scan m n i = (c, x)) := by
  intro n
  induction n with
  | zero =>
    intro i hi
    left
    refine ⟨fun d h1 h2 => by omega, ?_, rfl⟩
    unfold rest
    rw [show H - i = 0 by omega]; rfl
  | succ n ih =>
    intro i hi
    have hiH : i < H := by omega
    have hc := h.chain i hiH
    rw [scan, rest_cons hiH]
    cases hf : f i with
    | nil =>
      rw [hf] at hc
      have hc' : m.hash i = NONE := hc
      rw [if_neg (by rw [hc']; simp), List.nil_append]
      have hi0 : ∀ d, i ≤ d → ¬ i + 1 ≤ d → f d = [] := fun d h1 h2 => by rw [show d = i by omega]; exact hf
      rcases ih (i + 1) (by omega) with ⟨h1, h2, h3⟩ | ⟨c, x, xs, h1, h2, h3, h4, h5, h6⟩
      · refine Or.inl ⟨fun d hd hdH => ?_, h2, h3⟩
        by_cases hh : i + 1 ≤ d
        · exact h1 d hh hdH
        · exact hi0 d hd hh
      · refine Or.inr ⟨c, x, xs, by omega, h2, h3, fun d hd hdc => ?_, h5, h6⟩
        by_cases hh : i + 1 ≤ d
        · exact h4 d hh hdc
        · exact hi0 d hd hh
    | cons x xs =>
      rw [hf] at hc
      have hx : x < N := h.lt (mem_nodes.mpr ⟨i, hiH, by rw [hf]; simp⟩)
      rw [if_pos (by rw [hc.1]; omega), hc.1]
      exact Or.inr ⟨i, x, xs, Nat.le_refl _, hiH, hf, fun d h1 h2 => by omega, rfl, rfl⟩

theorem rest_skip {g : Nat → List Nat} {c : Nat} (hc : c ≤ H) : ∀ n i, i + n = c → (∀ d, i ≤ d → d < c → g d = []) → rest H g i = rest H g c := by
  intro n
  induction n with
  | zero => intro i hi _; rw [show i = c by omega]
  | succ n ih =>
    intro i hi hg
    rw [rest_cons (by omega), hg i (Nat.le_refl _) (by omega), List.nil_append]
    exact ih (i + 1) (by omega) (fun d h1 h2 => hg d (by omega) h2)

theorem rest_end {g : Nat → List Nat} : rest H g H = [] := by
  unfold rest; rw [Nat.sub_self]; rfl

theorem rest_zero {g : Nat → List Nat} : rest H g 0 = nodes H g := by
  unfold rest nodes
  rw [List.range_eq_range']; rfl

end Verif.MapSweep
