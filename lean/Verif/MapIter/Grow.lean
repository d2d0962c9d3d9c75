import Verif.MapIter.Props
/-
  A map that only grows: while processes only read and insert, the chains are only extended at their ends, every node that is linked keeps its key, and its value is one that
  somebody has inserted under this key.  This holds after every single store.
-/
set_option linter.unusedVariables false
set_option linter.unusedSimpArgs false

namespace Verif.MapIter

open Verif.ShmPool Verif.ShmMap Verif.MapSys

variable {V : Type} {N H : Nat}

/-- The chains of the map in memory. -/
structure Shape (N H : Nat) (m : Map V) (f : Nat → List Nat) : Prop where
  chain : ∀ b, b < H → Chain m.next (m.hash b) (f b)
  lt : ∀ i ∈ nodes H f, i < N
  nodup : (nodes H f).Nodup
  bucket : ∀ b, b < H → ∀ i ∈ f b, (m.key i).toNat % H = b
  keys : ((nodes H f).map m.key).Nodup

theorem shape_rep {m : Map V} {f : Nat → List Nat} {fr : List Nat} {lk : Nat} {l : ShmMap.Spec.Bindings V} (h : Rep N H m f fr lk l) : Shape N H m f :=
  ⟨h.chain, fun _ hi => h.lt hi, h.nodup, h.bucket, h.keys⟩

theorem chain_unique {next : Nat → Nat} : ∀ {xs ys : List Nat} {e : Nat}, Chain next e xs → Chain next e ys → (∀ i ∈ xs, i ≠ NONE) → (∀ i ∈ ys, i ≠ NONE) → xs = ys := by
  intro xs
  induction xs with
  | nil =>
    intro ys e h1 h2 _ h4
    cases ys with
    | nil => rfl
    | cons y ys => exact absurd (h2.1.symm.trans h1) (h4 y (by simp))
  | cons x xs ih =>
    intro ys e h1 h2 h3 h4
    cases ys with
    | nil => exact absurd (h1.1.symm.trans h2) (h3 x (by simp))
    | cons y ys =>
      have : x = y := h1.1.symm.trans h2.1
      subst this
      rw [ih h1.2 h2.2 (fun i hi => h3 i (by simp [hi])) (fun i hi => h4 i (by simp [hi]))]

theorem shape_unique (hN : N < NONE) {m : Map V} {f g : Nat → List Nat} (hf : Shape N H m f) (hg : Shape N H m g) (b : Nat) (hb : b < H) : f b = g b := by
  refine chain_unique (hf.chain b hb) (hg.chain b hb) ?_ ?_
  · intro i hi; have := hf.lt i (mem_nodes.mpr ⟨b, hb, hi⟩); omega
  · intro i hi; have := hg.lt i (mem_nodes.mpr ⟨b, hb, hi⟩); omega

theorem nodes_eq {f g : Nat → List Nat} (h : ∀ b, b < H → f b = g b) : nodes H f = nodes H g :=
  flatMap_congr' (fun b hb => h b (by simpa using hb))

/-- What one store of an insert does to the chains. -/
structure Grow (N H : Nat) (P : UInt64 → V → Prop) (m m' : Map V) (f f' : Nat → List Nat) : Prop where
  shape : Shape N H m' f'
  ext : ∀ b, b < H → ∃ t, f' b = f b ++ t
  key : ∀ i ∈ nodes H f, m'.key i = m.key i
  val : ∀ i ∈ nodes H f', (i ∈ nodes H f ∧ m'.val i = m.val i) ∨ P (m'.key i) (m'.val i)

theorem grow_refl {P : UInt64 → V → Prop} {m : Map V} {f : Nat → List Nat} (h : Shape N H m f) : Grow N H P m m f f :=
  ⟨h, fun b _ => ⟨[], by simp⟩, fun _ _ => rfl, fun i hi => Or.inl ⟨hi, rfl⟩⟩

theorem grow_frame {P : UInt64 → V → Prop} {m m' : Map V} {f : Nat → List Nat} (h : Shape N H m f) (h1 : m'.hash = m.hash) (h2 : ∀ i ∈ nodes H f, m'.next i = m.next i)
    (h3 : ∀ i ∈ nodes H f, m'.key i = m.key i) (h4 : ∀ i ∈ nodes H f, m'.val i = m.val i ∨ P (m.key i) (m'.val i)) : Grow N H P m m' f f := by
  refine ⟨⟨?_, h.lt, h.nodup, ?_, ?_⟩, fun b _ => ⟨[], by simp⟩, h3, ?_⟩
  · intro b hb
    rw [h1]
    exact Chain_frame (fun i hi => h2 i (mem_nodes.mpr ⟨b, hb, hi⟩)) (h.chain b hb)
  · intro b hb i hi
    rw [h3 i (mem_nodes.mpr ⟨b, hb, hi⟩)]
    exact h.bucket b hb i hi
  · rw [List.map_congr_left h3]; exact h.keys
  · intro i hi
    rcases h4 i hi with e | e
    · exact Or.inl ⟨hi, e⟩
    · right; rw [h3 i hi]; exact e

theorem grow_link {P : UInt64 → V → Prop} {m m' : Map V} {f : Nat → List Nat} {nn b : Nat} (h : Shape N H m f) (hb : b < H) (hn : nn < N) (hnew : nn ∉ nodes H f)
    (hbk : (m.key nn).toNat % H = b) (hk : ∀ i ∈ nodes H f, m.key i ≠ m.key nn) (hP : P (m.key nn) (m.val nn)) (e1 : m'.key = m.key) (e2 : m'.val = m.val)
    (hc : Chain m'.next (m'.hash b) (f b ++ [nn])) (ho : ∀ c, c < H → c ≠ b → Chain m'.next (m'.hash c) (f c)) : Grow N H P m m' f (put f b (f b ++ [nn])) := by
  have hp := nodes_add (f := f) (i := nn) hb
  refine ⟨⟨?_, ?_, ?_, ?_, ?_⟩, ?_, fun i _ => by rw [e1], ?_⟩
  · intro c hcH
    by_cases hcb : c = b
    · subst hcb; rw [put_eq]; exact hc
    · rw [put_ne _ _ hcb]; exact ho c hcH hcb
  · intro i hi
    rcases List.mem_cons.mp (hp.mem_iff.mp hi) with e | hi
    · rw [e]; exact hn
    · exact h.lt i hi
  · rw [hp.nodup_iff, List.nodup_cons]; exact ⟨hnew, h.nodup⟩
  · intro c hcH i hi
    rw [e1]
    by_cases hcb : c = b
    · subst hcb
      rw [put_eq] at hi
      rcases List.mem_append.mp hi with hi | hi
      · exact h.bucket c hcH i hi
      · rw [List.mem_singleton.mp hi]; exact hbk
    · rw [put_ne _ _ hcb] at hi; exact h.bucket c hcH i hi
  · rw [e1, (hp.map m.key).nodup_iff, List.map_cons, List.nodup_cons]
    refine ⟨?_, h.keys⟩
    intro hx
    obtain ⟨i, hi, e⟩ := List.mem_map.mp hx
    exact hk i hi e
  · intro c hcH
    by_cases hcb : c = b
    · subst hcb; rw [put_eq]; exact ⟨[nn], rfl⟩
    · rw [put_ne _ _ hcb]; exact ⟨[], by simp⟩
  · intro i hi
    rcases List.mem_cons.mp (hp.mem_iff.mp hi) with e | hi
    · right; rw [e, e1, e2]; exact hP
    · left; exact ⟨hi, by rw [e2]⟩

/-- The stores of an insert. -/
theorem insert_writes (hN : N < NONE) (hH : 0 < H) {m : Map V} {f : Nat → List Nat} {fr : List Nat} {lk : Nat} {l : ShmMap.Spec.Bindings V}
    (h : Rep N H m f fr lk l) (k : UInt64) (v : V) : ∃ r ws, unprotected_insert N H m k v = .ok (r, ws) ∧
      (ws = [] ∨ (∃ i, i ∈ nodes H f ∧ m.key i = k ∧ ws = [.val i v]) ∨
       ∃ nn w last, ws = [.pool w, .key nn k, .val nn v, .next nn NONE, last] ∧ nn < N ∧ nn ∉ nodes H f ∧ (∀ i ∈ nodes H f, m.key i ≠ k) ∧
        ((last = .hash (k.toNat % H) nn ∧ f (k.toNat % H) = []) ∨ ∃ xs lst, f (k.toNat % H) = xs ++ [lst] ∧ last = .next lst nn)) := by
  have hb := Nat.mod_lt k.toNat hH
  have hm : ∀ i ∈ f (k.toNat % H), i ∈ nodes H f := fun i hi => mem_nodes.mpr ⟨_, hb, hi⟩
  have hch := h.chain _ hb
  have hal := allocate_spec hN h.pool
  have hkn : (∀ i ∈ f (k.toNat % H), m.key i ≠ k) → ∀ i ∈ nodes H f, m.key i ≠ k := fun g i hi e => g i (h.mem_bucket hi e) e
  unfold unprotected_insert
  rw [if_neg (by omega)]
  dsimp only
  by_cases hne : f (k.toNat % H) = []
  · have he : m.hash (k.toNat % H) = NONE := by rw [hne] at hch; exact hch
    rw [if_neg (by rw [he]; simp)]
    rcases hal with ⟨rfl, hcur, e⟩ | ⟨nn, w, p', e, e', hnn, hnew, hp⟩
    · rw [e, Res.ok_bind]
      dsimp only
      rw [if_pos rfl]
      exact ⟨_, _, rfl, Or.inl rfl⟩
    · rw [e, Res.ok_bind]
      dsimp only
      rw [if_neg (by omega)]
      refine ⟨_, _, rfl, Or.inr (Or.inr ⟨nn, w, _, rfl, hnn, hnew, hkn (by rw [hne]; simp), Or.inl ⟨rfl, hne⟩⟩)⟩
  · have he : m.hash (k.toNat % H) ≠ NONE := by
      cases hf : f (k.toNat % H) with
      | nil => exact absurd hf hne
      | cons x xs =>
        rw [hf] at hch
        rw [hch.1]
        have := h.lt (hm x (by rw [hf]; simp)); omega
    rw [if_pos he]
    rcases findLast_spec (k := k) hN hch (fun i hi => h.lt (hm i hi)) (by have := h.len_le hb; omega : _ ≤ N + 1) hne
      with ⟨i, hi, hki, e⟩ | ⟨hno, xs, lst, hl, e⟩
    · rw [e, Res.ok_bind]
      dsimp only
      rw [if_pos rfl]
      exact ⟨_, _, rfl, Or.inr (Or.inl ⟨i, hm i hi, hki, rfl⟩)⟩
    · rw [e, Res.ok_bind]
      dsimp only
      rw [if_neg (by simp)]
      rcases hal with ⟨rfl, hcur, e⟩ | ⟨nn, w, p', e, e', hnn, hnew, hp⟩
      · rw [e, Res.ok_bind]
        dsimp only
        rw [if_pos rfl]
        exact ⟨_, _, rfl, Or.inl rfl⟩
      · rw [e, Res.ok_bind]
        dsimp only
        rw [if_neg (by omega)]
        exact ⟨_, _, rfl, Or.inr (Or.inr ⟨nn, w, _, rfl, hnn, hnew, hkn hno, Or.inr ⟨xs, lst, hl, rfl⟩⟩)⟩

theorem pool_apply {m m' : Map V} {w : PWr} (h : (Wr.pool w : Wr V).apply N H m = .ok m') : ∃ p, m' = { m with pool := p } := by
  simp only [Wr.apply] at h
  cases hw : w.apply N m.pool with
  | ub => rw [hw] at h; cases h
  | ok p => rw [hw] at h; cases h; exact ⟨p, rfl⟩

/-- One store of an insert, from any place inside it. -/
theorem insert_grow (hN : N < NONE) (hH : 0 < H) {P : UInt64 → V → Prop} {m0 m m' : Map V} {f : Nat → List Nat} {fr : List Nat} {lk : Nat} {l : ShmMap.Spec.Bindings V}
    (h : Rep N H m0 f fr lk l) {k : UInt64} {v : V} (hP : P k v) {ws0 ws : List (Wr V)} {w : Wr V} (hw : ShmMap.writes N H m0 (.insert k v) = .ok (ws0 ++ w :: ws))
    (hd : applyM N H m0 ws0 = .ok m) (ha : w.apply N H m = .ok m') : Shape N H m f ∧ ∃ f', Grow N H P m m' f f' := by
  have hs := shape_rep h
  obtain ⟨r, ws', e, hcase⟩ := insert_writes hN hH h k v
  simp only [ShmMap.writes, e, Res.ok_bind] at hw
  simp only [Res.ok.injEq] at hw
  subst hw
  rcases hcase with hc | ⟨i, hi, hki, hc⟩ | ⟨nn, pw, last, hc, hnn, hnew, hno, hlast⟩
  · exact absurd hc (by simp)
  · cases ws0 with
    | cons x xs => simp at hc
    | nil =>
      simp only [List.nil_append, List.cons.injEq] at hc
      obtain ⟨rfl, rfl⟩ := hc
      cases hd
      simp only [Wr.apply, if_pos (hs.lt i hi), Res.ok.injEq] at ha
      subst ha
      refine ⟨hs, f, grow_frame hs rfl (fun _ _ => rfl) (fun _ _ => rfl) ?_⟩
      intro j hj
      by_cases hji : j = i
      · subst hji; right; simp only [put_eq]; rw [hki]; exact hP
      · left; exact put_ne _ _ hji
  · have hne : ∀ i ∈ nodes H f, i ≠ nn := fun i hi hh => hnew (hh ▸ hi)
    have hb := Nat.mod_lt k.toNat hH
    cases ws0 with
    | nil =>
      simp only [List.nil_append, List.cons.injEq] at hc
      obtain ⟨rfl, _⟩ := hc
      cases hd
      obtain ⟨p, rfl⟩ := pool_apply ha
      exact ⟨hs, f, grow_frame hs rfl (fun _ _ => rfl) (fun _ _ => rfl) (fun _ _ => Or.inl rfl)⟩
    | cons x1 ws0 =>
      simp only [List.cons_append, List.cons.injEq] at hc
      obtain ⟨rfl, hc⟩ := hc
      simp only [applyM] at hd
      cases h1 : (Wr.pool pw : Wr V).apply N H m0 with
      | ub => rw [h1] at hd; cases hd
      | ok m1 =>
        rw [h1, Res.ok_bind] at hd
        obtain ⟨p, rfl⟩ := pool_apply h1
        have hs1 : Shape N H ({ m0 with pool := p } : Map V) f := ⟨hs.chain, hs.lt, hs.nodup, hs.bucket, hs.keys⟩
        cases ws0 with
        | nil =>
          simp only [List.nil_append, List.cons.injEq] at hc
          obtain ⟨rfl, _⟩ := hc
          cases hd
          simp only [Wr.apply, if_pos hnn, Res.ok.injEq] at ha
          subst ha
          exact ⟨hs1, f, grow_frame hs1 rfl (fun _ _ => rfl) (fun i hi => put_ne _ _ (hne i hi)) (fun _ _ => Or.inl rfl)⟩
        | cons x2 ws0 =>
          simp only [List.cons_append, List.cons.injEq] at hc
          obtain ⟨rfl, hc⟩ := hc
          simp only [applyM, Wr.apply, if_pos hnn, Res.ok_bind] at hd
          have g2 := grow_frame (P := P) (m' := { m0 with pool := p, key := put m0.key nn k }) hs1 rfl (fun _ _ => rfl) (fun i hi => put_ne _ _ (hne i hi)) (fun _ _ => Or.inl rfl)
          have hs2 := g2.shape
          cases ws0 with
          | nil =>
            simp only [List.nil_append, List.cons.injEq] at hc
            obtain ⟨rfl, _⟩ := hc
            cases hd
            simp only [Wr.apply, if_pos hnn, Res.ok.injEq] at ha
            subst ha
            exact ⟨hs2, f, grow_frame hs2 rfl (fun _ _ => rfl) (fun _ _ => rfl) (fun i hi => Or.inl (put_ne _ _ (hne i hi)))⟩
          | cons x3 ws0 =>
            simp only [List.cons_append, List.cons.injEq] at hc
            obtain ⟨rfl, hc⟩ := hc
            simp only [applyM, Wr.apply, if_pos hnn, Res.ok_bind] at hd
            have g3 := grow_frame (P := P) (m' := { m0 with pool := p, key := put m0.key nn k, val := put m0.val nn v }) hs2 rfl (fun _ _ => rfl) (fun _ _ => rfl)
              (fun i hi => Or.inl (put_ne _ _ (hne i hi)))
            have hs3 := g3.shape
            cases ws0 with
            | nil =>
              simp only [List.nil_append, List.cons.injEq] at hc
              obtain ⟨rfl, _⟩ := hc
              cases hd
              simp only [Wr.apply, if_pos hnn, Res.ok.injEq] at ha
              subst ha
              exact ⟨hs3, f, grow_frame hs3 rfl (fun i hi => put_ne _ _ (hne i hi)) (fun _ _ => rfl) (fun _ _ => Or.inl rfl)⟩
            | cons x4 ws0 =>
              simp only [List.cons_append, List.cons.injEq] at hc
              obtain ⟨rfl, hc⟩ := hc
              simp only [applyM, Wr.apply, if_pos hnn, Res.ok_bind] at hd
              have g4 := grow_frame (P := P) (m' := { m0 with pool := p, key := put m0.key nn k, val := put m0.val nn v, next := put m0.next nn NONE }) hs3 rfl
                (fun i hi => put_ne _ _ (hne i hi)) (fun _ _ => rfl) (fun _ _ => Or.inl rfl)
              have hs4 := g4.shape
              cases ws0 with
              | cons x5 ws0 => simp at hc
              | nil =>
                simp only [List.nil_append, List.cons.injEq] at hc
                obtain ⟨rfl, _⟩ := hc
                cases hd
                refine ⟨hs4, put f (k.toNat % H) (f (k.toNat % H) ++ [nn]), ?_⟩
                have hkk : ∀ i ∈ nodes H f, put m0.key nn k i ≠ put m0.key nn k nn := by
                  intro i hi
                  rw [put_ne _ _ (hne i hi), put_eq]
                  exact hno i hi
                rcases hlast with ⟨rfl, hnil⟩ | ⟨xs, lst, hl, rfl⟩
                · simp only [Wr.apply, if_pos hb, Res.ok.injEq] at ha
                  subst ha
                  refine grow_link hs4 hb hnn hnew (by simp only [put_eq]) hkk (by simp only [put_eq]; exact hP) rfl rfl ?_ ?_
                  · simp only [put_eq, hnil]
                    exact ⟨rfl, by simp only [put_eq]; rfl⟩
                  · intro c hc hcb
                    simp only [put_ne _ _ hcb]
                    exact hs4.chain c hc
                · have hlst : lst ∈ nodes H f := mem_nodes.mpr ⟨_, hb, by rw [hl]; simp⟩
                  simp only [Wr.apply, if_pos (hs.lt _ hlst), Res.ok.injEq] at ha
                  subst ha
                  refine grow_link hs4 hb hnn hnew (by simp only [put_eq]) hkk (by simp only [put_eq]; exact hP) rfl rfl ?_ ?_
                  · have hch := h.chain _ hb
                    have hfn := h.fb_nodup hb
                    rw [hl] at hch hfn ⊢
                    rw [List.nodup_append] at hfn
                    refine Chain_snoc hch (hne _ hlst) ?_ ?_
                    · intro hx; exact hnew (mem_nodes.mpr ⟨_, hb, by rw [hl]; simp [hx]⟩)
                    · intro hx; exact hfn.2.2 lst hx lst (by simp) rfl
                  · intro c hc hcb
                    refine Chain_frame (fun i hi => ?_) (hs4.chain c hc)
                    refine put_ne _ _ ?_
                    rintro rfl
                    exact h.disj hb hc hcb (by rw [hl]; simp) hi

end Verif.MapIter
