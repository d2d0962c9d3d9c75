import Verif.MapSweep.Lemmas
/-
  Property C187: a process that changes the map inside its own iteration.
-/
set_option linter.unusedVariables false
set_option linter.unusedSimpArgs false

namespace Verif.MapSweep

open Verif.ShmPool Verif.ShmMap

variable {V : Type} {N H : Nat}

/-- the key and value in a node -/
def kv (m : Map V) (i : Nat) : UInt64 × V := (m.key i, m.val i)

/-- the node's entry satisfies `p` -/
def hit (p : UInt64 → V → Bool) (m : Map V) (i : Nat) : Bool := p (m.key i) (m.val i)

/-- where the iterator goes from the last node of a chain or from an erased node -/
theorem incr_end {m : Map V} {b x : Nat} (hx : x < N) (hn : m.next x = NONE) : incr N H m (b, x) = .ok (scan m (H - (b + 1)) (b + 1)) := by
  rw [incr, if_pos hx, if_neg (by rw [hn]; simp)]

theorem not_end {b x : Nat} (hN : N < NONE) (hx : x < N) : ¬ ((b, x) : Iter) = end_ := by
  intro hh
  have : x = NONE := congrArg Prod.snd hh
  omega

section ahead

theorem eraseIf_no {p : UInt64 → V → Bool} {m : Map V} {k : UInt64} {v : V} (h : p k v = false) : eraseIf N H p m k v = .ok m := by
  unfold eraseIf; rw [if_neg (by rw [h]; simp)]

theorem eraseIf_yes (hN : N < NONE) (hH : 0 < H) {m : Map V} {f : Nat → List Nat} {fr : List Nat} {lk : Nat} {l : ShmMap.Spec.Bindings V}
    (h : Rep N H m f fr lk l) {p : UInt64 → V → Bool} {b i : Nat} (hb : b < H) (hi : i ∈ f b) (hp : hit p m i = true) :
    ∃ m' fr', eraseIf N H p m (m.key i) (m.val i) = .ok m' ∧ Rep N H m' (put f b ((f b).erase i)) fr' lk (ShmMap.Spec.unbind l (m.key i)) ∧
      m'.key = m.key ∧ m'.val = m.val ∧ m'.next i = NONE := by
  obtain ⟨m', fr', e, hr, h1, h2, h3⟩ := erase_at hN hH h hb hi
  refine ⟨m', fr', ?_, hr, h1, h2, h3⟩
  unfold eraseIf
  unfold hit at hp
  rw [if_pos hp, e, Res.ok_bind]

theorem sweepAhead_spec (hN : N < NONE) (hH : 0 < H) (p : UInt64 → V → Bool) : ∀ fuel (m : Map V) (f : Nat → List Nat) (fr : List Nat) (lk : Nat) (l : ShmMap.Spec.Bindings V) (b x : Nat) (xs ys : List Nat),
    Rep N H m f fr lk l → b < H → f b = xs ++ x :: ys → (x :: ys).length + (rest H f (b + 1)).length ≤ fuel →
    ∃ m' f' fr' l', sweepAhead N H p fuel m (b, x) = .ok (m', (x :: ys ++ rest H f (b + 1)).map (kv m)) ∧ Rep N H m' f' fr' lk l' ∧
      m'.key = m.key ∧ m'.val = m.val ∧ (∀ c, c < b → f' c = f c) ∧ f' b = xs ++ (x :: ys).filter (fun i => !hit p m i) ∧
      ∀ c, b < c → c < H → f' c = (f c).filter (fun i => !hit p m i) := by
  intro fuel
  induction fuel with
  | zero => intro m f fr lk l b x xs ys _ _ _ hf; simp at hf
  | succ fuel ih =>
    intro m f fr lk l b x xs ys h hb hf hfuel
    have hxm : x ∈ f b := by rw [hf]; simp
    have hxN : x < N := h.lt (mem_nodes.mpr ⟨b, hb, hxm⟩)
    have hch : Chain m.next x (x :: ys) := Chain_tail (hf ▸ h.chain b hb)
    -- the entry is erased or not: the chains afterwards
    obtain ⟨m1, f1, fr1, l1, e1, r1, k1, v1, hf1b, hf1⟩ : ∃ m1 f1 fr1 l1, eraseIf N H p m (m.key x) (m.val x) = .ok m1 ∧ Rep N H m1 f1 fr1 lk l1 ∧
        m1.key = m.key ∧ m1.val = m.val ∧ f1 b = (xs ++ [x].filter (fun i => !hit p m i)) ++ ys ∧ ∀ c, c ≠ b → f1 c = f c := by
      cases hp : hit p m x with
      | false => exact ⟨m, f, fr, l, eraseIf_no hp, h, rfl, rfl, by rw [hf]; simp [hp], fun _ _ => rfl⟩
      | true =>
        obtain ⟨m', fr', e, hr, h1, h2, _⟩ := eraseIf_yes hN hH h hb hxm hp
        refine ⟨m', _, fr', _, e, hr, h1, h2, ?_, fun c hc => put_ne _ _ hc⟩
        have hix : x ∉ xs := by
          have := h.fb_nodup hb
          rw [hf, List.nodup_append] at this
          exact fun hh => this.2.2 x hh x (by simp) rfl
        rw [put_eq, hf, erase_mid hix]
        simp [hp]
    have hhit : hit p m1 = hit p m := by unfold hit; rw [k1, v1]
    have hkv : kv m1 = kv m := by unfold kv; rw [k1, v1]
    have hrest : rest H f1 (b + 1) = rest H f (b + 1) := rest_congr fun c hc _ => hf1 c (by omega)
    rw [sweepAhead, if_neg (not_end hN hxN), if_pos hxN]
    dsimp only
    cases ys with
    | cons y ys =>
      have hn : m.next x = y := hch.2.1
      have hyN : y < N := h.lt (mem_nodes.mpr ⟨b, hb, by rw [hf]; simp⟩)
      have hi : incr N H m (b, x) = .ok (b, y) := by
        rw [incr, if_pos hxN]; dsimp only; rw [if_pos (by rw [hn]; omega), hn]
      rw [hi, Res.ok_bind, e1, Res.ok_bind]
      obtain ⟨m2, f2, fr2, l2, e2, r2, k2, v2, q1, q2, q3⟩ := ih m1 f1 fr1 lk l1 b y _ ys r1 hb hf1b
        (by rw [hrest]; simp only [List.length_cons] at hfuel ⊢; omega)
      rw [hhit] at q2 q3
      rw [hkv, hrest] at e2
      refine ⟨m2, f2, fr2, l2, by rw [e2, Res.ok_bind]; rfl, r2, k2.trans k1, v2.trans v1, ?_, ?_, ?_⟩
      · intro c hc; rw [q1 c hc, hf1 c (by omega)]
      · rw [q2]; rw [List.append_assoc, ← List.filter_append]; rfl
      · intro c hc hcH; rw [q3 c hc hcH, hf1 c (by omega)]
    | nil =>
      have hn : m.next x = NONE := hch.2
      rw [incr_end hxN hn, Res.ok_bind, e1, Res.ok_bind]
      rcases scan_exact hN h (H - (b + 1)) (b + 1) (by omega) with ⟨h0, h1, h2⟩ | ⟨c, y, ys, hbc, hcH, hfc, hskip, h1, h2⟩
      · rw [h2, h1]
        have hz : sweepAhead N H p fuel m1 (NONE, NONE) = .ok (m1, []) := by cases fuel <;> rfl
        rw [hz, Res.ok_bind]
        refine ⟨m1, f1, fr1, l1, rfl, r1, k1, v1, fun c hc => hf1 c (by omega), by rw [hf1b]; simp, ?_⟩
        intro c hc hcH
        rw [hf1 c (by omega), h0 c (by omega) hcH]; rfl
      · rw [h2, h1]
        have hrc : rest H f1 (c + 1) = rest H f (c + 1) := rest_congr fun d hd _ => hf1 d (by omega)
        obtain ⟨m2, f2, fr2, l2, e2, r2, k2, v2, q1, q2, q3⟩ := ih m1 f1 fr1 lk l1 c y [] ys r1 hcH (by rw [hf1 c (by omega), hfc]; rfl)
          (by rw [hrc]; rw [h1] at hfuel; simp only [List.length_append, List.length_cons, List.length_nil] at hfuel ⊢; omega)
        rw [hhit] at q2 q3
        rw [hkv, hrc] at e2
        refine ⟨m2, f2, fr2, l2, by rw [e2, Res.ok_bind]; rfl, r2, k2.trans k1, v2.trans v1, ?_, ?_, ?_⟩
        · intro d hd; rw [q1 d (by omega), hf1 d (by omega)]
        · rw [q1 b hbc, hf1b]; simp
        · intro d hd hdH
          by_cases hdc : d < c
          · rw [q1 d hdc, hf1 d (by omega), hskip d hd hdc]; rfl
          · by_cases hde : d = c
            · subst hde; rw [q2, hfc]; rfl
            · rw [q3 d (by omega) hdH, hf1 d (by omega)]

end ahead

theorem sweepHere_spec (hN : N < NONE) (hH : 0 < H) (p : UInt64 → V → Bool) : ∀ fuel (m : Map V) (f : Nat → List Nat) (fr : List Nat) (lk : Nat) (l : ShmMap.Spec.Bindings V) (b x : Nat) (xs ys : List Nat),
    Rep N H m f fr lk l → b < H → f b = xs ++ x :: ys → (x :: ys).length + (rest H f (b + 1)).length ≤ fuel →
    ∃ m' f' fr' l', sweepHere N H p fuel m (b, x) = .ok (m', (Spec.upto (hit p m) (x :: ys) ++ rest H (fun c => Spec.upto (hit p m) (f c)) (b + 1)).map (kv m)) ∧
      Rep N H m' f' fr' lk l' ∧ m'.key = m.key ∧ m'.val = m.val ∧ (∀ c, c < b → f' c = f c) ∧ f' b = xs ++ (x :: ys).eraseP (hit p m) ∧
      ∀ c, b < c → c < H → f' c = (f c).eraseP (hit p m) := by
  intro fuel
  induction fuel with
  | zero => intro m f fr lk l b x xs ys _ _ _ hf; simp at hf
  | succ fuel ih =>
    intro m f fr lk l b x xs ys h hb hf hfuel
    have hxm : x ∈ f b := by rw [hf]; simp
    have hxN : x < N := h.lt (mem_nodes.mpr ⟨b, hb, hxm⟩)
    have hch : Chain m.next x (x :: ys) := Chain_tail (hf ▸ h.chain b hb)
    -- leaving the bucket
    have leave : ∀ (m1 : Map V) f1 fr1 l1, Rep N H m1 f1 fr1 lk l1 → m1.key = m.key → m1.val = m.val → (∀ c, c ≠ b → f1 c = f c) →
        ∃ m' f' fr' l', sweepHere N H p fuel m1 (scan m1 (H - (b + 1)) (b + 1)) = .ok (m', (rest H (fun c => Spec.upto (hit p m) (f c)) (b + 1)).map (kv m)) ∧
          Rep N H m' f' fr' lk l' ∧ m'.key = m.key ∧ m'.val = m.val ∧ (∀ c, c < b → f' c = f c) ∧ f' b = f1 b ∧
          ∀ c, b < c → c < H → f' c = (f c).eraseP (hit p m) := by
      intro m1 f1 fr1 l1 r1 k1 v1 hf1
      have hhit : hit p m1 = hit p m := by unfold hit; rw [k1, v1]
      have hkv : kv m1 = kv m := by unfold kv; rw [k1, v1]
      rcases scan_exact hN r1 (H - (b + 1)) (b + 1) (by omega) with ⟨h0, h1, h2⟩ | ⟨c, y, ys', hbc, hcH, hfc, hskip, h1, h2⟩
      · rw [h2]
        have hz : sweepHere N H p fuel m1 (NONE, NONE) = .ok (m1, []) := by cases fuel <;> rfl
        have hr0 : rest H (fun c => Spec.upto (hit p m) (f c)) (b + 1) = [] := by
          rw [rest_skip (Nat.le_refl H) (H - (b + 1)) (b + 1) (by omega) (fun d h1 h2 => by
            show Spec.upto _ (f d) = []
            rw [← hf1 d (by omega), h0 d h1 h2]; rfl), rest_end]
        rw [hz, hr0]
        refine ⟨m1, f1, fr1, l1, rfl, r1, k1, v1, fun c hc => hf1 c (by omega), rfl, ?_⟩
        intro c hc hcH
        rw [← hf1 c (by omega), h0 c (by omega) hcH]; rfl
      · rw [h2]
        have hfc' : f c = y :: ys' := by rw [← hf1 c (by omega), hfc]
        have hr1 : rest H f (b + 1) = rest H f1 (b + 1) := rest_congr fun d hd _ => (hf1 d (by omega)).symm
        have hru : rest H (fun c => Spec.upto (hit p m) (f c)) (b + 1) = Spec.upto (hit p m) (y :: ys') ++ rest H (fun c => Spec.upto (hit p m) (f c)) (c + 1) := by
          rw [rest_skip (c := c) (by omega) (c - (b + 1)) (b + 1) (by omega) (fun d h1 h2 => by
            show Spec.upto _ (f d) = []
            rw [← hf1 d (by omega), hskip d h1 h2]; rfl), rest_cons hcH, hfc']
        have hrc : rest H (fun d => Spec.upto (hit p m) (f1 d)) (c + 1) = rest H (fun d => Spec.upto (hit p m) (f d)) (c + 1) :=
          rest_congr fun d hd _ => by
            show Spec.upto _ (f1 d) = Spec.upto _ (f d)
            rw [hf1 d (by omega)]
        obtain ⟨m2, f2, fr2, l2, e2, r2, k2, v2, q1, q2, q3⟩ := ih m1 f1 fr1 lk l1 c y [] ys' r1 hcH (by rw [hfc]; rfl)
          (by rw [hr1, h1] at hfuel; simp only [List.length_append, List.length_cons] at hfuel ⊢; omega)
        rw [hhit] at q2 q3
        rw [hkv, hhit, hrc] at e2
        refine ⟨m2, f2, fr2, l2, by rw [e2, hru], r2, k2.trans k1, v2.trans v1, ?_, q1 b (by omega), ?_⟩
        · intro d hd; rw [q1 d (by omega), hf1 d (by omega)]
        · intro d hd hdH
          by_cases hdc : d < c
          · rw [q1 d hdc, ← hf1 d (by omega), hskip d (by omega) hdc]; rfl
          · by_cases hde : d = c
            · subst hde; rw [q2, hfc']; rfl
            · rw [q3 d (by omega) hdH, hf1 d (by omega)]
    rw [sweepHere, if_neg (not_end hN hxN), if_pos hxN]
    dsimp only
    cases hp : hit p m x with
    | true =>
      obtain ⟨m1, fr1, e1, r1, k1, v1, hn⟩ := eraseIf_yes hN hH h hb hxm hp
      rw [e1, Res.ok_bind, incr_end hxN hn, Res.ok_bind]
      obtain ⟨m2, f2, fr2, l2, e2, r2, k2, v2, q1, q2, q3⟩ := leave m1 _ fr1 _ r1 k1 v1 (fun c hc => put_ne _ _ hc)
      have hix : x ∉ xs := by
        have := h.fb_nodup hb
        rw [hf, List.nodup_append] at this
        exact fun hh => this.2.2 x hh x (by simp) rfl
      refine ⟨m2, f2, fr2, l2, ?_, r2, k2, v2, q1, ?_, q3⟩
      · rw [e2, Res.ok_bind, Spec.upto, if_pos hp]; rfl
      · rw [q2, put_eq, hf, erase_mid hix, List.eraseP_cons_of_pos hp]
    | false =>
      have hu : Spec.upto (hit p m) (x :: ys) = x :: Spec.upto (hit p m) ys := by rw [Spec.upto, if_neg (by rw [hp]; simp)]
      have he : (x :: ys).eraseP (hit p m) = x :: ys.eraseP (hit p m) := List.eraseP_cons_of_neg (by rw [hp]; simp)
      rw [eraseIf_no hp, Res.ok_bind, hu, he]
      cases ys with
      | nil =>
        have hn : m.next x = NONE := hch.2
        rw [incr_end hxN hn, Res.ok_bind]
        obtain ⟨m2, f2, fr2, l2, e2, r2, k2, v2, q1, q2, q3⟩ := leave m f fr l h rfl rfl (fun _ _ => rfl)
        exact ⟨m2, f2, fr2, l2, by rw [e2, Res.ok_bind]; rfl, r2, k2, v2, q1, by rw [q2, hf]; rfl, q3⟩
      | cons y ys =>
        have hn : m.next x = y := hch.2.1
        have hyN : y < N := h.lt (mem_nodes.mpr ⟨b, hb, by rw [hf]; simp⟩)
        have hi : incr N H m (b, x) = .ok (b, y) := by
          rw [incr, if_pos hxN]; dsimp only; rw [if_pos (by rw [hn]; omega), hn]
        rw [hi, Res.ok_bind]
        obtain ⟨m2, f2, fr2, l2, e2, r2, k2, v2, q1, q2, q3⟩ := ih m f fr lk l b y (xs ++ [x]) ys h hb (by rw [hf]; simp)
          (by simp only [List.length_cons] at hfuel ⊢; omega)
        exact ⟨m2, f2, fr2, l2, by rw [e2, Res.ok_bind]; rfl, r2, k2, v2, q1, by rw [q2]; simp, q3⟩

theorem sweepSet_spec (hN : N < NONE) (hH : 0 < H) (g : UInt64 → V → V) : ∀ fuel (m : Map V) (f : Nat → List Nat) (fr : List Nat) (lk : Nat) (l : ShmMap.Spec.Bindings V) (b x : Nat) (xs ys : List Nat),
    Rep N H m f fr lk l → b < H → f b = xs ++ x :: ys → (x :: ys).length + (rest H f (b + 1)).length ≤ fuel →
    ∃ w, sweepSet N H g fuel m (b, x) = .ok ({ m with val := w }, (x :: ys ++ rest H f (b + 1)).map (kv m)) ∧
      ∀ i, w i = if i ∈ x :: ys ++ rest H f (b + 1) then g (m.key i) (m.val i) else m.val i := by
  intro fuel
  induction fuel with
  | zero => intro m f fr lk l b x xs ys _ _ _ hf; simp at hf
  | succ fuel ih =>
    intro m f fr lk l b x xs ys h hb hf hfuel
    have hxm : x ∈ f b := by rw [hf]; simp
    have hxn : x ∈ nodes H f := mem_nodes.mpr ⟨b, hb, hxm⟩
    have hxN : x < N := h.lt hxn
    have hch : Chain m.next x (x :: ys) := Chain_tail (hf ▸ h.chain b hb)
    have hnd : x ∉ ys ++ rest H f (b + 1) := by
      have hn := h.nodup
      rw [nodes_split hb, hf] at hn
      have h2 := (List.nodup_append.mp hn).2.1
      rw [show rest H f (b + 1) = (List.range' (b + 1) (H - (b + 1))).flatMap f from rfl]
      rw [List.append_assoc] at h2
      have h3 := (List.nodup_append.mp h2).2.1
      rw [List.cons_append, List.nodup_cons] at h3
      exact h3.1
    let m1 : Map V := { m with val := put m.val x (g (m.key x) (m.val x)) }
    have e1 : ShmMap.insert N H m (m.key x) (g (m.key x) (m.val x)) = .ok (m1, true) := insert_at hN hH h hxn _
    have r1 : Rep N H m1 f fr lk (ShmMap.Spec.bind l (m.key x) (g (m.key x) (m.val x))) := rep_val h hxn rfl
    have hkv : ∀ {zs : List Nat}, x ∉ zs → zs.map (kv m1) = zs.map (kv m) := by
      intro zs hz
      refine List.map_congr_left fun i hi => ?_
      show (m.key i, put m.val x _ i) = _
      rw [put_ne _ _ (show i ≠ x from fun hh => hz (hh ▸ hi))]; rfl
    have hw : ∀ {zs : List Nat} {w : Nat → V}, x ∉ zs → (∀ i, w i = if i ∈ zs then g (m1.key i) (m1.val i) else m1.val i) →
        ∀ i, w i = if i ∈ x :: zs then g (m.key i) (m.val i) else m.val i := by
      intro zs w hz hw i
      rw [hw i]
      show (if i ∈ zs then g (m.key i) (put m.val x _ i) else put m.val x _ i) = _
      by_cases hix : i = x
      · subst hix; rw [if_neg hz, put_eq, if_pos (by simp)]
      · rw [put_ne _ _ hix]
        by_cases hiz : i ∈ zs
        · rw [if_pos hiz, if_pos (by simp [hiz])]
        · rw [if_neg hiz, if_neg (by simp [hix, hiz])]
    rw [sweepSet, if_neg (not_end hN hxN), if_pos hxN]
    dsimp only
    rw [e1, Res.ok_bind]
    dsimp only
    cases ys with
    | cons y ys =>
      have hn : m.next x = y := hch.2.1
      have hyN : y < N := h.lt (mem_nodes.mpr ⟨b, hb, by rw [hf]; simp⟩)
      have hi : incr N H m1 (b, x) = .ok (b, y) := by
        show incr N H { m with val := _ } (b, x) = _
        rw [incr, if_pos hxN]; dsimp only; rw [if_pos (by rw [hn]; omega), hn]
      rw [hi, Res.ok_bind]
      obtain ⟨w, e2, hw2⟩ := ih m1 f fr lk _ b y (xs ++ [x]) ys r1 hb (by rw [hf]; simp)
        (by simp only [List.length_cons] at hfuel ⊢; omega)
      rw [hkv hnd] at e2
      exact ⟨w, by rw [e2, Res.ok_bind]; rfl, hw hnd hw2⟩
    | nil =>
      have hn : m1.next x = NONE := hch.2
      rw [incr_end hxN hn, Res.ok_bind]
      rcases scan_exact hN r1 (H - (b + 1)) (b + 1) (by omega) with ⟨h0, h1, h2⟩ | ⟨c, y, ys', hbc, hcH, hfc, hskip, h1, h2⟩
      · rw [h2, h1]
        have hz : sweepSet N H g fuel m1 (NONE, NONE) = .ok (m1, []) := by cases fuel <;> rfl
        rw [hz, Res.ok_bind]
        exact ⟨_, rfl, hw (zs := []) (by simp) (fun i => by simp [m1])⟩
      · rw [h2]
        rw [List.nil_append, h1] at hnd
        obtain ⟨w, e2, hw2⟩ := ih m1 f fr lk _ c y [] ys' r1 hcH (by rw [hfc]; rfl)
          (by rw [h1] at hfuel; simp only [List.length_append, List.length_cons, List.length_nil] at hfuel ⊢; omega)
        rw [hkv hnd] at e2
        rw [h1]
        exact ⟨w, by rw [e2, Res.ok_bind]; rfl, hw hnd hw2⟩

/-! ## from begin() -/

/-- what later operations and a later iteration show -/
theorem after (hN : N < NONE) (hH : 0 < H) {m : Map V} {f : Nat → List Nat} {fr : List Nat} {l : ShmMap.Spec.Bindings V} (h : Rep N H m f fr 0 l) :
    (∃ l2, iterate N H m (capacity N) (begin_ H m) = .ok l2 ∧ l2.Perm l) ∧
    ∀ ops, ∃ m', run N H m ops = .ok (m', (ShmMap.Spec.run N l ops).2) := by
  refine ⟨⟨_, begin_spec hN h, h.abs.symm⟩, fun ops => ?_⟩
  obtain ⟨m', _, _, e, _⟩ := run_rep hN hH ops h
  exact ⟨m', e⟩

theorem ahead_rep (hN : N < NONE) (hH : 0 < H) (p : UInt64 → V → Bool) {m : Map V} {f : Nat → List Nat} {fr : List Nat} {l : ShmMap.Spec.Bindings V} (h : Rep N H m f fr 0 l) :
    ∃ m' f' fr', sweepAhead N H p (capacity N) m (begin_ H m) = .ok (m', (nodes H f).map (kv m)) ∧ Rep N H m' f' fr' 0 (Spec.keep p l) := by
  have hlen := count_le h.pool
  have hk : (Spec.keep p l).Perm (Spec.keep p ((nodes H f).map (kv m))) := h.abs.filter _
  unfold begin_ capacity
  rcases scan_exact hN h H 0 (by omega) with ⟨h0, h1, h2⟩ | ⟨c, y, ys, _, hcH, hfc, hskip, h1, h2⟩
  · rw [h2]
    rw [rest_zero] at h1
    have hz : sweepAhead N H p N m (NONE, NONE) = .ok (m, []) := by cases N <;> rfl
    rw [h1] at hk ⊢
    exact ⟨m, f, fr, hz, rep_content h (by rw [h1]; exact hk)⟩
  · rw [h2]
    rw [rest_zero] at h1
    obtain ⟨m2, f2, fr2, l2, e2, r2, k2, v2, q1, q2, q3⟩ := sweepAhead_spec hN hH p N m f fr 0 l c y [] ys h hcH (by rw [hfc]; rfl)
      (by rw [h1] at hlen; simp only [List.length_append] at hlen; omega)
    refine ⟨m2, f2, fr2, by rw [e2, h1], rep_content r2 ?_⟩
    have hn : nodes H f2 = (nodes H f).filter (fun i => !hit p m i) := by
      have : nodes H f2 = nodes H (fun b => (f b).filter (fun i => !hit p m i)) := nodes_congr fun b hb => by
        by_cases hbc : b < c
        · rw [q1 b hbc, hskip b (Nat.zero_le _) hbc]; rfl
        · by_cases hbe : b = c
          · subst hbe; rw [q2, hfc]; rfl
          · exact q3 b (by omega) hb
      rw [this]
      unfold nodes
      rw [List.filter_flatMap]
    rw [hn, k2, v2]
    refine hk.trans ?_
    unfold Spec.keep
    rw [List.filter_map]
    exact List.Perm.refl _

theorem set_rep (hN : N < NONE) (hH : 0 < H) (g : UInt64 → V → V) {m : Map V} {f : Nat → List Nat} {fr : List Nat} {l : ShmMap.Spec.Bindings V} (h : Rep N H m f fr 0 l) :
    ∃ m' f' fr', sweepSet N H g (capacity N) m (begin_ H m) = .ok (m', (nodes H f).map (kv m)) ∧ Rep N H m' f' fr' 0 (Spec.update g l) := by
  have hlen := count_le h.pool
  have hk : (Spec.update g l).Perm (Spec.update g ((nodes H f).map (kv m))) := h.abs.map _
  unfold begin_ capacity
  rcases scan_exact hN h H 0 (by omega) with ⟨h0, h1, h2⟩ | ⟨c, y, ys, _, hcH, hfc, hskip, h1, h2⟩
  · rw [h2]
    rw [rest_zero] at h1
    have hz : sweepSet N H g N m (NONE, NONE) = .ok (m, []) := by cases N <;> rfl
    rw [h1] at hk ⊢
    exact ⟨m, f, fr, hz, rep_content h (by rw [h1]; exact hk)⟩
  · rw [h2]
    rw [rest_zero] at h1
    obtain ⟨w, e2, hw⟩ := sweepSet_spec hN hH g N m f fr 0 l c y [] ys h hcH (by rw [hfc]; rfl)
      (by rw [h1] at hlen; simp only [List.length_append] at hlen; omega)
    refine ⟨{ m with val := w }, f, fr, by rw [e2, h1], ⟨h.chain, h.bucket, h.keys, h.pool, hk.trans ?_⟩⟩
    unfold Spec.update
    rw [List.map_map]
    refine List.Perm.of_eq (List.map_congr_left fun i hi => ?_)
    rw [h1] at hi
    show (m.key i, g (m.key i) (m.val i)) = (m.key i, w i)
    rw [hw i, if_pos hi]

theorem here_rep (hN : N < NONE) (hH : 0 < H) (p : UInt64 → V → Bool) {m : Map V} {f : Nat → List Nat} {fr : List Nat} {l : ShmMap.Spec.Bindings V} (h : Rep N H m f fr 0 l) :
    ∃ m' f' fr', sweepHere N H p (capacity N) m (begin_ H m) = .ok (m', (nodes H (fun c => Spec.upto (hit p m) (f c))).map (kv m)) ∧
      Rep N H m' f' fr' 0 ((nodes H (fun c => (f c).eraseP (hit p m))).map (kv m)) := by
  have hlen := count_le h.pool
  unfold begin_ capacity
  rcases scan_exact hN h H 0 (by omega) with ⟨h0, h1, h2⟩ | ⟨c, y, ys, _, hcH, hfc, hskip, h1, h2⟩
  · rw [h2]
    rw [rest_zero] at h1
    have hz : sweepHere N H p N m (NONE, NONE) = .ok (m, []) := by cases N <;> rfl
    have hu : nodes H (fun c => Spec.upto (hit p m) (f c)) = nodes H f := nodes_congr fun b hb => by
      rw [h0 b (Nat.zero_le _) hb]; rfl
    have he : nodes H (fun c => (f c).eraseP (hit p m)) = nodes H f := nodes_congr fun b hb => by
      rw [h0 b (Nat.zero_le _) hb]; rfl
    rw [hu, he]
    exact ⟨m, f, fr, by rw [hz, h1]; rfl, rep_content h (List.Perm.refl _)⟩
  · rw [h2]
    rw [rest_zero] at h1
    obtain ⟨m2, f2, fr2, l2, e2, r2, k2, v2, q1, q2, q3⟩ := sweepHere_spec hN hH p N m f fr 0 l c y [] ys h hcH (by rw [hfc]; rfl)
      (by rw [h1] at hlen; simp only [List.length_append] at hlen; omega)
    have hu : nodes H (fun c => Spec.upto (hit p m) (f c)) = Spec.upto (hit p m) (y :: ys) ++ rest H (fun c => Spec.upto (hit p m) (f c)) (c + 1) := by
      rw [← rest_zero, rest_skip (c := c) (by omega) c 0 (by omega) (fun d h1 h2 => by
        show Spec.upto _ (f d) = []
        rw [hskip d h1 h2]; rfl), rest_cons hcH, hfc]
    have he : nodes H f2 = nodes H (fun c => (f c).eraseP (hit p m)) := nodes_congr fun b hb => by
      by_cases hbc : b < c
      · rw [q1 b hbc, hskip b (Nat.zero_le _) hbc]; rfl
      · by_cases hbe : b = c
        · subst hbe; rw [q2, hfc]; rfl
        · exact q3 b (by omega) hb
    refine ⟨m2, f2, fr2, by rw [e2, hu], rep_content r2 ?_⟩
    rw [he, k2, v2]
    exact List.Perm.refl _

theorem run_init (hN : N < NONE) (hH : 0 < H) (m : Map V) (hm : Init H m) (ops : List (Op V)) (m' : Map V) (rs : List (Ret V))
    (hr : run N H m ops = .ok (m', rs)) : ∃ f fr, Rep N H m' f fr 0 (ShmMap.Spec.run N [] ops).1 := by
  obtain ⟨m1, f, fr, e, h⟩ := run_rep hN hH ops (rep_init (N := N) (H := H) m hm.1 hm.2.1 hm.2.2)
  rw [hr] at e
  simp only [Res.ok.injEq, Prod.mk.injEq] at e
  obtain ⟨rfl, rfl⟩ := e
  exact ⟨f, fr, h⟩

/-- **C187, advance before erasing.** After any history, for every condition `p`: the loop that advances the iterator before it erases ends
within `capacity()` rounds, sees every entry exactly once, and afterwards the map behaves for ever as the map that keeps exactly the entries
that do not satisfy `p` (`Spec.keep`), in every operation and iteration. -/
theorem C187_ahead_partial (hN : N < 2 ^ 31) (hH : 0 < H) (m : Map V) (hm : Init H m) (ops : List (Op V)) (m' : Map V) (rs : List (Ret V))
    (hr : run N H m ops = .ok (m', rs)) (p : UInt64 → V → Bool) :
    ∃ m'' l, sweepAhead N H p (capacity N) m' (begin_ H m') = .ok (m'', l) ∧ (l.map (·.1)).Nodup ∧ l.Perm (ShmMap.Spec.run N [] ops).1 ∧
      (∃ l2, iterate N H m'' (capacity N) (begin_ H m'') = .ok l2 ∧ l2.Perm (Spec.keep p (ShmMap.Spec.run N [] ops).1)) ∧
      ∀ ops2, ∃ m3, run N H m'' ops2 = .ok (m3, (ShmMap.Spec.run N (Spec.keep p (ShmMap.Spec.run N [] ops).1) ops2).2) := by
  have hN' : N < NONE := by unfold NONE; omega
  obtain ⟨f, fr, h⟩ := run_init hN' hH m hm ops m' rs hr
  obtain ⟨m2, f2, fr2, e, h2⟩ := ahead_rep hN' hH p h
  have ha := after hN' hH h2
  exact ⟨m2, _, e, by rw [List.map_map]; exact h.keys, h.abs.symm, ha.1, ha.2⟩

/-- **C187, replacing values.** The loop that stores a new value for the current key ends within `capacity()` rounds, sees every entry exactly
once with the value it had before the loop, and afterwards the map behaves for ever as the map with every value replaced. -/
theorem C187_set_partial (hN : N < 2 ^ 31) (hH : 0 < H) (m : Map V) (hm : Init H m) (ops : List (Op V)) (m' : Map V) (rs : List (Ret V))
    (hr : run N H m ops = .ok (m', rs)) (g : UInt64 → V → V) :
    ∃ m'' l, sweepSet N H g (capacity N) m' (begin_ H m') = .ok (m'', l) ∧ (l.map (·.1)).Nodup ∧ l.Perm (ShmMap.Spec.run N [] ops).1 ∧
      (∃ l2, iterate N H m'' (capacity N) (begin_ H m'') = .ok l2 ∧ l2.Perm (Spec.update g (ShmMap.Spec.run N [] ops).1)) ∧
      ∀ ops2, ∃ m3, run N H m'' ops2 = .ok (m3, (ShmMap.Spec.run N (Spec.update g (ShmMap.Spec.run N [] ops).1) ops2).2) := by
  have hN' : N < NONE := by unfold NONE; omega
  obtain ⟨f, fr, h⟩ := run_init hN' hH m hm ops m' rs hr
  obtain ⟨m2, f2, fr2, e, h2⟩ := set_rep hN' hH g h
  have ha := after hN' hH h2
  exact ⟨m2, _, e, by rw [List.map_map]; exact h.keys, h.abs.symm, ha.1, ha.2⟩

theorem upto_map {α β : Type} (q : β → Bool) (g : α → β) : ∀ l : List α, Spec.upto q (l.map g) = (Spec.upto (fun a => q (g a)) l).map g := by
  intro l
  induction l with
  | nil => rfl
  | cons x xs ih =>
    rw [List.map_cons, Spec.upto, Spec.upto]
    split
    · rfl
    · rw [ih]; rfl

theorem inBucket_nodes {m : Map V} {f : Nat → List Nat} {fr : List Nat} {lk : Nat} {l : ShmMap.Spec.Bindings V} (h : Rep N H m f fr lk l)
    {b : Nat} (hb : b < H) : Spec.inBucket H b ((nodes H f).map (kv m)) = (f b).map (kv m) := by
  unfold Spec.inBucket
  rw [List.filter_map]
  congr 1
  unfold nodes
  rw [List.filter_flatMap]
  have key : ∀ c, c < H → (f c).filter ((fun e : UInt64 × V => decide (e.1.toNat % H = b)) ∘ kv m) = if c = b then f c else [] := by
    intro c hc
    by_cases hcb : c = b
    · rw [if_pos hcb]
      refine List.filter_eq_self.mpr fun i hi => ?_
      show decide ((m.key i).toNat % H = b) = true
      rw [h.bucket c hc i hi, hcb]; simp
    · rw [if_neg hcb]
      refine List.filter_eq_nil_iff.mpr fun i hi => ?_
      show ¬ decide ((m.key i).toNat % H = b) = true
      rw [h.bucket c hc i hi]; simpa using hcb
  rw [flatMap_congr' (g := fun c => if c = b then f c else []) (fun c hc => key c (List.mem_range.mp hc))]
  have : (List.range H).flatMap (fun c => if c = b then f c else []) = nodes H (put (fun _ => []) b (f b)) := by
    unfold nodes
    refine flatMap_congr' fun c _ => ?_
    by_cases hcb : c = b
    · subst hcb; rw [put_eq, if_pos rfl]
    · rw [put_ne _ _ hcb, if_neg hcb]
  rw [this, nodes_put _ hb]
  have h0 : ∀ L : List Nat, L.flatMap (fun _ => ([] : List Nat)) = [] := by
    intro L; induction L with
    | nil => rfl
    | cons x xs ih => rw [List.flatMap_cons, ih]; rfl
  rw [h0, h0]; simp

theorem seen_nodes {m : Map V} {f : Nat → List Nat} {fr : List Nat} {lk : Nat} {l : ShmMap.Spec.Bindings V} (h : Rep N H m f fr lk l) (p : UInt64 → V → Bool) :
    Spec.seen H p ((nodes H f).map (kv m)) = (nodes H (fun c => Spec.upto (hit p m) (f c))).map (kv m) := by
  unfold Spec.seen
  rw [flatMap_congr' (g := fun b => (Spec.upto (hit p m) (f b)).map (kv m)) (fun b hb => by
    rw [inBucket_nodes h (List.mem_range.mp hb), upto_map]; rfl)]
  unfold nodes
  rw [List.map_flatMap]

theorem left_nodes {m : Map V} {f : Nat → List Nat} {fr : List Nat} {lk : Nat} {l : ShmMap.Spec.Bindings V} (h : Rep N H m f fr lk l) (p : UInt64 → V → Bool) :
    Spec.left H p ((nodes H f).map (kv m)) = (nodes H (fun c => (f c).eraseP (hit p m))).map (kv m) := by
  unfold Spec.left
  rw [flatMap_congr' (g := fun b => ((f b).eraseP (hit p m)).map (kv m)) (fun b hb => by
    rw [inBucket_nodes h (List.mem_range.mp hb), List.eraseP_map]; rfl)]
  unfold nodes
  rw [List.map_flatMap]

/-- **C187, erasing in place.** After any history, for every condition `p`: the loop that erases the entry its iterator points at never leaves
the segment and ends within `capacity()` rounds.  With `l0` the entries in the order of an undisturbed iteration, it sees exactly, in each
bucket, the entries up to and including the first that satisfies `p` (`Spec.seen`), erases exactly that one, and afterwards the map behaves
for ever as the map with the entries `Spec.left`. -/
theorem C187_here_partial (hN : N < 2 ^ 31) (hH : 0 < H) (m : Map V) (hm : Init H m) (ops : List (Op V)) (m' : Map V) (rs : List (Ret V))
    (hr : run N H m ops = .ok (m', rs)) (p : UInt64 → V → Bool) :
    ∃ m'' l0, iterate N H m' (capacity N) (begin_ H m') = .ok l0 ∧ l0.Perm (ShmMap.Spec.run N [] ops).1 ∧
      sweepHere N H p (capacity N) m' (begin_ H m') = .ok (m'', Spec.seen H p l0) ∧
      (∃ l2, iterate N H m'' (capacity N) (begin_ H m'') = .ok l2 ∧ l2.Perm (Spec.left H p l0)) ∧
      ∀ ops2, ∃ m3, run N H m'' ops2 = .ok (m3, (ShmMap.Spec.run N (Spec.left H p l0) ops2).2) := by
  have hN' : N < NONE := by unfold NONE; omega
  obtain ⟨f, fr, h⟩ := run_init hN' hH m hm ops m' rs hr
  obtain ⟨m2, f2, fr2, e, h2⟩ := here_rep hN' hH p h
  rw [← left_nodes h p] at h2
  rw [← seen_nodes h p] at e
  have ha := after hN' hH h2
  exact ⟨m2, _, begin_spec hN' h, h.abs.symm, e, ha.1, ha.2⟩

theorem left_keep {m : Map V} {f : Nat → List Nat} {fr : List Nat} {lk : Nat} {l : ShmMap.Spec.Bindings V} (h : Rep N H m f fr lk l) (p : UInt64 → V → Bool)
    (hu : ∀ i ∈ nodes H f, ∀ j ∈ nodes H f, hit p m i = true → hit p m j = true → (m.key i).toNat % H = (m.key j).toNat % H → i = j) :
    nodes H (fun c => (f c).eraseP (hit p m)) = (nodes H f).filter (fun i => !hit p m i) := by
  have : nodes H (fun c => (f c).eraseP (hit p m)) = nodes H (fun c => (f c).filter (fun i => !hit p m i)) := by
    refine nodes_congr fun b hb => ?_
    have hm : ∀ i ∈ f b, i ∈ nodes H f := fun i hi => mem_nodes.mpr ⟨b, hb, hi⟩
    by_cases hex : ∃ i ∈ f b, hit p m i = true
    · obtain ⟨i, hi, hp⟩ := hex
      obtain ⟨a, l1, l2, hl1, ha, hfb, he⟩ := List.exists_of_eraseP hi hp
      have hnd := h.fb_nodup hb
      rw [hfb, List.nodup_append] at hnd
      rw [he, hfb, List.filter_append, List.filter_cons_of_neg (by simp [ha])]
      have q1 : l1.filter (fun i => !hit p m i) = l1 := List.filter_eq_self.mpr fun j hj => by
        have := hl1 j hj; simpa using this
      have q2 : l2.filter (fun i => !hit p m i) = l2 := List.filter_eq_self.mpr fun j hj => by
        cases hpj : hit p m j with
        | false => rfl
        | true =>
          exfalso
          have hj' : j ∈ f b := by rw [hfb]; simp [hj]
          have ha' : a ∈ f b := by rw [hfb]; simp
          have := hu j (hm j hj') a (hm a ha') hpj ha (by rw [h.bucket b hb j hj', h.bucket b hb a ha'])
          subst this
          exact (List.nodup_cons.mp hnd.2.1).1 hj
      rw [q1, q2]
    · have h1 : ∀ i ∈ f b, ¬ hit p m i = true := fun i hi hp => hex ⟨i, hi, hp⟩
      rw [List.eraseP_of_forall_not h1]
      exact (List.filter_eq_self.mpr fun j hj => by have := h1 j hj; simpa using this).symm
  rw [this]
  unfold nodes
  rw [List.filter_flatMap]

/-- **C187, when erasing in place is enough.** When no two entries that satisfy `p` have keys in the same bucket (equal modulo the number of
buckets), the in-place loop erases exactly the entries that satisfy `p`. -/
theorem C187_here_ok_partial (hN : N < 2 ^ 31) (hH : 0 < H) (m : Map V) (hm : Init H m) (ops : List (Op V)) (m' : Map V) (rs : List (Ret V))
    (hr : run N H m ops = .ok (m', rs)) (p : UInt64 → V → Bool)
    (hu : ∀ e1 ∈ (ShmMap.Spec.run N [] ops).1, ∀ e2 ∈ (ShmMap.Spec.run N [] ops).1, p e1.1 e1.2 = true → p e2.1 e2.2 = true →
      e1.1.toNat % H = e2.1.toNat % H → e1.1 = e2.1) :
    ∃ m'' l, sweepHere N H p (capacity N) m' (begin_ H m') = .ok (m'', l) ∧
      (∃ l2, iterate N H m'' (capacity N) (begin_ H m'') = .ok l2 ∧ l2.Perm (Spec.keep p (ShmMap.Spec.run N [] ops).1)) ∧
      ∀ ops2, ∃ m3, run N H m'' ops2 = .ok (m3, (ShmMap.Spec.run N (Spec.keep p (ShmMap.Spec.run N [] ops).1) ops2).2) := by
  have hN' : N < NONE := by unfold NONE; omega
  obtain ⟨f, fr, h⟩ := run_init hN' hH m hm ops m' rs hr
  obtain ⟨m2, f2, fr2, e, h2⟩ := here_rep hN' hH p h
  have hmem : ∀ i ∈ nodes H f, kv m' i ∈ (ShmMap.Spec.run N [] ops).1 := fun i hi => h.abs.mem_iff.mpr (List.mem_map.mpr ⟨i, hi, rfl⟩)
  rw [left_keep h p (fun i hi j hj pi pj hb => h.key_inj hi hj (hu _ (hmem i hi) _ (hmem j hj) pi pj hb))] at h2
  have hk : (Spec.keep p (ShmMap.Spec.run N [] ops).1).Perm (((nodes H f).filter (fun i => !hit p m' i)).map (kv m')) := by
    refine (h.abs.filter _).trans ?_
    rw [List.filter_map]
    exact List.Perm.refl _
  have ha := after hN' hH (rep_content h2 (hk.trans h2.abs))
  exact ⟨m2, _, e, ha.1, ha.2⟩

/-- **C187 fails for erasing in place.** Whenever two different stored keys that satisfy `p` share a bucket, the in-place loop, although it
ends normally, leaves an entry that satisfies `p` in the map. -/
theorem C187_refuted (hN : N < 2 ^ 31) (hH : 0 < H) (m : Map V) (hm : Init H m) (ops : List (Op V)) (m' : Map V) (rs : List (Ret V))
    (hr : run N H m ops = .ok (m', rs)) (p : UInt64 → V → Bool) (k1 k2 : UInt64) (v1 v2 : V) (h1 : unprotected_read N H m' k1 = .ok (some v1))
    (h2 : unprotected_read N H m' k2 = .ok (some v2)) (hp1 : p k1 v1 = true) (hp2 : p k2 v2 = true) (hne : k1 ≠ k2) (hb : k1.toNat % H = k2.toNat % H) :
    ∃ m'' l, sweepHere N H p (capacity N) m' (begin_ H m') = .ok (m'', l) ∧
      ∃ k v, unprotected_read N H m'' k = .ok (some v) ∧ p k v = true := by
  have hN' : N < NONE := by unfold NONE; omega
  obtain ⟨f, fr, h⟩ := run_init hN' hH m hm ops m' rs hr
  obtain ⟨m2, f2, fr2, e, h3⟩ := here_rep hN' hH p h
  refine ⟨m2, _, e, ?_⟩
  obtain ⟨lh, hl, hnd, hperm, hread⟩ := C49_iteration hN hH m hm ops m' rs hr
  rw [show iterate N H m' (capacity N) (begin_ H m') = .ok ((nodes H f).map (kv m')) from begin_spec hN' h, Res.ok.injEq] at hl
  subst hl
  obtain ⟨i, hi, hki⟩ := List.mem_map.mp ((hread k1 v1).mpr h1)
  obtain ⟨j, hj, hkj⟩ := List.mem_map.mp ((hread k2 v2).mpr h2)
  simp only [kv, Prod.mk.injEq] at hki hkj
  obtain ⟨b, hbH, hib⟩ := mem_nodes.mp hi
  obtain ⟨c, hcH, hjc⟩ := mem_nodes.mp hj
  have hbc : b = c := by rw [← h.bucket b hbH i hib, ← h.bucket c hcH j hjc, hki.1, hkj.1, hb]
  subst hbc
  have hij : i ≠ j := by rintro rfl; exact hne (hki.1.symm.trans hkj.1)
  have pi : hit p m' i = true := by unfold hit; rw [hki.1, hki.2]; exact hp1
  have pj : hit p m' j = true := by unfold hit; rw [hkj.1, hkj.2]; exact hp2
  obtain ⟨a, l1, l2, hl1, ha, hfb, he⟩ := List.exists_of_eraseP hib pi
  obtain ⟨z, hz, pz⟩ : ∃ z ∈ l1 ++ l2, hit p m' z = true := by
    have mem : ∀ z ∈ f b, z ≠ a → z ∈ l1 ++ l2 := by
      intro z hz hza
      rw [hfb] at hz
      rcases List.mem_append.mp hz with hz | hz
      · exact List.mem_append.mpr (Or.inl hz)
      · rcases List.mem_cons.mp hz with hz | hz
        · exact absurd hz hza
        · exact List.mem_append.mpr (Or.inr hz)
    by_cases hia : i = a
    · exact ⟨j, mem j hjc (fun hh => hij (hia.trans hh.symm)), pj⟩
    · exact ⟨i, mem i hib hia, pi⟩
  have hzm : (m'.key z, m'.val z) ∈ (nodes H (fun c => (f c).eraseP (hit p m'))).map (kv m') :=
    List.mem_map.mpr ⟨z, mem_nodes.mpr ⟨b, hbH, by show z ∈ (f b).eraseP _; rw [he]; exact hz⟩, rfl⟩
  refine ⟨m'.key z, m'.val z, ?_, pz⟩
  rw [read_spec hN' hH h3, Res.ok.injEq]
  exact lookup_mem (by rw [(h3.abs.map (·.1)).nodup_iff, List.map_map]; exact h3.keys) hzm

/-! ## examples -/

/-- the result, to compare it -/
def _root_.Verif.Res.toOption {α : Type} : Res α → Option α
  | .ok a => some a
  | .ub => none

/-- keys 2, 4 and 6 share bucket 0 of two, key 3 is in bucket 1 -/
def ops0 : List (Op Nat) := [.insert 2 20, .insert 3 30, .insert 4 40, .insert 6 60]

/-- values from 30 up are to go -/
def old (_ : UInt64) (v : Nat) : Bool := decide (30 ≤ v)

example : Init 2 m0 ∧ ((run 5 2 m0 ops0).toOption.map (·.2) : Option (List (Ret Nat))) = some [.bool true, .bool true, .bool true, .bool true] := ⟨m0_init 2, by decide +kernel⟩

/-- advancing first: all four entries are seen, only key 2 stays -/
example : ((run 5 2 m0 ops0).toOption.bind fun q => (sweepAhead 5 2 old 5 q.1 (begin_ 2 q.1)).toOption.bind fun w =>
    (iterate 5 2 w.1 5 (begin_ 2 w.1)).toOption.map (w.2, ·)) = some ([(2, 20), (4, 40), (6, 60), (3, 30)], [(2, 20)]) := by decide +kernel

/-- in place: key 6 is not seen and stays -/
theorem C187_refuted_witness : ((run 5 2 m0 ops0).toOption.bind fun q => (sweepHere 5 2 old 5 q.1 (begin_ 2 q.1)).toOption.bind fun w =>
    (iterate 5 2 w.1 5 (begin_ 2 w.1)).toOption.map (w.2, ·)) = some ([(2, 20), (4, 40), (3, 30)], [(2, 20), (6, 60)]) := by decide +kernel

/-- the specification of the in-place loop on these entries -/
example : Spec.seen 2 old [(2, 20), (4, 40), (6, 60), (3, 30)] = [(2, 20), (4, 40), (3, 30)] ∧
    Spec.left 2 old [(2, 20), (4, 40), (6, 60), (3, 30)] = [(2, 20), (6, 60)] := by decide +kernel

/-- every value plus one -/
example : ((run 5 2 m0 ops0).toOption.bind fun q => (sweepSet 5 2 (fun _ v => v + 1) 5 q.1 (begin_ 2 q.1)).toOption.bind fun w =>
    (iterate 5 2 w.1 5 (begin_ 2 w.1)).toOption.map (w.2, ·)) = some ([(2, 20), (4, 40), (6, 60), (3, 30)], [(2, 21), (4, 41), (6, 61), (3, 31)]) := by decide +kernel

/-- the hypotheses of `C187_refuted` are met: keys 4 and 6 -/
example : ((run 5 2 m0 ops0).toOption.map fun q => ((unprotected_read 5 2 q.1 4).toOption, (unprotected_read 5 2 q.1 6).toOption)) = some (some (some 40), some (some 60)) ∧
    old 4 40 = true ∧ old 6 60 = true ∧ (4 : UInt64).toNat % 2 = (6 : UInt64).toNat % 2 := by decide +kernel

/-- the hypothesis of `C187_here_ok_partial` is met: with `p` for key 6 and key 3 only -/
example : ∀ e1 ∈ (ShmMap.Spec.run 5 [] ops0).1, ∀ e2 ∈ (ShmMap.Spec.run 5 [] ops0).1, (fun (k : UInt64) (_ : Nat) => decide (k = 6 ∨ k = 3)) e1.1 e1.2 = true →
    (fun (k : UInt64) (_ : Nat) => decide (k = 6 ∨ k = 3)) e2.1 e2.2 = true → e1.1.toNat % 2 = e2.1.toNat % 2 → e1.1 = e2.1 := by decide +kernel

end Verif.MapSweep
