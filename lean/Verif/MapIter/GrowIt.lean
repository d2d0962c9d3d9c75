import Verif.MapIter.GrowSys
/-
  An iteration without the lock over a map that only grows.
-/
set_option linter.unusedVariables false
set_option linter.unusedSimpArgs false

namespace Verif.MapIter

open Verif.ShmPool Verif.ShmMap Verif.MapSys

variable {V : Type} {N H : Nat}

theorem nodup_le : ∀ (n : Nat) (l : List Nat), l.Nodup → (∀ x ∈ l, x < n) → l.length ≤ n := by
  intro n
  induction n with
  | zero =>
    intro l _ h
    cases l with
    | nil => simp
    | cons x xs => exact absurd (h x (by simp)) (by omega)
  | succ n ih =>
    intro l hn h
    have h1 := ih (l.erase n) (hn.erase n) (by
      intro x hx
      have h2 := h x (List.mem_of_mem_erase hx)
      have h3 : x ≠ n := by rintro rfl; exact (hn.not_mem_erase) hx
      omega)
    by_cases hm : n ∈ l
    · rw [List.length_erase_of_mem hm] at h1; omega
    · rw [List.erase_of_not_mem hm] at h1; omega

/-- Every key of `K` in the first `n` buckets is the key of a node of `vis`. -/
def Cov (H : Nat) (m : Map V) (K : List UInt64) (vis : List Nat) (n : Nat) : Prop := ∀ k ∈ K, k.toNat % H < n → ∃ x ∈ vis, m.key x = k

/-- The nodes of `vis` are in the first `n` buckets. -/
def Low (H : Nat) (f : Nat → List Nat) (vis : List Nat) (n : Nat) : Prop := ∀ x ∈ vis, ∃ b, b < n ∧ b < H ∧ x ∈ f b

/-- The iteration has visited `vis` and stands at node `e` of bucket `h`; `e` has been visited if `here`. -/
def On (H : Nat) (m : Map V) (f : Nat → List Nat) (K : List UInt64) (vis : List Nat) (h e : Nat) (here more : Bool) : Prop :=
  h < H ∧ ∃ v1 v2 r, vis = v1 ++ (v2 ++ (if here then [e] else [])) ∧ f h = v2 ++ e :: r ∧ Low H f v1 h ∧ Cov H m K v1 h ∧ (more = true → r ≠ [])

/-- What has been visited at each place of the loop. -/
def Place (H : Nat) (m : Map V) (f : Nat → List Nat) (K : List UInt64) (vis : List Nat) : ItPc → Prop
  | .bScan j => Low H f vis j ∧ Cov H m K vis j
  | .scan1 j => Low H f vis j ∧ Cov H m K vis j
  | .scan2 j => j < H ∧ f j ≠ [] ∧ Low H f vis j ∧ Cov H m K vis j
  | .test h e => On H m f K vis h e false false ∨ (h = NONE ∧ e = NONE ∧ Low H f vis H ∧ Cov H m K vis H)
  | .key h e => On H m f K vis h e false false
  | .val h e k => On H m f K vis h e false false ∧ k = m.key e
  | .next1 h e => On H m f K vis h e true false
  | .next2 h e => On H m f K vis h e true true
  | .done => Low H f vis H ∧ Cov H m K vis H
  | .ub => False

structure At (N H : Nat) (P : UInt64 → V → Prop) (m : Map V) (f : Nat → List Nat) (K : List UInt64) (t : It V) (vis : List Nat) : Prop where
  seen : t.seen.map (·.1) = vis.map m.key
  sub : ∀ x ∈ vis, x ∈ nodes H f
  nodup : vis.Nodup
  ok : ∀ p ∈ t.seen, P p.1 p.2
  place : Place H m f K vis t.pc

theorem low_ext {f f' : Nat → List Nat} {vis : List Nat} {n : Nat} (he : ∀ b, b < H → ∃ t, f' b = f b ++ t) (h : Low H f vis n) : Low H f' vis n := by
  intro x hx
  obtain ⟨b, h1, h2, h3⟩ := h x hx
  obtain ⟨t, e⟩ := he b h2
  exact ⟨b, h1, h2, by rw [e]; exact List.mem_append_left _ h3⟩

theorem low_sub {f : Nat → List Nat} {vis : List Nat} {n : Nat} (h : Low H f vis n) : ∀ x ∈ vis, x ∈ nodes H f := by
  intro x hx
  obtain ⟨b, h1, h2, h3⟩ := h x hx
  exact mem_nodes.mpr ⟨b, h2, h3⟩

theorem cov_key {m m' : Map V} {K : List UInt64} {vis : List Nat} {n : Nat} (he : ∀ x ∈ vis, m'.key x = m.key x) (h : Cov H m K vis n) : Cov H m' K vis n := by
  intro k hk hn
  obtain ⟨x, h1, h2⟩ := h k hk hn
  exact ⟨x, h1, by rw [he x h1]; exact h2⟩

theorem on_grow {P : UInt64 → V → Prop} {m m' : Map V} {f f' : Nat → List Nat} {K : List UInt64} {vis : List Nat} {h e : Nat} {a b : Bool} (hg : Grow N H P m m' f f')
    (ho : On H m f K vis h e a b) : On H m' f' K vis h e a b := by
  obtain ⟨h1, v1, v2, r, h2, h3, h4, h5, h6⟩ := ho
  obtain ⟨t, ht⟩ := hg.ext h h1
  refine ⟨h1, v1, v2, r ++ t, h2, by rw [ht, h3]; simp, low_ext hg.ext h4, cov_key (fun x hx => hg.key x (low_sub h4 x hx)) h5, ?_⟩
  intro hb
  have := h6 hb
  simp [this]

/-- A step of the others. -/
theorem at_grow {P : UInt64 → V → Prop} {m m' : Map V} {f f' : Nat → List Nat} {K : List UInt64} {t : It V} {vis : List Nat} (hg : Grow N H P m m' f f') (h : At N H P m f K t vis) :
    At N H P m' f' K t vis := by
  have hk : ∀ x ∈ vis, m'.key x = m.key x := fun x hx => hg.key x (h.sub x hx)
  have hlc : ∀ n, Low H f vis n ∧ Cov H m K vis n → Low H f' vis n ∧ Cov H m' K vis n := fun n hh => ⟨low_ext hg.ext hh.1, cov_key hk hh.2⟩
  refine ⟨by rw [h.seen]; exact List.map_congr_left (fun x hx => (hk x hx).symm), ?_, h.nodup, h.ok, ?_⟩
  · intro x hx
    obtain ⟨b, h2, h3⟩ := mem_nodes.mp (h.sub x hx)
    obtain ⟨r, e⟩ := hg.ext b h2
    exact mem_nodes.mpr ⟨b, h2, by rw [e]; exact List.mem_append_left _ h3⟩
  · have hp := h.place
    cases hpc : t.pc with
    | bScan j => rw [hpc] at hp; exact hlc j hp
    | scan1 j => rw [hpc] at hp; exact hlc j hp
    | scan2 j =>
      rw [hpc] at hp
      obtain ⟨h1, h2, h3⟩ := hp
      obtain ⟨r, e⟩ := hg.ext j h1
      exact ⟨h1, by rw [e]; simp [h2], hlc j h3⟩
    | test h e =>
      rw [hpc] at hp
      rcases hp with hp | ⟨h1, h2, h3⟩
      · exact Or.inl (on_grow hg hp)
      · exact Or.inr ⟨h1, h2, hlc H h3⟩
    | key h e => rw [hpc] at hp; exact on_grow hg hp
    | val h' e k =>
      rw [hpc] at hp
      obtain ⟨h1, h2⟩ := hp
      refine ⟨on_grow hg h1, ?_⟩
      obtain ⟨g1, v1, v2, r, _, g2, _⟩ := h1
      rw [h2, hg.key e (mem_nodes.mpr ⟨h', g1, by rw [g2]; simp⟩)]
    | next1 h e => rw [hpc] at hp; exact on_grow hg hp
    | next2 h e => rw [hpc] at hp; exact on_grow hg hp
    | done => rw [hpc] at hp; exact hlc H hp
    | ub => rw [hpc] at hp; exact hp

theorem chain_at {next : Nat → Nat} : ∀ {v2 : List Nat} {e x : Nat} {r : List Nat}, Chain next e (v2 ++ x :: r) → Chain next (next x) r := by
  intro v2
  induction v2 with
  | nil => intro e x r h; exact h.2
  | cons y ys ih => intro e x r h; exact ih h.2

theorem chain_head {next : Nat → Nat} {e : Nat} {r : List Nat} (h : Chain next e r) (hr : ∀ i ∈ r, i ≠ NONE) : (e = NONE ↔ r = []) ∧ (r ≠ [] → ∃ r', r = e :: r') := by
  cases r with
  | nil => exact ⟨⟨fun _ => rfl, fun _ => h⟩, fun hh => absurd rfl hh⟩
  | cons x xs =>
    refine ⟨⟨fun hh => absurd (h.1.symm.trans hh) (hr x (by simp)), fun hh => by cases hh⟩, fun _ => ⟨xs, by rw [h.1]⟩⟩

/-- The steps that are left. -/
def left (N H : Nat) (t : It V) : Nat :=
  match t.pc with
  | .bScan i => 5 * (N - t.seen.length) + (H - i) + 2
  | .test h e => if h < H ∧ e < N then 5 * (N - t.seen.length) + (H - h) + 1 else 1
  | .key h _ => 5 * (N - t.seen.length) + (H - h)
  | .val h _ _ => 5 * (N - t.seen.length) + (H - h) - 1
  | .next1 h _ => 5 * (N - t.seen.length) + (H - h) + 3
  | .next2 h _ => 5 * (N - t.seen.length) + (H - h) + 2
  | .scan1 i => 5 * (N - t.seen.length) + (H - i) + 3
  | .scan2 i => 5 * (N - t.seen.length) + (H - i) + 2
  | .done => 0
  | .ub => 0

/-- A step of the iteration. -/
theorem at_step (hN : N < NONE) {P : UInt64 → V → Prop} {m : Map V} {f : Nat → List Nat} {K : List UInt64} {t : It V} {vis : List Nat} (hs : Shape N H m f)
    (hP : ∀ x ∈ nodes H f, P (m.key x) (m.val x)) (hK : ∀ k ∈ K, ∃ x ∈ f (k.toNat % H), m.key x = k) (h : At N H P m f K t vis) (hd : t.pc ≠ .done) :
    (∃ vis', At N H P m f K (t.step N H m) vis') ∧ left N H (t.step N H m) < left N H t := by
  have hnb : ∀ b, b < H → ∀ x ∈ f b, x < N := fun b hb x hx => hs.lt x (mem_nodes.mpr ⟨b, hb, hx⟩)
  have hnn : ∀ b, b < H → ∀ x ∈ f b, x ≠ NONE := fun b hb x hx => by have := hnb b hb x hx; omega
  have hlen : t.seen.length = vis.length := by have := congrArg List.length h.seen; simpa using this
  have hfirst : ∀ j, j < H → Low H f vis j ∧ Cov H m K vis j → m.hash j ≠ NONE → On H m f K vis j (m.hash j) false false ∧ m.hash j < N := by
    intro j hj hlc hne
    have hch := hs.chain j hj
    have hh := chain_head hch (hnn j hj)
    obtain ⟨r, hr⟩ := hh.2 (fun e => hne (hh.1.mpr e))
    exact ⟨⟨hj, vis, [], r, by simp, by rw [hr]; rfl, hlc.1, hlc.2, by simp⟩, hnb j hj _ (by rw [hr]; simp)⟩
  have hskip : ∀ j, j < H → Low H f vis j ∧ Cov H m K vis j → m.hash j = NONE → Low H f vis (j + 1) ∧ Cov H m K vis (j + 1) := by
    intro j hj hlc he
    have hch := hs.chain j hj
    have hh := (chain_head hch (hnn j hj)).1.mp he
    refine ⟨?_, ?_⟩
    · intro x hx
      obtain ⟨b, h1, h2⟩ := hlc.1 x hx
      exact ⟨b, by omega, h2⟩
    · intro k hk hlt
      by_cases hkj : k.toNat % H = j
      · obtain ⟨x, hx, _⟩ := hK k hk
        rw [hkj, hh] at hx
        cases hx
      · exact hlc.2 k hk (by omega)
  have hall : ∀ j, ¬ j < H → Low H f vis j ∧ Cov H m K vis j → Low H f vis H ∧ Cov H m K vis H := by
    intro j hj hlc
    refine ⟨?_, fun k hk hlt => hlc.2 k hk (by omega)⟩
    intro x hx
    obtain ⟨b, h1, h2, h3⟩ := hlc.1 x hx
    exact ⟨b, h2, h2, h3⟩
  have mk : ∀ pc, Place H m f K vis pc → ∃ vis', At N H P m f K { t with pc := pc } vis' := fun pc hp => ⟨vis, h.seen, h.sub, h.nodup, h.ok, hp⟩
  have hp := h.place
  cases hpc : t.pc with
  | bScan j =>
    rw [hpc] at hp
    simp only [It.step, hpc]
    by_cases hj : j < H
    · rw [if_pos hj]
      by_cases hb : m.hash j ≠ NONE
      · rw [if_pos hb]
        obtain ⟨g1, g2⟩ := hfirst j hj hp hb
        refine ⟨mk _ (Or.inl g1), ?_⟩
        simp only [left, hpc]
        rw [if_pos ⟨hj, g2⟩]
        omega
      · rw [if_neg hb]
        refine ⟨mk _ (hskip j hj hp (Classical.byContradiction hb)), ?_⟩
        simp only [left, hpc]
        omega
    · rw [if_neg hj]
      refine ⟨mk _ (Or.inr ⟨rfl, rfl, hall j hj hp⟩), ?_⟩
      simp only [left, hpc]
      rw [if_neg (by omega)]
      omega
  | scan1 j =>
    rw [hpc] at hp
    simp only [It.step, hpc]
    by_cases hj : j < H
    · rw [if_pos hj]
      by_cases hb : m.hash j ≠ NONE
      · rw [if_pos hb]
        refine ⟨mk _ ⟨hj, fun e => hb ((chain_head (hs.chain j hj) (hnn j hj)).1.mpr e), hp⟩, ?_⟩
        simp only [left, hpc]
        omega
      · rw [if_neg hb]
        refine ⟨mk _ (hskip j hj hp (Classical.byContradiction hb)), ?_⟩
        simp only [left, hpc]
        omega
    · rw [if_neg hj]
      refine ⟨mk _ (Or.inr ⟨rfl, rfl, hall j hj hp⟩), ?_⟩
      simp only [left, hpc]
      rw [if_neg (by omega)]
      omega
  | scan2 j =>
    rw [hpc] at hp
    simp only [It.step, hpc]
    obtain ⟨hj, hne, hlc⟩ := hp
    obtain ⟨g1, g2⟩ := hfirst j hj hlc (fun e => hne ((chain_head (hs.chain j hj) (hnn j hj)).1.mp e))
    refine ⟨mk _ (Or.inl g1), ?_⟩
    simp only [left, hpc]
    rw [if_pos ⟨hj, g2⟩]
    omega
  | test b e =>
    rw [hpc] at hp
    simp only [It.step, hpc]
    rcases hp with hp | ⟨rfl, rfl, hlc⟩
    · have hb := hp.1
      have heN : e < N := by
        obtain ⟨_, v1, v2, r, _, g, _⟩ := hp
        exact hnb b hb e (by rw [g]; simp)
      rw [if_pos (Or.inr (by omega))]
      refine ⟨mk _ hp, ?_⟩
      simp only [left, hpc]
      rw [if_pos ⟨hb, heN⟩]
      omega
    · rw [if_neg (by simp)]
      refine ⟨mk _ hlc, ?_⟩
      simp only [left, hpc]
      rw [if_neg (by omega)]
      omega
  | key b e =>
    rw [hpc] at hp
    simp only [It.step, hpc]
    have hb := hp.1
    have heN : e < N := by
      obtain ⟨_, v1, v2, r, _, g, _⟩ := hp
      exact hnb b hb e (by rw [g]; simp)
    rw [if_pos heN]
    refine ⟨mk _ ⟨hp, rfl⟩, ?_⟩
    simp only [left, hpc]
    omega
  | val b e k =>
    rw [hpc] at hp
    simp only [It.step, hpc]
    obtain ⟨⟨hb, v1, v2, r, g1, g2, g3, g4, _⟩, rfl⟩ := hp
    have hen : e ∈ nodes H f := mem_nodes.mpr ⟨b, hb, by rw [g2]; simp⟩
    have hfb : (f b).Nodup := by
      have := hs.nodup
      rw [nodes_split hb] at this
      rw [List.nodup_append] at this
      have := this.2.1
      rw [List.nodup_append] at this
      exact this.1
    simp only [Bool.false_eq_true, if_false, List.append_nil] at g1
    have henew : e ∉ vis := by
      rw [g1]
      intro hx
      rcases List.mem_append.mp hx with hx | hx
      · obtain ⟨c, h1, h2, h3⟩ := g3 e hx
        have e1 := hs.bucket c h2 e h3
        have e2 := hs.bucket b hb e (by rw [g2]; simp)
        omega
      · rw [g2, List.nodup_append] at hfb
        exact hfb.2.2 e hx e (by simp) rfl
    have hnd : (vis ++ [e]).Nodup := by
      rw [List.nodup_append]
      refine ⟨h.nodup, by simp, ?_⟩
      intro x hx y hy
      rw [List.mem_singleton.mp hy]
      rintro rfl
      exact henew hx
    have hcount := nodup_le N (vis ++ [e]) hnd (by
      intro x hx
      rcases List.mem_append.mp hx with hx | hx
      · exact hs.lt x (h.sub x hx)
      · rw [List.mem_singleton.mp hx]; exact hs.lt e hen)
    simp only [List.length_append, List.length_singleton] at hcount
    refine ⟨⟨vis ++ [e], ?_, ?_, hnd, ?_, ?_⟩, ?_⟩
    · simp only [List.map_append, List.map_cons, List.map_nil, h.seen]
    · intro x hx
      rcases List.mem_append.mp hx with hx | hx
      · exact h.sub x hx
      · rw [List.mem_singleton.mp hx]; exact hen
    · intro p hp
      rcases List.mem_append.mp hp with hp | hp
      · exact h.ok p hp
      · rw [List.mem_singleton.mp hp]; exact hP e hen
    · exact ⟨hb, v1, v2, r, by rw [g1]; simp, g2, g3, g4, by simp⟩
    · simp only [left, hpc, List.length_append, List.length_singleton]
      omega
  | next1 b e =>
    rw [hpc] at hp
    simp only [It.step, hpc]
    have hp' := hp
    obtain ⟨hb, v1, v2, r, g1, g2, g3, g4, _⟩ := hp
    have hch := hs.chain b hb
    rw [g2] at hch
    have hch := chain_at hch
    have hh := chain_head hch (fun i hi => hnn b hb i (by rw [g2]; simp [hi]))
    by_cases hn : m.next e ≠ NONE
    · rw [if_pos hn]
      refine ⟨mk _ ⟨hb, v1, v2, r, g1, g2, g3, g4, fun _ er => hn (hh.1.mpr er)⟩, ?_⟩
      simp only [left, hpc]
      omega
    · rw [if_neg hn]
      have hr : r = [] := hh.1.mp (Classical.byContradiction hn)
      subst hr
      simp only [if_true] at g1
      refine ⟨mk _ ⟨?_, ?_⟩, ?_⟩
      · intro x hx
        rw [g1] at hx
        rcases List.mem_append.mp hx with hx | hx
        · obtain ⟨c, h1, h2⟩ := g3 x hx
          exact ⟨c, by omega, h2⟩
        · exact ⟨b, by omega, hb, by rw [g2]; exact hx⟩
      · intro k hk hlt
        by_cases hkb : k.toNat % H = b
        · obtain ⟨x, hx, hkx⟩ := hK k hk
          rw [hkb, g2] at hx
          exact ⟨x, by rw [g1]; exact List.mem_append_right _ hx, hkx⟩
        · obtain ⟨x, hx, hkx⟩ := g4 k hk (by omega)
          exact ⟨x, by rw [g1]; exact List.mem_append_left _ hx, hkx⟩
      · simp only [left, hpc]
        omega
  | next2 b e =>
    rw [hpc] at hp
    simp only [It.step, hpc]
    obtain ⟨hb, v1, v2, r, g1, g2, g3, g4, g5⟩ := hp
    have hch := hs.chain b hb
    rw [g2] at hch
    have hch := chain_at hch
    have hh := chain_head hch (fun i hi => hnn b hb i (by rw [g2]; simp [hi]))
    obtain ⟨r', hr'⟩ := hh.2 (g5 rfl)
    refine ⟨mk _ (Or.inl ⟨hb, v1, v2 ++ [e], r', ?_, ?_, g3, g4, by simp⟩), ?_⟩
    · rw [g1]; simp
    · rw [g2, hr']; simp
    · simp only [left, hpc]
      rw [if_pos ⟨hb, hnb b hb _ (by rw [g2, hr']; simp)⟩]
      omega
  | done => exact absurd hpc hd
  | ub => rw [hpc] at hp; exact hp.elim

end Verif.MapIter
