import Verif.ShmMap.Spec
import Verif.ShmPool.Lemmas

set_option linter.unusedSimpArgs false
set_option linter.unusedVariables false

namespace Verif.ShmMap

open Verif.ShmPool

variable {V : Type} {N H : Nat}

/-! ### lists of nodes -/

def nodes (H : Nat) (f : Nat → List Nat) : List Nat := (List.range H).flatMap f

theorem flatMap_congr' {α β} {l : List α} {f g : α → List β} (h : ∀ x ∈ l, f x = g x) : l.flatMap f = l.flatMap g := by
  induction l with
  | nil => rfl
  | cons x l ih =>
    rw [List.flatMap_cons, List.flatMap_cons, h x (by simp), ih (fun y hy => h y (by simp [hy]))]

theorem range_split {b H : Nat} (hb : b < H) : List.range H = List.range b ++ b :: List.range' (b + 1) (H - (b + 1)) := by
  rw [List.range_eq_range', List.range_eq_range']
  have h1 : List.range' 0 H = List.range' 0 b ++ List.range' b (H - b) := by
    have := List.range'_append (s := 0) (m := b) (n := H - b) (step := 1)
    rw [show 0 + 1 * b = b by omega, show b + (H - b) = H by omega] at this
    exact this.symm
  rw [h1, show H - b = (H - (b + 1)) + 1 by omega, List.range'_succ]

theorem nodes_split {f : Nat → List Nat} {b : Nat} (hb : b < H) :
    nodes H f = (List.range b).flatMap f ++ (f b ++ (List.range' (b + 1) (H - (b + 1))).flatMap f) := by
  unfold nodes
  rw [range_split hb, List.flatMap_append, List.flatMap_cons]

theorem put_eq {α : Type} (f : Nat → α) (b : Nat) (x : α) : put f b x b = x := by simp [put]
theorem put_ne {α : Type} (f : Nat → α) {b c : Nat} (x : α) (h : c ≠ b) : put f b x c = f c := by simp [put, h]

theorem nodes_put {f : Nat → List Nat} {b : Nat} (x : List Nat) (hb : b < H) :
    nodes H (put f b x) = (List.range b).flatMap f ++ (x ++ (List.range' (b + 1) (H - (b + 1))).flatMap f) := by
  rw [nodes_split hb, put_eq]
  congr 1
  · apply flatMap_congr'
    intro c hc
    rw [put_ne]
    rw [List.mem_range] at hc; omega
  · congr 1
    apply flatMap_congr'
    intro c hc
    rw [put_ne]
    rw [List.mem_range'] at hc; omega

theorem mem_nodes {f : Nat → List Nat} {i : Nat} : i ∈ nodes H f ↔ ∃ b, b < H ∧ i ∈ f b := by
  unfold nodes
  rw [List.mem_flatMap]
  simp only [List.mem_range]

theorem nodes_add {f : Nat → List Nat} {b i : Nat} (hb : b < H) : (nodes H (put f b (f b ++ [i]))).Perm (i :: nodes H f) := by
  rw [nodes_put _ hb, nodes_split hb]
  generalize (List.range b).flatMap f = A
  generalize (List.range' (b + 1) (H - (b + 1))).flatMap f = B
  have : A ++ (f b ++ [i] ++ B) = (A ++ f b) ++ i :: B := by simp
  rw [this]
  refine List.perm_middle.trans ?_
  simp

theorem nodes_del {f : Nat → List Nat} {b i : Nat} {xs ys : List Nat} (hb : b < H) (hf : f b = xs ++ i :: ys) :
    (nodes H f).Perm (i :: nodes H (put f b (xs ++ ys))) := by
  rw [nodes_put _ hb, nodes_split hb, hf]
  generalize (List.range b).flatMap f = A
  generalize (List.range' (b + 1) (H - (b + 1))).flatMap f = B
  have : A ++ (xs ++ i :: ys ++ B) = (A ++ xs) ++ i :: (ys ++ B) := by simp
  rw [this]
  refine List.perm_middle.trans ?_
  simp

theorem inj_of_nodup_map {α β} {g : α → β} : ∀ {l : List α}, (l.map g).Nodup → ∀ {x y}, x ∈ l → y ∈ l → g x = g y → x = y := by
  intro l
  induction l with
  | nil => intro _ x y h; simp at h
  | cons a l ih =>
    intro h x y hx hy hg
    rw [List.map_cons, List.nodup_cons] at h
    rcases List.mem_cons.mp hx with e1 | hx1 <;> rcases List.mem_cons.mp hy with e2 | hy1
    · rw [e1, e2]
    · exact absurd (List.mem_map.mpr ⟨y, hy1, by rw [← hg, e1]⟩) h.1
    · exact absurd (List.mem_map.mpr ⟨x, hx1, by rw [hg, e2]⟩) h.1
    · exact ih h.2 hx1 hy1 hg

/-! ### chains -/

def Chain (next : Nat → Nat) : Nat → List Nat → Prop
  | e, [] => e = NONE
  | e, i :: is => e = i ∧ Chain next (next i) is

theorem Chain_frame {next next' : Nat → Nat} : ∀ {is : List Nat} {e : Nat}, (∀ i ∈ is, next' i = next i) → Chain next e is → Chain next' e is := by
  intro is
  induction is with
  | nil => intro e _ h; exact h
  | cons i is ih =>
    intro e hf h
    refine ⟨h.1, ?_⟩
    rw [hf i (by simp)]
    exact ih (fun j hj => hf j (by simp [hj])) h.2

/-- appending a node to a non-empty chain -/
theorem Chain_snoc {next : Nat → Nat} {j : Nat} : ∀ {xs : List Nat} {e l : Nat}, Chain next e (xs ++ [l]) → l ≠ j → j ∉ xs → l ∉ xs →
    Chain (put (put next j NONE) l j) e (xs ++ [l] ++ [j]) := by
  intro xs
  induction xs with
  | nil =>
    intro e l h hl _ _
    refine ⟨h.1, ?_⟩
    rw [put_eq]
    refine ⟨rfl, ?_⟩
    rw [put_ne _ _ (fun h => hl h.symm), put_eq]
    rfl
  | cons i xs ih =>
    intro e l h hl hj hlx
    refine ⟨h.1, ?_⟩
    simp only [List.mem_cons, not_or] at hj hlx
    rw [put_ne _ _ (fun h => hlx.1 h.symm), put_ne _ _ (fun h => hj.1 h.symm)]
    exact ih h.2 hl hj.2 hlx.2

/-- taking a node out of the middle of a chain -/
theorem Chain_cut {next : Nat → Nat} {p i : Nat} {ys : List Nat} : ∀ {xs : List Nat} {e : Nat}, Chain next e (xs ++ p :: i :: ys) →
    (xs ++ p :: i :: ys).Nodup → Chain (put next p (next i)) e (xs ++ p :: ys) := by
  intro xs
  induction xs with
  | nil =>
    intro e h hn
    simp only [List.nil_append, List.nodup_cons, List.mem_cons, not_or] at hn
    refine ⟨h.1, ?_⟩
    rw [put_eq]
    exact Chain_frame (fun j hj => put_ne _ _ (fun h => hn.1.2 (h ▸ hj))) h.2.2
  | cons x xs ih =>
    intro e h hn
    rw [List.cons_append, List.nodup_cons] at hn
    refine ⟨h.1, ?_⟩
    rw [put_ne]
    · exact ih h.2 hn.2
    · rintro rfl; exact hn.1 (by simp)

theorem readLoop_spec {m : Map V} {k : UInt64} (hN : N < NONE) : ∀ {is : List Nat} {fuel e : Nat}, Chain m.next e is → (∀ i ∈ is, i < N) →
    is.length < fuel → readLoop N m k fuel e = .ok ((is.find? (fun i => decide (k = m.key i))).map m.val) := by
  intro is
  induction is with
  | nil =>
    intro fuel e h _ hf
    cases fuel with
    | zero => omega
    | succ f =>
      have h' : e = NONE := h
      rw [readLoop, if_pos h']; rfl
  | cons i is ih =>
    intro fuel e h hb hf
    cases fuel with
    | zero => omega
    | succ f =>
      obtain ⟨rfl, h⟩ := h
      have hi := hb e (by simp)
      rw [readLoop, if_neg (by omega), if_pos hi, List.find?_cons]
      by_cases hk : k = m.key e
      · rw [if_pos hk]; simp [hk]
      · rw [if_neg hk]
        simp only [hk, decide_false]
        exact ih h (fun j hj => hb j (by simp [hj])) (by simp at hf; omega)

theorem findLast_spec {m : Map V} {k : UInt64} (hN : N < NONE) : ∀ {is : List Nat} {fuel e : Nat}, Chain m.next e is → (∀ i ∈ is, i < N) →
    is.length ≤ fuel → is ≠ [] →
    (∃ i, i ∈ is ∧ m.key i = k ∧ findLast N m k fuel e = .ok (i, true)) ∨
    ((∀ i ∈ is, m.key i ≠ k) ∧ ∃ xs l, is = xs ++ [l] ∧ findLast N m k fuel e = .ok (l, false)) := by
  intro is
  induction is with
  | nil => intro fuel e _ _ _ h; exact absurd rfl h
  | cons i is ih =>
    intro fuel e h hb hf _
    cases fuel with
    | zero => simp at hf
    | succ f =>
      obtain ⟨rfl, h⟩ := h
      have hi := hb e (by simp)
      rw [findLast, if_pos hi]
      by_cases hk : k = m.key e
      · rw [if_pos hk]
        exact Or.inl ⟨e, by simp, hk.symm, rfl⟩
      · rw [if_neg hk]
        cases is with
        | nil =>
          rw [if_neg (by simpa [Chain] using h)]
          exact Or.inr ⟨by simp; exact fun h => hk h.symm, [], e, rfl, rfl⟩
        | cons j is =>
          have hj : m.next e = j := h.1
          rw [if_pos (by rw [hj]; have := hb j (by simp); omega)]
          rcases ih h (fun j hj => hb j (by simp at hj ⊢; exact Or.inr hj)) (by simp at hf ⊢; omega) (by simp) with ⟨i, h1, h2, h3⟩ | ⟨h1, xs, l, h2, h3⟩
          · exact Or.inl ⟨i, List.mem_cons_of_mem _ h1, h2, h3⟩
          · refine Or.inr ⟨?_, e :: xs, l, by rw [h2]; rfl, h3⟩
            intro x hx
            rcases List.mem_cons.mp hx with rfl | hx
            · exact fun h => hk h.symm
            · exact h1 x hx

theorem findPrev_spec {m : Map V} {k : UInt64} (hN : N < NONE) : ∀ {is : List Nat} {fuel p e : Nat}, Chain m.next e is → (∀ i ∈ is, i < N) →
    is.length < fuel →
    ((∀ i ∈ is, m.key i ≠ k) ∧ findPrev N m k fuel p e = .ok none) ∨
    (∃ xs q i ys, p :: is = xs ++ q :: i :: ys ∧ m.key i = k ∧ findPrev N m k fuel p e = .ok (some (q, i))) := by
  intro is
  induction is with
  | nil =>
    intro fuel p e h _ hf
    cases fuel with
    | zero => omega
    | succ f =>
      have h' : e = NONE := h
      rw [findPrev, if_pos h']; exact Or.inl ⟨by simp, rfl⟩
  | cons i is ih =>
    intro fuel p e h hb hf
    cases fuel with
    | zero => omega
    | succ f =>
      obtain ⟨rfl, h⟩ := h
      have hi := hb e (by simp)
      rw [findPrev, if_neg (by omega), if_pos hi]
      by_cases hk : k = m.key e
      · rw [if_pos hk]; exact Or.inr ⟨[], p, e, is, rfl, hk.symm, rfl⟩
      · rw [if_neg hk]
        rcases ih (p := e) h (fun j hj => hb j (by simp [hj])) (by simp at hf; omega) with ⟨h1, h2⟩ | ⟨xs, q, i, ys, h1, h2, h3⟩
        · refine Or.inl ⟨?_, h2⟩
          intro x hx
          rcases List.mem_cons.mp hx with rfl | hx
          · exact fun h => hk h.symm
          · exact h1 x hx
        · exact Or.inr ⟨p :: xs, q, i, ys, by rw [h1]; rfl, h2, h3⟩

/-! ### the representation -/

structure Rep (N H : Nat) (m : Map V) (f : Nat → List Nat) (fr : List Nat) (lk : Nat) (l : Spec.Bindings V) : Prop where
  chain : ∀ b, b < H → Chain m.next (m.hash b) (f b)
  bucket : ∀ b, b < H → ∀ i ∈ f b, (m.key i).toNat % H = b
  keys : ((nodes H f).map m.key).Nodup
  pool : PRep N m.pool (nodes H f) fr lk
  abs : l.Perm ((nodes H f).map (fun i => (m.key i, m.val i)))

theorem PRep_perm {p : Pool} {al al' fr : List Nat} {lk : Nat} (h : PRep N p al fr lk) (hp : al.Perm al') : PRep N p al' fr lk := by
  have hp' : (al ++ fr).Perm (al' ++ fr) := hp.append_right fr
  exact ⟨h.free, h.cur, hp'.nodup_iff.mp h.nodup, fun i hi => h.bound i (hp'.mem_iff.mpr hi), by rw [← hp'.length_eq]; exact h.count⟩

theorem PRep_leak {p : Pool} {al fr : List Nat} {i lk : Nat} (h : PRep N p (i :: al) fr lk) : PRep N p al fr (lk + 1) := by
  have hn := h.nodup
  rw [List.cons_append, List.nodup_cons] at hn
  refine ⟨h.free, h.cur, hn.2, fun j hj => h.bound j (by simp at hj ⊢; exact Or.inr hj), ?_⟩
  have := h.count
  rw [List.cons_append, List.length_cons] at this
  omega

namespace Rep

variable {m : Map V} {f : Nat → List Nat} {fr : List Nat} {lk : Nat} {l : Spec.Bindings V}

theorem lt (h : Rep N H m f fr lk l) {i : Nat} (hi : i ∈ nodes H f) : i < N := by
  have h1 := h.pool.bound i (List.mem_append.mpr (Or.inl hi))
  have h2 := h.pool.cur
  omega

theorem nodup (h : Rep N H m f fr lk l) : (nodes H f).Nodup := (List.nodup_append.mp h.pool.nodup).1

theorem length (h : Rep N H m f fr lk l) : (nodes H f).length = l.length := by
  have := h.abs.length_eq; simpa using this.symm

theorem len_le (h : Rep N H m f fr lk l) (hb : b < H) : (f b).length ≤ N := by
  have h1 := count_le h.pool
  have h2 : (nodes H f).length = _ := congrArg List.length (nodes_split (f := f) hb)
  simp only [List.length_append] at h2
  omega

theorem key_inj (h : Rep N H m f fr lk l) {i j : Nat} (hi : i ∈ nodes H f) (hj : j ∈ nodes H f) (hk : m.key i = m.key j) : i = j :=
  inj_of_nodup_map h.keys hi hj hk

theorem fb_nodup (h : Rep N H m f fr lk l) (hb : b < H) : (f b).Nodup := by
  have := h.nodup
  rw [nodes_split hb, List.nodup_append] at this
  exact (List.nodup_append.mp this.2.1).1

theorem disj (h : Rep N H m f fr lk l) (hb : b < H) (hc : c < H) (hbc : c ≠ b) {i : Nat} (hi : i ∈ f b) : i ∉ f c := by
  intro hi'
  exact hbc ((h.bucket c hc i hi').symm.trans (h.bucket b hb i hi))

theorem mem_bucket (h : Rep N H m f fr lk l) {i : Nat} {k : UInt64} (hi : i ∈ nodes H f) (hk : m.key i = k) : i ∈ f (k.toNat % H) := by
  obtain ⟨b, hb, hib⟩ := mem_nodes.mp hi
  have := h.bucket b hb i hib
  rw [hk] at this
  rw [this]; exact hib

theorem keysL (h : Rep N H m f fr lk l) : (l.map (·.1)).Nodup := by
  have := h.abs.map (fun p : UInt64 × V => p.1)
  rw [this.nodup_iff, List.map_map]
  exact h.keys

theorem has_iff (h : Rep N H m f fr lk l) (hH : 0 < H) (k : UInt64) : Spec.has l k ↔ ∃ i ∈ f (k.toNat % H), m.key i = k := by
  unfold Spec.has
  have hp := h.abs.map (fun p : UInt64 × V => p.1)
  rw [hp.mem_iff, List.map_map, List.mem_map]
  constructor
  · rintro ⟨i, hi, hk⟩
    exact ⟨i, h.mem_bucket hi hk, hk⟩
  · rintro ⟨i, hi, hk⟩
    exact ⟨i, mem_nodes.mpr ⟨_, Nat.mod_lt _ hH, hi⟩, hk⟩

end Rep

theorem lookup_mem {l : Spec.Bindings V} {k : UInt64} {v : V} (hn : (l.map (·.1)).Nodup) (h : (k, v) ∈ l) : Spec.lookup l k = some v := by
  induction l with
  | nil => simp at h
  | cons p l ih =>
    unfold Spec.lookup at *
    rw [List.find?_cons]
    rw [List.map_cons, List.nodup_cons] at hn
    rcases List.mem_cons.mp h with rfl | h
    · simp
    · have : p.1 ≠ k := by
        rintro rfl
        exact hn.1 (List.mem_map.mpr ⟨_, h, rfl⟩)
      simp only [this, decide_false]
      exact ih hn.2 h

theorem lookup_none {l : Spec.Bindings V} {k : UInt64} (h : ¬ Spec.has l k) : Spec.lookup l k = none := by
  unfold Spec.lookup
  rw [Option.map_eq_none_iff, List.find?_eq_none]
  intro p hp
  simp only [decide_eq_true_eq]
  rintro rfl
  exact h (List.mem_map.mpr ⟨p, hp, rfl⟩)

theorem read_spec (hN : N < NONE) (hH : 0 < H) {m : Map V} {f : Nat → List Nat} {fr : List Nat} {lk : Nat} {l : Spec.Bindings V}
    (h : Rep N H m f fr lk l) (k : UInt64) : unprotected_read N H m k = .ok (Spec.lookup l k) := by
  have hb := Nat.mod_lt k.toNat hH
  have hm : ∀ i ∈ f (k.toNat % H), i ∈ nodes H f := fun i hi => mem_nodes.mpr ⟨_, hb, hi⟩
  unfold unprotected_read
  rw [if_neg (by omega), readLoop_spec hN (h.chain _ hb) (fun i hi => h.lt (hm i hi)) (by have := h.len_le hb; omega)]
  congr 1
  cases hf : (f (k.toNat % H)).find? (fun i => decide (k = m.key i)) with
  | none =>
    rw [lookup_none]; · rfl
    rw [h.has_iff hH]
    rintro ⟨i, hi, hk⟩
    rw [List.find?_eq_none] at hf
    exact hf i hi (by simp [hk])
  | some i =>
    have h1 := List.mem_of_find?_eq_some hf
    have h2 := List.find?_some hf
    simp only [decide_eq_true_eq] at h2
    rw [lookup_mem (v := m.val i) h.keysL]; · rfl
    rw [h.abs.mem_iff, List.mem_map]
    exact ⟨i, hm i h1, by rw [h2]⟩

/-! ### changing the representation -/

theorem rep_add (hH : 0 < H) {m m' : Map V} {f : Nat → List Nat} {fr fr' : List Nat} {lk : Nat} {l : Spec.Bindings V}
    (h : Rep N H m f fr lk l) {k : UInt64} {v : V} {nn : Nat} (hnn : nn ∉ nodes H f) (hk : ¬ Spec.has l k)
    (hp : PRep N m'.pool (nn :: nodes H f) fr' lk) (hkey : m'.key = put m.key nn k) (hval : m'.val = put m.val nn v)
    (hc : Chain m'.next (m'.hash (k.toNat % H)) (f (k.toNat % H) ++ [nn]))
    (ho : ∀ c, c < H → c ≠ k.toNat % H → Chain m'.next (m'.hash c) (f c)) :
    Rep N H m' (put f (k.toNat % H) (f (k.toNat % H) ++ [nn])) fr' lk (Spec.bind l k v) := by
  have hb := Nat.mod_lt k.toNat hH
  have hperm := nodes_add (f := f) (i := nn) hb
  have hkold : ∀ i ∈ nodes H f, m'.key i = m.key i := by
    intro i hi; rw [hkey, put_ne]; rintro rfl; exact hnn hi
  have hvold : ∀ i ∈ nodes H f, m'.val i = m.val i := by
    intro i hi; rw [hval, put_ne]; rintro rfl; exact hnn hi
  have hknew : m'.key nn = k := by rw [hkey, put_eq]
  constructor
  · intro c hc'
    by_cases hcb : c = k.toNat % H
    · subst hcb; rw [put_eq]; exact hc
    · rw [put_ne _ _ hcb]; exact ho c hc' hcb
  · intro c hc' i hi
    by_cases hcb : c = k.toNat % H
    · subst hcb
      rw [put_eq, List.mem_append, List.mem_singleton] at hi
      rcases hi with hi | rfl
      · rw [hkold i (mem_nodes.mpr ⟨_, hb, hi⟩)]; exact h.bucket _ hb i hi
      · rw [hknew]
    · rw [put_ne _ _ hcb] at hi
      rw [hkold i (mem_nodes.mpr ⟨_, hc', hi⟩)]; exact h.bucket _ hc' i hi
  · rw [(hperm.map m'.key).nodup_iff, List.map_cons, List.nodup_cons, hknew]
    rw [List.map_congr_left hkold]
    refine ⟨?_, h.keys⟩
    intro hmem
    obtain ⟨i, hi, hki⟩ := List.mem_map.mp hmem
    exact hk ((h.has_iff hH k).mpr ⟨i, h.mem_bucket hi hki, hki⟩)
  · exact PRep_perm hp hperm.symm
  · unfold Spec.bind
    rw [if_neg hk]
    refine List.Perm.trans ?_ (hperm.map _).symm
    rw [List.map_cons, hknew, show m'.val nn = v by rw [hval, put_eq]]
    refine List.Perm.cons _ ?_
    rw [List.map_congr_left (g := fun i => (m.key i, m.val i)) (fun i hi => by rw [hkold i hi, hvold i hi])]
    exact h.abs

theorem rep_del {m m' : Map V} {f : Nat → List Nat} {fr fr' : List Nat} {lk lk' : Nat} {l : Spec.Bindings V}
    (h : Rep N H m f fr lk l) {k : UInt64} {i b : Nat} {xs ys : List Nat} (hb : b < H) (hf : f b = xs ++ i :: ys) (hk : m.key i = k)
    (hp : PRep N m'.pool (nodes H (put f b (xs ++ ys))) fr' lk') (hkey : m'.key = m.key) (hval : m'.val = m.val)
    (hc : Chain m'.next (m'.hash b) (xs ++ ys)) (ho : ∀ c, c < H → c ≠ b → Chain m'.next (m'.hash c) (f c)) :
    Rep N H m' (put f b (xs ++ ys)) fr' lk' (Spec.unbind l k) := by
  have hperm := nodes_del hb hf
  have hkeys := h.keys
  rw [(hperm.map m.key).nodup_iff, List.map_cons, List.nodup_cons] at hkeys
  constructor
  · intro c hc'
    by_cases hcb : c = b
    · subst hcb; rw [put_eq]; exact hc
    · rw [put_ne _ _ hcb]; exact ho c hc' hcb
  · intro c hc' j hj
    rw [hkey]
    by_cases hcb : c = b
    · subst hcb
      rw [put_eq] at hj
      apply h.bucket _ hb
      rw [hf]
      rcases List.mem_append.mp hj with h | h <;> simp [h]
    · rw [put_ne _ _ hcb] at hj
      exact h.bucket _ hc' j hj
  · rw [hkey]; exact hkeys.2
  · exact hp
  · rw [hkey, hval]
    have h1 := h.abs.trans (hperm.map (fun i => (m.key i, m.val i)))
    have h2 := h1.filter (fun p => decide (p.1 ≠ k))
    unfold Spec.unbind
    refine h2.trans ?_
    rw [List.map_cons, List.filter_cons]
    simp only [hk, ne_eq, not_true_eq_false, decide_false, Bool.false_eq_true, if_false]
    rw [List.filter_eq_self.mpr]
    intro p hp
    obtain ⟨j, hj, rfl⟩ := List.mem_map.mp hp
    simp only [decide_eq_true_eq]
    intro hkj
    exact hkeys.1 (List.mem_map.mpr ⟨j, hj, by rw [hkj, hk]⟩)

theorem rep_same {m m' : Map V} {f : Nat → List Nat} {fr fr' : List Nat} {lk lk' : Nat} {l : Spec.Bindings V}
    (h : Rep N H m f fr lk l) (hp : PRep N m'.pool (nodes H f) fr' lk') (hkey : ∀ i ∈ nodes H f, m'.key i = m.key i)
    (hval : ∀ i ∈ nodes H f, m'.val i = m.val i) (hnext : ∀ i ∈ nodes H f, m'.next i = m.next i) (hhash : m'.hash = m.hash) :
    Rep N H m' f fr' lk' l := by
  constructor
  · intro c hc
    rw [hhash]
    exact Chain_frame (fun i hi => hnext i (mem_nodes.mpr ⟨c, hc, hi⟩)) (h.chain c hc)
  · intro c hc i hi
    rw [hkey i (mem_nodes.mpr ⟨c, hc, hi⟩)]; exact h.bucket c hc i hi
  · rw [List.map_congr_left hkey]; exact h.keys
  · exact hp
  · rw [List.map_congr_left (g := fun i => (m.key i, m.val i)) (fun i hi => by rw [hkey i hi, hval i hi])]
    exact h.abs

theorem rep_val {m : Map V} {f : Nat → List Nat} {fr : List Nat} {lk : Nat} {l : Spec.Bindings V}
    (h : Rep N H m f fr lk l) {k : UInt64} {v : V} {i : Nat} (hi : i ∈ nodes H f) (hk : m.key i = k) :
    Rep N H { m with val := put m.val i v } f fr lk (Spec.bind l k v) := by
  have hhas : Spec.has l k := by
    unfold Spec.has
    rw [(h.abs.map (fun p : UInt64 × V => p.1)).mem_iff, List.map_map, List.mem_map]
    exact ⟨i, hi, hk⟩
  refine ⟨h.chain, h.bucket, h.keys, h.pool, ?_⟩
  unfold Spec.bind
  rw [if_pos hhas]
  refine (h.abs.map _).trans (List.Perm.of_eq ?_)
  rw [List.map_map]
  apply List.map_congr_left
  intro j hj
  simp only [Function.comp]
  by_cases hkj : m.key j = k
  · have : j = i := h.key_inj hj hi (by rw [hkj, hk])
    subst this
    rw [if_pos hkj, put_eq, hkj]
  · have : j ≠ i := by rintro rfl; exact hkj hk
    rw [if_neg hkj, put_ne _ _ this]

theorem applyM_pool (m : Map V) (w : PWr) (p' : Pool) (h : applyP N m.pool [w] = .ok p') :
    (Wr.pool w : Wr V).apply N H m = .ok { m with pool := p' } := by
  unfold Wr.apply
  rw [applyP] at h
  cases hw : w.apply N m.pool with
  | ub => rw [hw] at h; simp at h
  | ok p1 =>
    rw [hw] at h
    simp only [Res.ok_bind, applyP, Res.ok.injEq] at h
    subst h
    dsimp only
    rw [hw]; rfl

/-- Writing a new node: every strict prefix of the writes leaves the bindings, all of them add one.  `last` links the node in. -/
theorem new_node (hN : N < NONE) (hH : 0 < H) {m : Map V} {f : Nat → List Nat} {fr : List Nat} {lk : Nat} {l : Spec.Bindings V}
    (h : Rep N H m f fr lk l) {k : UInt64} {v : V} (hk : ¬ Spec.has l k) (last : Nat → Wr V)
    (hlast : ∀ nn, nn < N → nn ∉ nodes H f → ∀ mm : Map V, mm.hash = m.hash → mm.next = put m.next nn NONE → ∃ m',
      (last nn).apply N H mm = .ok m' ∧ m'.pool = mm.pool ∧ m'.key = mm.key ∧ m'.val = mm.val ∧
      Chain m'.next (m'.hash (k.toNat % H)) (f (k.toNat % H) ++ [nn]) ∧
      ∀ c, c < H → c ≠ k.toNat % H → Chain m'.next (m'.hash c) (f c)) :
    (l.length + lk = N ∧ allocate N m.pool = .ok (NONE, [])) ∨
    (l.length + lk < N ∧ ∃ nn w, allocate N m.pool = .ok (nn, [w]) ∧ nn ≠ NONE ∧
      (∀ n, n < 5 → ∃ m' fr' lk', applyM N H m ([Wr.pool w, .key nn k, .val nn v, .next nn NONE, last nn].take n) = .ok m' ∧
        Rep N H m' f fr' lk' l ∧ lk ≤ lk' ∧ lk' ≤ lk + 1) ∧
      (∃ m' f' fr', applyM N H m [Wr.pool w, .key nn k, .val nn v, .next nn NONE, last nn] = .ok m' ∧
        Rep N H m' f' fr' lk (Spec.bind l k v))) := by
  have hcnt := h.pool.count
  rw [List.length_append, h.length] at hcnt
  have hcl := count_le h.pool
  rw [h.length] at hcl
  rcases allocate_spec hN h.pool with ⟨rfl, hcur, e⟩ | ⟨nn, w, p', e, e', hnn, hnew, hp⟩
  · left
    refine ⟨?_, e⟩
    simp only [List.length_nil] at hcnt; omega
  · right
    have hp' : ∃ fr', PRep N p' (nn :: nodes H f) fr' lk := by
      rcases hp with ⟨_, _, hp⟩ | ⟨fr', _, _, hp⟩
      · exact ⟨_, hp⟩
      · exact ⟨_, hp⟩
    have hroom : l.length + lk < N := by
      obtain ⟨fr', hp'⟩ := hp'
      have := count_le hp'
      rw [List.length_cons, h.length] at this; omega
    obtain ⟨fr', hp'⟩ := hp'
    have ew := applyM_pool (H := H) m w p' e'
    let m1 : Map V := { m with pool := p' }
    let m2 : Map V := { m1 with key := put m1.key nn k }
    let m3 : Map V := { m2 with val := put m2.val nn v }
    let m4 : Map V := { m3 with next := put m3.next nn NONE }
    have w1 : (Wr.pool w : Wr V).apply N H m = .ok m1 := ew
    have w2 : (Wr.key nn k : Wr V).apply N H m1 = .ok m2 := by simp [Wr.apply, hnn, m2]
    have w3 : (Wr.val nn v : Wr V).apply N H m2 = .ok m3 := by simp [Wr.apply, hnn, m3]
    have w4 : (Wr.next nn NONE : Wr V).apply N H m3 = .ok m4 := by simp [Wr.apply, hnn, m4]
    obtain ⟨m5, w5, g1, g2, g3, g4, g5⟩ := hlast nn hnn hnew m4 rfl rfl
    have hleak := PRep_leak hp'
    have hne : ∀ i ∈ nodes H f, i ≠ nn := fun i hi hh => hnew (hh ▸ hi)
    have r1 : Rep N H m1 f fr' (lk + 1) l := rep_same h hleak (fun _ _ => rfl) (fun _ _ => rfl) (fun _ _ => rfl) rfl
    have r2 : Rep N H m2 f fr' (lk + 1) l := rep_same r1 hleak (fun i hi => put_ne _ _ (hne i hi)) (fun _ _ => rfl) (fun _ _ => rfl) rfl
    have r3 : Rep N H m3 f fr' (lk + 1) l := rep_same r2 hleak (fun _ _ => rfl) (fun i hi => put_ne _ _ (hne i hi)) (fun _ _ => rfl) rfl
    have r4 : Rep N H m4 f fr' (lk + 1) l := rep_same r3 hleak (fun _ _ => rfl) (fun _ _ => rfl) (fun i hi => put_ne _ _ (hne i hi)) rfl
    refine ⟨hroom, nn, w, e, by omega, ?_, ?_⟩
    · intro n hn
      match n, hn with
      | 0, _ => exact ⟨m, fr, lk, rfl, h, by omega, by omega⟩
      | 1, _ => exact ⟨m1, fr', lk + 1, by simp [applyM, w1], r1, by omega, by omega⟩
      | 2, _ => exact ⟨m2, fr', lk + 1, by simp [applyM, w1, w2], r2, by omega, by omega⟩
      | 3, _ => exact ⟨m3, fr', lk + 1, by simp [applyM, w1, w2, w3], r3, by omega, by omega⟩
      | 4, _ => exact ⟨m4, fr', lk + 1, by simp [applyM, w1, w2, w3, w4], r4, by omega, by omega⟩
      | n + 5, hn => omega
    · refine ⟨m5, put f (k.toNat % H) (f (k.toNat % H) ++ [nn]), fr', by simp [applyM, w1, w2, w3, w4, w5], ?_⟩
      refine rep_add hH h (nn := nn) (v := v) hnew hk ?_ ?_ ?_ g4 g5
      · rw [g1]; exact hp'
      · rw [g2]
      · rw [g3]

/-- `insert`, cut after any number of writes -/
theorem insert_spec (hN : N < NONE) (hH : 0 < H) {m : Map V} {f : Nat → List Nat} {fr : List Nat} {lk : Nat} {l : Spec.Bindings V}
    (h : Rep N H m f fr lk l) (k : UInt64) (v : V) :
    ∃ r ws, unprotected_insert N H m k v = .ok (r, ws) ∧
      (r = true → Spec.has l k ∨ l.length + lk < N) ∧ (r = false → ¬ Spec.has l k ∧ l.length + lk = N ∧ ws = []) ∧
      (∀ n, n < ws.length → ∃ m' fr' lk', applyM N H m (ws.take n) = .ok m' ∧ Rep N H m' f fr' lk' l ∧ lk ≤ lk' ∧ lk' ≤ lk + 1) ∧
      (∃ m' f' fr', applyM N H m ws = .ok m' ∧ Rep N H m' f' fr' lk (if r then Spec.bind l k v else l)) := by
  have hb := Nat.mod_lt k.toNat hH
  have hm : ∀ i ∈ f (k.toNat % H), i ∈ nodes H f := fun i hi => mem_nodes.mpr ⟨_, hb, hi⟩
  have hch := h.chain _ hb
  unfold unprotected_insert
  rw [if_neg (by omega)]
  dsimp only
  by_cases hne : f (k.toNat % H) = []
  · have he : m.hash (k.toNat % H) = NONE := by rw [hne] at hch; exact hch
    have hk : ¬ Spec.has l k := by rw [h.has_iff hH, hne]; simp
    rw [if_neg (by rw [he]; simp)]
    rcases new_node hN hH h (v := v) hk (fun nn => .hash (k.toNat % H) nn) (by
        intro nn hnn hnew mm hh hn
        refine ⟨{ mm with hash := put mm.hash (k.toNat % H) nn }, by simp [Wr.apply, hb], rfl, rfl, rfl, ?_, ?_⟩
        · rw [hne]
          refine ⟨put_eq _ _ _, ?_⟩
          show mm.next nn = NONE
          rw [hn, put_eq]
        · intro c hc hcb
          show Chain mm.next (put mm.hash (k.toNat % H) nn c) (f c)
          rw [put_ne _ _ hcb, hh, hn]
          refine Chain_frame (fun i hi => put_ne _ _ ?_) (h.chain c hc)
          rintro rfl; exact hnew (mem_nodes.mpr ⟨c, hc, hi⟩))
      with ⟨hfull, e⟩ | ⟨hroom, nn, w, e, hn1, hcut, hall⟩
    · rw [e, Res.ok_bind]
      dsimp only
      rw [if_pos rfl]
      refine ⟨false, [], rfl, by simp, fun _ => ⟨hk, hfull, rfl⟩, by simp, m, f, fr, rfl, by simpa using h⟩
    · rw [e, Res.ok_bind]
      dsimp only
      rw [if_neg hn1]
      obtain ⟨m', f', fr', h1, h2⟩ := hall
      exact ⟨true, _, rfl, fun _ => Or.inr hroom, by simp, fun n hn => hcut n (by simpa using hn), m', f', fr', h1, by simpa using h2⟩
  · have he : m.hash (k.toNat % H) ≠ NONE := by
      cases hf : f (k.toNat % H) with
      | nil => exact absurd hf hne
      | cons x xs =>
        rw [hf] at hch
        rw [hch.1]
        have := h.lt (hm x (by rw [hf]; simp)); omega
    rw [if_pos he]
    rcases findLast_spec (k := k) hN hch (fun i hi => h.lt (hm i hi)) (by have := h.len_le hb; omega : _ ≤ N + 1) hne
      with ⟨i, hi, hki, e⟩ | ⟨hno, xs, lst, hl, e⟩
    · rw [e, Res.ok_bind]
      dsimp only
      rw [if_pos rfl]
      have hhas : Spec.has l k := (h.has_iff hH k).mpr ⟨i, hi, hki⟩
      refine ⟨true, _, rfl, fun _ => Or.inl hhas, by simp, ?_, ?_⟩
      · intro n hn
        have : n = 0 := by simpa using hn
        subst this
        exact ⟨m, fr, lk, rfl, h, by omega, by omega⟩
      · exact ⟨{ m with val := put m.val i v }, f, fr, by simp [applyM, Wr.apply, h.lt (hm i hi)], by simpa using rep_val h (hm i hi) hki⟩
    · rw [e, Res.ok_bind]
      dsimp only
      rw [if_neg (by simp)]
      have hk : ¬ Spec.has l k := by
        rw [h.has_iff hH]
        rintro ⟨i, hi, hki⟩
        exact hno i hi hki
      have hlst : lst ∈ f (k.toNat % H) := by rw [hl]; simp
      have hfn := h.fb_nodup hb
      rcases new_node hN hH h (v := v) hk (fun nn => .next lst nn) (by
          intro nn hnn hnew mm hh hn
          have hln : lst ≠ nn := by rintro rfl; exact hnew (hm _ hlst)
          refine ⟨{ mm with next := put mm.next lst nn }, by simp [Wr.apply, h.lt (hm _ hlst)], rfl, rfl, rfl, ?_, ?_⟩
          · show Chain (put mm.next lst nn) (mm.hash _) _
            rw [hh, hn, hl]
            rw [hl] at hch hfn
            rw [List.nodup_append] at hfn
            refine Chain_snoc hch hln ?_ ?_
            · intro hx; exact hnew (hm nn (by rw [hl]; simp [hx]))
            · intro hx; exact hfn.2.2 lst hx lst (by simp) rfl
          · intro c hc hcb
            show Chain (put mm.next lst nn) (mm.hash c) (f c)
            rw [hh, hn]
            refine Chain_frame (fun i hi => ?_) (h.chain c hc)
            rw [put_ne, put_ne]
            · rintro rfl; exact hnew (mem_nodes.mpr ⟨c, hc, hi⟩)
            · rintro rfl; exact h.disj hb hc hcb hlst hi)
        with ⟨hfull, e⟩ | ⟨hroom, nn, w, e, hn1, hcut, hall⟩
      · rw [e, Res.ok_bind]
        dsimp only
        rw [if_pos rfl]
        refine ⟨false, [], rfl, by simp, fun _ => ⟨hk, hfull, rfl⟩, by simp, m, f, fr, rfl, by simpa using h⟩
      · rw [e, Res.ok_bind]
        dsimp only
        rw [if_neg hn1]
        obtain ⟨m', f', fr', h1, h2⟩ := hall
        exact ⟨true, _, rfl, fun _ => Or.inr hroom, by simp, fun n hn => hcut n (by simpa using hn), m', f', fr', h1, by simpa using h2⟩

/-- Taking node `i` out of its chain with the write `first`, then freeing it. -/
theorem del_node (hN : N < NONE) {m : Map V} {f : Nat → List Nat} {fr : List Nat} {lk : Nat} {l : Spec.Bindings V}
    (h : Rep N H m f fr lk l) {k : UInt64} {b i : Nat} {xs ys : List Nat} (hb : b < H) (hf : f b = xs ++ i :: ys) (hki : m.key i = k)
    (first : Wr V) (m1 : Map V) (w1 : first.apply N H m = .ok m1) (g1 : m1.pool = m.pool) (g2 : m1.key = m.key) (g3 : m1.val = m.val)
    (hc : Chain m1.next (m1.hash b) (xs ++ ys)) (ho : ∀ c, c < H → c ≠ b → Chain m1.next (m1.hash c) (f c)) :
    (pfree N m.pool i).2 = [.stk (.top fr.length), .stk (.data fr.length i)] ∧
    (∃ m1 f', applyM N H m [first] = .ok m1 ∧ Rep N H m1 f' fr (lk + 1) (Spec.unbind l k)) ∧
    (∃ m2 f', applyM N H m [first, .next i NONE] = .ok m2 ∧ Rep N H m2 f' fr (lk + 1) (Spec.unbind l k)) ∧
    (∃ m4 f' fr', applyM N H m [first, .next i NONE, .pool (.stk (.top fr.length)), .pool (.stk (.data fr.length i))] = .ok m4 ∧
      Rep N H m4 f' fr' lk (Spec.unbind l k)) := by
  have hi : i ∈ nodes H f := mem_nodes.mpr ⟨b, hb, by rw [hf]; simp⟩
  have hin := h.lt hi
  have hperm := nodes_del hb hf
  have hp := PRep_perm h.pool hperm
  have hnd := hp.nodup
  rw [List.cons_append, List.nodup_cons] at hnd
  have hnot : i ∉ nodes H (put f b (xs ++ ys)) := fun hh => hnd.1 (List.mem_append.mpr (Or.inl hh))
  obtain ⟨e, p', e', _, hp'⟩ := free_spec (al1 := []) hN hp
  rw [List.nil_append] at hp'
  let m2 : Map V := { m1 with next := put m1.next i NONE }
  have w2 : (Wr.next i NONE : Wr V).apply N H m1 = .ok m2 := by simp [Wr.apply, hin, m2]
  have r1 : Rep N H m1 (put f b (xs ++ ys)) fr (lk + 1) (Spec.unbind l k) :=
    rep_del h hb hf hki (by rw [g1]; exact PRep_leak hp) g2 g3 hc ho
  have r2 : Rep N H m2 (put f b (xs ++ ys)) fr (lk + 1) (Spec.unbind l k) :=
    rep_same r1 (by show PRep N m1.pool _ _ _; rw [g1]; exact PRep_leak hp) (fun _ _ => rfl) (fun _ _ => rfl)
      (fun j hj => put_ne _ _ (fun hh => hnot (hh ▸ hj))) rfl
  let m4 : Map V := { m2 with pool := p' }
  have r4 : Rep N H m4 (put f b (xs ++ ys)) (i :: fr) lk (Spec.unbind l k) :=
    rep_same r2 hp' (fun _ _ => rfl) (fun _ _ => rfl) (fun _ _ => rfl) rfl
  have w34 : applyM N H m2 [.pool (.stk (.top fr.length)), .pool (.stk (.data fr.length i))] = .ok m4 := by
    have hm2 : m2.pool = m.pool := g1
    simp only [applyM, Wr.apply, hm2]
    simp only [applyP] at e'
    cases ha : PWr.apply N m.pool (.stk (.top fr.length)) with
    | ub => rw [ha] at e'; simp at e'
    | ok pa =>
      rw [ha] at e'
      simp only [Res.ok_bind] at e' ⊢
      cases hb' : PWr.apply N pa (.stk (.data fr.length i)) with
      | ub => rw [hb'] at e'; simp at e'
      | ok pb =>
        rw [hb'] at e'
        simp only [Res.ok_bind, Res.ok.injEq] at e' ⊢
        subst e'
        rfl
  refine ⟨by rw [e], ⟨m1, _, by simp [applyM, w1], r1⟩, ⟨m2, _, by simp [applyM, w1, w2], r2⟩, ⟨m4, _, _, ?_, r4⟩⟩
  rw [applyM, w1, Res.ok_bind, applyM, w2, Res.ok_bind]
  exact w34

/-- `erase`, cut after any number of writes but three -/
theorem erase_spec (hN : N < NONE) (hH : 0 < H) {m : Map V} {f : Nat → List Nat} {fr : List Nat} {lk : Nat} {l : Spec.Bindings V}
    (h : Rep N H m f fr lk l) (k : UInt64) :
    (¬ Spec.has l k ∧ unprotected_erase N H m k = .ok (false, [])) ∨
    (Spec.has l k ∧ ∃ ws, unprotected_erase N H m k = .ok (true, ws) ∧ ws.length = 4 ∧
      (∀ n, 0 < n → n < 3 → ∃ m' f' fr', applyM N H m (ws.take n) = .ok m' ∧ Rep N H m' f' fr' (lk + 1) (Spec.unbind l k)) ∧
      (∃ m' f' fr', applyM N H m ws = .ok m' ∧ Rep N H m' f' fr' lk (Spec.unbind l k))) := by
  have hb := Nat.mod_lt k.toNat hH
  have hm : ∀ i ∈ f (k.toNat % H), i ∈ nodes H f := fun i hi => mem_nodes.mpr ⟨_, hb, hi⟩
  have hch := h.chain _ hb
  have hfn := h.fb_nodup hb
  unfold unprotected_erase
  rw [if_neg (by omega)]
  dsimp only
  cases hf : f (k.toNat % H) with
  | nil =>
    left
    have he : m.hash (k.toNat % H) = NONE := by rw [hf] at hch; exact hch
    rw [if_neg (by rw [he]; simp)]
    refine ⟨?_, rfl⟩
    rw [h.has_iff hH, hf]; simp
  | cons x is =>
    rw [hf] at hch hfn
    have hx : x ∈ nodes H f := hm x (by rw [hf]; simp)
    have hxN := h.lt hx
    rw [hch.1, if_pos (by omega), if_pos hxN]
    by_cases hk : k = m.key x
    · right
      rw [if_pos hk]
      refine ⟨(h.has_iff hH k).mpr ⟨x, by rw [hf]; simp, hk.symm⟩, ?_⟩
      obtain ⟨e, ⟨a1, f1, h1, r1⟩, ⟨a2, f2, h2, r2⟩, h4⟩ := del_node hN h (xs := []) (i := x) (ys := is) hb hf hk.symm
        (.hash (k.toNat % H) (m.next x)) { m with hash := put m.hash (k.toNat % H) (m.next x) } (by simp [Wr.apply, hb]) rfl rfl rfl
        (by
          show Chain m.next (put m.hash (k.toNat % H) (m.next x) (k.toNat % H)) is
          rw [put_eq]; exact hch.2)
        (by
          intro c hc hcb
          show Chain m.next (put m.hash (k.toNat % H) (m.next x) c) (f c)
          rw [put_ne _ _ hcb]; exact h.chain c hc)
      rw [e]
      refine ⟨_, rfl, rfl, ?_, h4⟩
      intro n h0 h3
      match n, h0, h3 with
      | 1, _, _ => exact ⟨a1, f1, fr, h1, r1⟩
      | 2, _, _ => exact ⟨a2, f2, fr, h2, r2⟩
    · rw [if_neg hk]
      have hlen : is.length < N + 1 := by
        have := h.len_le hb
        rw [hf] at this; simp at this; omega
      rcases findPrev_spec (k := k) (p := x) hN hch.2 (fun i hi => h.lt (hm i (by rw [hf]; simp [hi]))) hlen with
        ⟨hno, e⟩ | ⟨xs, q, i, ys, hxs, hki, e⟩
      · left
        rw [e, Res.ok_bind]
        refine ⟨?_, rfl⟩
        rw [h.has_iff hH, hf]
        rintro ⟨i, hi, hki⟩
        rcases List.mem_cons.mp hi with rfl | hi
        · exact hk hki.symm
        · exact hno i hi hki
      · right
        rw [e, Res.ok_bind]
        dsimp only
        rw [hxs] at hf hch hfn
        have hf' : f (k.toNat % H) = (xs ++ [q]) ++ i :: ys := by rw [hf]; simp
        refine ⟨(h.has_iff hH k).mpr ⟨i, by rw [hf]; simp, hki⟩, ?_⟩
        have hq : q ∈ f (k.toNat % H) := by rw [hf]; simp
        obtain ⟨e, ⟨a1, f1, h1, r1⟩, ⟨a2, f2, h2, r2⟩, h4⟩ := del_node hN h (xs := xs ++ [q]) (i := i) (ys := ys) hb hf' hki
          (.next q (m.next i)) { m with next := put m.next q (m.next i) } (by simp [Wr.apply, h.lt (hm q hq)]) rfl rfl rfl
          (by
            show Chain (put m.next q (m.next i)) (m.hash _) _
            have := Chain_cut hch hfn
            simpa using this)
          (by
            intro c hc hcb
            show Chain (put m.next q (m.next i)) (m.hash c) (f c)
            refine Chain_frame (fun j hj => put_ne _ _ ?_) (h.chain c hc)
            rintro rfl; exact h.disj hb hc hcb hq hj)
        rw [e]
        refine ⟨_, rfl, rfl, ?_, h4⟩
        intro n h0 h3
        match n, h0, h3 with
        | 1, _, _ => exact ⟨a1, f1, fr, h1, r1⟩
        | 2, _, _ => exact ⟨a2, f2, fr, h2, r2⟩

end Verif.ShmMap

namespace Verif.ShmMap

open Verif.ShmPool

variable {V : Type} {N H : Nat}

/-! ### clear, size -/

theorem applyM_append (m : Map V) (a b : List (Wr V)) : applyM N H m (a ++ b) = (applyM N H m a >>= fun m => applyM N H m b) := by
  induction a generalizing m with
  | nil => rfl
  | cons w a ih =>
    rw [List.cons_append, applyM, applyM]
    cases w.apply N H m with
    | ub => rfl
    | ok m1 => rw [Res.ok_bind, Res.ok_bind, ih]

theorem hash_reset : ∀ n, n ≤ H → ∀ m : Map V, applyM N H m ((List.range n).map (fun i => .hash i NONE)) =
    .ok { m with hash := fun i => if i < n then NONE else m.hash i } := by
  intro n
  induction n with
  | zero => intro _ m; simp [applyM]
  | succ n ih =>
    intro hn m
    rw [List.range_succ, List.map_append, applyM_append, ih (by omega)]
    simp only [Res.ok_bind, List.map_cons, List.map_nil, applyM, Wr.apply]
    rw [if_pos (by omega)]
    simp only [Res.ok_bind]
    congr 2
    funext i
    unfold put
    by_cases h : i = n
    · subst h; simp
    · rw [if_neg h]
      dsimp only
      by_cases h2 : i < n
      · rw [if_pos h2, if_pos (by omega)]
      · rw [if_neg h2, if_neg (by omega)]

theorem nodes_nil : nodes H (fun _ => []) = [] := by
  unfold nodes; simp

theorem rep_init (m : Map V) (h1 : m.pool.cur = 0) (h2 : m.pool.free.top = NONE) (h3 : ∀ b, b < H → m.hash b = NONE) :
    Rep N H m (fun _ => []) [] 0 [] := by
  refine ⟨fun b hb => h3 b hb, fun _ _ _ h => by simp at h, by rw [nodes_nil]; simp, ?_, by rw [nodes_nil]; simp⟩
  rw [nodes_nil]; exact prep_clear _ h2 h1

theorem clear_spec (m : Map V) : ∃ m', applyM N H m (clear H) = .ok m' ∧ Rep N H m' (fun _ => []) [] 0 [] := by
  unfold clear
  rw [applyM_append]
  have : applyM N H m ((pclear : List PWr).map .pool) =
      .ok { m with pool := { cur := 0, free := { m.pool.free with top := NONE } } } := by rfl
  rw [this, Res.ok_bind, hash_reset H (Nat.le_refl H)]
  exact ⟨_, rfl, rep_init _ rfl rfl (fun b hb => by simp [hb])⟩

theorem size_spec (hN : N < NONE) {m : Map V} {f : Nat → List Nat} {fr : List Nat} {lk : Nat} {l : Spec.Bindings V}
    (h : Rep N H m f fr lk l) : size m = l.length + lk := by
  unfold size
  rw [allocated_spec hN h.pool, h.length]

/-! ### iteration -/

def rest (H : Nat) (f : Nat → List Nat) (i : Nat) : List Nat := (List.range' i (H - i)).flatMap f

theorem rest_cons {f : Nat → List Nat} {i : Nat} (h : i < H) : rest H f i = f i ++ rest H f (i + 1) := by
  unfold rest
  rw [show H - i = (H - (i + 1)) + 1 by omega, List.range'_succ, List.flatMap_cons]

theorem scan_spec {m : Map V} {f : Nat → List Nat} {fr : List Nat} {lk : Nat} {l : Spec.Bindings V} (hN : N < NONE)
    (h : Rep N H m f fr lk l) : ∀ n i, i + n = H →
    (rest H f i = [] ∧ scan m n i = (NONE, NONE)) ∨
    (∃ c x xs, c < H ∧ f c = x :: xs ∧ rest H f i = x :: xs ++ rest H f (c + 1) ∧ scan m n i = (c, x)) := by
  intro n
  induction n with
  | zero =>
    intro i hi
    left
    refine ⟨?_, rfl⟩
    unfold rest
    rw [show H - i = 0 by omega]; rfl
  | succ n ih =>
    intro i hi
    have hiH : i < H := by omega
    have hc := h.chain i hiH
    rw [scan, rest_cons hiH]
    cases hf : f i with
    | nil =>
      rw [hf] at hc
      have hc' : m.hash i = NONE := hc
      rw [if_neg (by rw [hc']; simp), List.nil_append]
      exact ih (i + 1) (by omega)
    | cons x xs =>
      rw [hf] at hc
      have hx : x < N := h.lt (mem_nodes.mpr ⟨i, hiH, by rw [hf]; simp⟩)
      rw [if_pos (by rw [hc.1]; omega), hc.1]
      exact Or.inr ⟨i, x, xs, hiH, hf, rfl, rfl⟩

theorem iterate_spec {m : Map V} {f : Nat → List Nat} {fr : List Nat} {lk : Nat} {l : Spec.Bindings V} (hN : N < NONE)
    (h : Rep N H m f fr lk l) : ∀ fuel b x xs, b < H → (∀ i ∈ x :: xs, i ∈ f b) → Chain m.next x (x :: xs) →
    (x :: xs).length + (rest H f (b + 1)).length ≤ fuel →
    iterate N H m fuel (b, x) = .ok ((x :: xs ++ rest H f (b + 1)).map (fun i => (m.key i, m.val i))) := by
  intro fuel
  induction fuel with
  | zero => intro b x xs _ _ _ hf; simp at hf
  | succ fuel ih =>
    intro b x xs hb hmem hc hf
    have hx : x < N := h.lt (mem_nodes.mpr ⟨b, hb, hmem x (by simp)⟩)
    have hne : ¬ ((b, x) : Iter) = end_ := by
      intro hh
      have : x = NONE := congrArg Prod.snd hh
      omega
    rw [iterate, if_neg hne, if_pos hx, incr, if_pos hx]
    cases xs with
    | nil =>
      have hn : m.next x = NONE := hc.2
      rw [if_neg (by rw [hn]; simp), Res.ok_bind]
      rcases scan_spec hN h (H - (b + 1)) (b + 1) (by omega) with ⟨h1, h2⟩ | ⟨c, y, ys, hcH, hfc, h1, h2⟩
      · dsimp only
        rw [h2, h1]
        have : iterate N H m fuel (NONE, NONE) = .ok [] := by cases fuel <;> rfl
        rw [this]; rfl
      · dsimp only
        rw [h2, h1, ih c y ys hcH (by rw [hfc]; exact fun i hi => hi)
          (by have := h.chain c hcH; rw [hfc] at this; exact ⟨rfl, this.2⟩)
          (by rw [h1] at hf; simp only [List.length_append, List.length_cons, List.length_nil] at hf ⊢; omega)]
        rfl
    | cons y ys =>
      have hn : m.next x = y := hc.2.1
      have hy : y < N := h.lt (mem_nodes.mpr ⟨b, hb, hmem y (by simp)⟩)
      rw [if_pos (by rw [hn]; omega), Res.ok_bind]
      dsimp only
      rw [hn, ih b y ys hb (fun i hi => hmem i (List.mem_cons_of_mem _ hi)) ⟨rfl, hc.2.2⟩
        (by simp only [List.length_cons] at hf ⊢; omega)]
      rfl

theorem begin_spec {m : Map V} {f : Nat → List Nat} {fr : List Nat} {lk : Nat} {l : Spec.Bindings V} (hN : N < NONE)
    (h : Rep N H m f fr lk l) : iterate N H m N (begin_ H m) = .ok ((nodes H f).map (fun i => (m.key i, m.val i))) := by
  have hr : rest H f 0 = nodes H f := by
    unfold rest nodes
    rw [List.range_eq_range']; rfl
  have hlen := count_le h.pool
  unfold begin_
  rcases scan_spec hN h H 0 (by omega) with ⟨h1, h2⟩ | ⟨c, y, ys, hcH, hfc, h1, h2⟩
  · rw [h2, ← hr, h1]
    cases N <;> rfl
  · rw [h2, ← hr, h1]
    exact iterate_spec hN h N c y ys hcH (by rw [hfc]; exact fun i hi => hi)
      (by have := h.chain c hcH; rw [hfc] at this; exact ⟨rfl, this.2⟩)
      (by rw [← hr, h1] at hlen; simp only [List.length_append] at hlen; omega)

/-! ### complete operations -/

theorem insert_done (hN : N < NONE) (hH : 0 < H) {m : Map V} {f : Nat → List Nat} {fr : List Nat} {lk : Nat} {l : Spec.Bindings V}
    (h : Rep N H m f fr lk l) (k : UInt64) (v : V) :
    ∃ m' r f' fr', insert N H m k v = .ok (m', r) ∧
      ((r = true ∧ (Spec.has l k ∨ l.length + lk < N) ∧ Rep N H m' f' fr' lk (Spec.bind l k v)) ∨
       (r = false ∧ ¬ Spec.has l k ∧ l.length + lk = N ∧ m' = m ∧ Rep N H m' f' fr' lk l)) := by
  obtain ⟨r, ws, e, ht, hf, _, m', f', fr', e', h'⟩ := insert_spec hN hH h k v
  refine ⟨m', r, f', fr', by unfold insert; rw [e, Res.ok_bind]; dsimp only; rw [e', Res.ok_bind], ?_⟩
  cases r with
  | true => exact Or.inl ⟨rfl, ht rfl, by simpa using h'⟩
  | false =>
    obtain ⟨h1, h2, rfl⟩ := hf rfl
    have : m' = m := by simp only [applyM, Res.ok.injEq] at e'; exact e'.symm
    exact Or.inr ⟨rfl, h1, h2, this, by simpa using h'⟩

theorem unbind_absent {l : Spec.Bindings V} {k : UInt64} (h : ¬ Spec.has l k) : Spec.unbind l k = l := by
  unfold Spec.unbind
  rw [List.filter_eq_self]
  intro p hp
  simp only [ne_eq, decide_eq_true_eq]
  rintro rfl
  exact h (List.mem_map.mpr ⟨p, hp, rfl⟩)

theorem erase_done (hN : N < NONE) (hH : 0 < H) {m : Map V} {f : Nat → List Nat} {fr : List Nat} {lk : Nat} {l : Spec.Bindings V}
    (h : Rep N H m f fr lk l) (k : UInt64) :
    ∃ m' f' fr', erase N H m k = .ok (m', decide (Spec.has l k)) ∧ Rep N H m' f' fr' lk (Spec.unbind l k) := by
  unfold erase
  rcases erase_spec hN hH h k with ⟨h1, e⟩ | ⟨h1, ws, e, _, _, m', f', fr', e', h'⟩
  · rw [e, unbind_absent h1]
    exact ⟨m, f, fr, by simp [applyM, h1], h⟩
  · rw [e]
    exact ⟨m', f', fr', by simp [e', h1], h'⟩

/-- one operation against the specification with capacity `N - lk` -/
theorem step_spec (hN : N < NONE) (hH : 0 < H) {m : Map V} {f : Nat → List Nat} {fr : List Nat} {lk : Nat} {l : Spec.Bindings V}
    (h : Rep N H m f fr lk l) (op : Op V) :
    ∃ m' f' fr', step N H m op = .ok (m', (Spec.stepL N lk l op).2.2) ∧ Rep N H m' f' fr' (Spec.stepL N lk l op).2.1 (Spec.stepL N lk l op).1 := by
  have hcl := count_le h.pool
  rw [h.length] at hcl
  cases op with
  | read k =>
    exact ⟨m, f, fr, by simp [step, read_spec hN hH h, Spec.stepL, Spec.step], h⟩
  | insert k v =>
    obtain ⟨m', r, f', fr', e, hr⟩ := insert_done hN hH h k v
    simp only [step, e, Res.ok_bind, Spec.stepL, Spec.step]
    rcases hr with ⟨rfl, hh, h'⟩ | ⟨rfl, h1, h2, rfl, h'⟩
    · rw [if_pos (by rcases hh with h | h; exact Or.inl h; right; omega)]
      exact ⟨m', f', fr', rfl, h'⟩
    · rw [if_neg (by rintro (h | h); exact h1 h; omega)]
      exact ⟨_, f', fr', rfl, h'⟩
  | erase k =>
    obtain ⟨m', f', fr', e, h'⟩ := erase_done hN hH h k
    exact ⟨m', f', fr', by simp [step, e, Spec.stepL, Spec.step], h'⟩
  | clear =>
    obtain ⟨m', e, h'⟩ := clear_spec (N := N) (H := H) m
    exact ⟨m', _, _, by simp [step, e, Spec.stepL], h'⟩
  | size =>
    exact ⟨m, f, fr, by simp [step, size_spec hN h, Spec.stepL], h⟩

/-- an operation whose process is killed -/
theorem kill_spec (hN : N < NONE) (hH : 0 < H) {m : Map V} {f : Nat → List Nat} {fr : List Nat} {lk : Nat} {l : Spec.Bindings V}
    (h : Rep N H m f fr lk l) (op : Op V) (n : Nat) (he : ∀ k, op = .erase k → n ≠ 3) (hc : op = .clear → n = 0 ∨ H + 2 ≤ n) :
    ∃ m' f' fr' lk' l', kill N H m op n = .ok m' ∧ Rep N H m' f' fr' lk' l' ∧ (l' = l ∨ l' = (Spec.stepL N lk l op).1) ∧ lk' ≤ lk + 1 := by
  have hcl := count_le h.pool
  rw [h.length] at hcl
  cases op with
  | read k => exact ⟨m, f, fr, lk, l, by simp [kill, writes, applyM], h, Or.inl rfl, by omega⟩
  | size => exact ⟨m, f, fr, lk, l, by simp [kill, writes, applyM], h, Or.inl rfl, by omega⟩
  | insert k v =>
    obtain ⟨r, ws, e, ht, hf, hcut, m', f', fr', e', h'⟩ := insert_spec hN hH h k v
    simp only [kill, writes, e, Res.ok_bind]
    by_cases hn : n < ws.length
    · obtain ⟨m', fr', lk', e'', h'', _, hlk⟩ := hcut n hn
      exact ⟨m', f, fr', lk', l, e'', h'', Or.inl rfl, hlk⟩
    · rw [List.take_of_length_le (by omega)]
      refine ⟨m', f', fr', lk, _, e', h', ?_, by omega⟩
      cases r with
      | true =>
        right
        simp only [Spec.stepL, Spec.step, if_true]
        rw [if_pos (by rcases ht rfl with h | h; exact Or.inl h; right; omega)]
      | false => left; simp
  | erase k =>
    rcases erase_spec hN hH h k with ⟨h1, e⟩ | ⟨h1, ws, e, hl, hcut, m', f', fr', e', h'⟩
    · exact ⟨m, f, fr, lk, l, by simp [kill, writes, e, applyM], h, Or.inl rfl, by omega⟩
    · simp only [kill, writes, e, Res.ok_bind]
      by_cases h0 : n = 0
      · subst h0
        exact ⟨m, f, fr, lk, l, rfl, h, Or.inl rfl, by omega⟩
      · by_cases h3 : n < 3
        · obtain ⟨m', f', fr', e'', h''⟩ := hcut n (by omega) h3
          exact ⟨m', f', fr', lk + 1, _, e'', h'', Or.inr rfl, by omega⟩
        · have := he k rfl
          rw [List.take_of_length_le (by omega)]
          exact ⟨m', f', fr', lk, _, e', h', Or.inr rfl, by omega⟩
  | clear =>
    rcases hc rfl with rfl | hn
    · exact ⟨m, f, fr, lk, l, by simp [kill, writes, applyM], h, Or.inl rfl, by omega⟩
    · obtain ⟨m', e, h'⟩ := clear_spec (N := N) (H := H) m
      refine ⟨m', _, _, 0, [], ?_, h', Or.inr rfl, by omega⟩
      simp only [kill, writes, Res.ok_bind]
      rw [List.take_of_length_le]
      · exact e
      · simp [clear, pclear, ShmPool.clear]; omega

end Verif.ShmMap
