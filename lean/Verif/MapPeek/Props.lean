import Verif.MapPeek.Spec
import Verif.MapIter.GrowIt
/-
  Property C182: `unprotected_read` without the lock.
-/
set_option linter.unusedVariables false
set_option linter.unusedSimpArgs false

namespace Verif.MapPeek

open Verif.ShmPool Verif.ShmMap Verif.MapSys Verif.MapIter

variable {V : Type} {N H : Nat}

theorem calls_append (a b : List (PEvent V)) : calls (a ++ b) = calls a ++ calls b := by
  induction a with
  | nil => rfl
  | cons e es ih => cases e <;> simp [calls, ih]

theorem calls_sys (es : List (Event V)) : calls (es.map .sys) = es := by
  induction es with
  | nil => rfl
  | cons e es ih => simp [calls, ih]

theorem keeps_only {P : UInt64 → V → Prop} {c : Call V} (h : Keeps c) (hP : ∀ k v, Inserts c k v → P k v) : Only P c := by
  intro o ho
  have := h o ho
  cases o with
  | read k => trivial
  | size => trivial
  | insert k v => exact hP k v ho
  | erase k => exact absurd rfl (this.1 k)
  | clear => exact absurd rfl this.2

theorem sys_step {s s' : PSys V} {a : Act V} {es : List (PEvent V)} (h : step N H s (.sys a) = some (s', es)) :
    ∃ sy es1, MapSys.step N H s.sys a = some (sy, es1) ∧ s'.sys = sy ∧ es = es1.map .sys ∧ ∀ i pc, s'.peek i = some pc → s.peek i = some pc := by
  simp only [step] at h
  obtain ⟨⟨sy, es1⟩, hq, e⟩ := map_some' h
  simp only [Prod.mk.injEq] at e
  obtain ⟨rfl, rfl⟩ := e
  refine ⟨sy, es1, hq, by cases a <;> rfl, rfl, ?_⟩
  intro i pc hi
  cases a with
  | kill j =>
    simp only [afterSys, PSys.set] at hi
    by_cases hj : i = j
    · rw [if_pos hj] at hi; cases hi
    · rw [if_neg hj] at hi; exact hi
  | _ => exact hi

theorem peek_step {s s' : PSys V} {i : Nat} {k : UInt64} {es : List (PEvent V)} (h : step N H s (.peek i k) = some (s', es)) :
    es = [] ∧ s'.sys = s.sys ∧ s.peek i = none ∧ s' = s.set i (some (.rdHash k)) := by
  simp only [step] at h
  split at h
  · split at h
    · cases h; exact ⟨rfl, rfl, by assumption, rfl⟩
    · cases h
  · cases h

theorem look_step {s s' : PSys V} {i : Nat} {es : List (PEvent V)} (h : step N H s (.look i) = some (s', es)) :
    ∃ pc, s.peek i = some pc ∧ s'.sys = s.sys ∧
      ((∃ r, pc = .ret r ∧ s' = s.set i none ∧ es = [.looked i r]) ∨ ((∀ r, pc ≠ .ret r) ∧ s' = s.set i (some (pc.step N H s.sys.rw.mem).2) ∧ es = [])) := by
  simp only [step] at h
  split at h
  · cases h
  · rename_i r hr
    cases h
    exact ⟨.ret r, hr, rfl, Or.inl ⟨r, rfl, rfl, rfl⟩⟩
  · rename_i pc hpc hr
    cases h
    exact ⟨pc, hr, rfl, Or.inr ⟨fun r e => hpc r e, rfl, rfl⟩⟩

theorem sim_exec (hN : N < NONE) (hH : 0 < H) : ∀ (xs : List (PAct V)) {s s' : PSys V} {a : MapSys.Spec.State V} {es : List (PEvent V)}, Sim N H s.sys a → Safe N H s xs →
    exec N H s xs = some (s', es) → ∃ a', Sim N H s'.sys a' ∧ ∀ es', MapSys.Spec.Atomic N a' es' → MapSys.Spec.Atomic N a (calls es ++ es') := by
  intro xs
  induction xs with
  | nil => intro s s' a es h _ he; cases he; exact ⟨a, h, fun es' he => he⟩
  | cons x xs ih =>
    intro s s' a es h hk he
    simp only [exec] at he
    cases hs : step N H s x with
    | none => rw [hs] at he; cases he
    | some q =>
      obtain ⟨s1, es1⟩ := q
      rw [hs] at he
      simp only at he
      cases hx : exec N H s1 xs with
      | none => rw [hx] at he; cases he
      | some q =>
        obtain ⟨s2, es2⟩ := q
        rw [hx] at he
        cases he
        have hsim : ∃ a', Sim N H s1.sys a' ∧ ∀ es', MapSys.Spec.Atomic N a' es' → MapSys.Spec.Atomic N a (calls es1 ++ es') := by
          cases x with
          | sys y =>
            obtain ⟨sy, es', hq, rfl, rfl, _⟩ := sys_step hs
            obtain ⟨a', h1, h2⟩ := sim_step hN hH h (hk.1 y rfl) hq
            rw [calls_sys]
            exact ⟨a', h1, h2⟩
          | peek j k =>
            obtain ⟨rfl, e, _⟩ := peek_step hs
            rw [e]; exact ⟨a, h, fun es' he => he⟩
          | look j =>
            obtain ⟨pc, _, e, ⟨r, _, _, rfl⟩ | ⟨_, _, rfl⟩⟩ := look_step hs
            · rw [e]; exact ⟨a, h, fun es' he => he⟩
            · rw [e]; exact ⟨a, h, fun es' he => he⟩
        obtain ⟨a', h1, h2⟩ := hsim
        obtain ⟨a'', h3, h4⟩ := ih h1 (hk.2 _ _ hs) hx
        refine ⟨a'', h3, ?_⟩
        intro es' he
        rw [calls_append, List.append_assoc]
        exact h2 _ (h4 _ he)

/-- Where a read without the lock is, and how many steps it may still take; `K`: the key was in the map when it began. -/
def Place (N H : Nat) (P : UInt64 → V → Prop) (m : Map V) (f : Nat → List Nat) (k : UInt64) (K : Prop) (n : Nat) : Pc V → Prop
  | .rdHash k' => k' = k ∧ 2 * N + 3 ≤ n
  | .rdLoop k' e => k' = k ∧ ((∃ v r, f (k.toNat % H) = v ++ e :: r ∧ (∀ x ∈ v, m.key x ≠ k) ∧ 2 * (N - v.length) + 2 ≤ n) ∨ (e = NONE ∧ ¬ K ∧ 2 ≤ n))
  | .rdVal e => e ∈ nodes H f ∧ m.key e = k ∧ 2 ≤ n
  | .rdNext k' e => k' = k ∧ ∃ v r, f (k.toNat % H) = v ++ e :: r ∧ (∀ x ∈ v ++ [e], m.key x ≠ k) ∧ 2 * (N - v.length) + 1 ≤ n
  | .ret (.val none) => ¬ K ∧ 1 ≤ n
  | .ret (.val (some v)) => P k v ∧ 1 ≤ n
  | _ => False

theorem place_grow {P : UInt64 → V → Prop} {m m' : Map V} {f f' : Nat → List Nat} {k : UInt64} {K : Prop} {n : Nat} {pc : Pc V} (hH : 0 < H) (hg : Grow N H P m m' f f')
    (h : Place N H P m f k K n pc) : Place N H P m' f' k K n pc := by
  have hb := Nat.mod_lt k.toNat hH
  obtain ⟨t, ht⟩ := hg.ext _ hb
  have hkey : ∀ x ∈ f (k.toNat % H), m'.key x = m.key x := fun x hx => hg.key x (mem_nodes.mpr ⟨_, hb, hx⟩)
  have hrec : ∀ (r : Ret V), Place N H P m f k K n (.ret r) → Place N H P m' f' k K n (.ret r) := by
    intro r h
    cases r with
    | val v => cases v <;> exact h
    | _ => exact h
  cases pc with
  | rdHash k' => exact h
  | rdLoop k' e =>
    obtain ⟨rfl, ⟨v, r, h1, h2, h3⟩ | h⟩ := h
    · refine ⟨rfl, Or.inl ⟨v, r ++ t, by rw [ht, h1]; simp, ?_, h3⟩⟩
      intro x hx
      rw [hkey x (by rw [h1]; simp [hx])]
      exact h2 x hx
    · exact ⟨rfl, Or.inr h⟩
  | rdVal e =>
    obtain ⟨h1, h2, h3⟩ := h
    obtain ⟨b, hb', hx⟩ := mem_nodes.mp h1
    obtain ⟨t', ht'⟩ := hg.ext b hb'
    exact ⟨mem_nodes.mpr ⟨b, hb', by rw [ht']; simp [hx]⟩, by rw [hg.key e h1]; exact h2, h3⟩
  | rdNext k' e =>
    obtain ⟨rfl, v, r, h1, h2, h3⟩ := h
    refine ⟨rfl, v, r ++ t, by rw [ht, h1]; simp, ?_, h3⟩
    intro x hx
    rw [hkey x (by rw [h1]; simp at hx ⊢; rcases hx with g | g <;> simp [g])]
    exact h2 x hx
  | ret r => exact hrec r h
  | _ => exact h

theorem place_step (hN : N < NONE) (hH : 0 < H) {P : UInt64 → V → Prop} {m : Map V} {f : Nat → List Nat} {k : UInt64} {K : Prop} {n : Nat} {pc : Pc V} (hs : Shape N H m f)
    (hP : ∀ x ∈ nodes H f, P (m.key x) (m.val x)) (hK : K → ∃ x ∈ f (k.toNat % H), m.key x = k) (h : Place N H P m f k K n pc) (hr : ∀ r, pc ≠ .ret r) :
    1 ≤ n ∧ Place N H P m f k K (n - 1) (pc.step N H m).2 := by
  have hb := Nat.mod_lt k.toNat hH
  have hlt : ∀ x ∈ f (k.toNat % H), x < N := fun x hx => hs.lt x (mem_nodes.mpr ⟨_, hb, hx⟩)
  have hnn : ∀ x ∈ f (k.toNat % H), x ≠ NONE := fun x hx => by have := hlt x hx; omega
  have hnd : (f (k.toNat % H)).Nodup := by
    have := hs.nodup
    rw [nodes_split hb, List.nodup_append] at this
    have := this.2.1
    rw [List.nodup_append] at this
    exact this.1
  have hlen : ∀ v e r, f (k.toNat % H) = v ++ e :: r → v.length + 1 ≤ N := by
    intro v e r g
    have := nodup_le N (f (k.toNat % H)) hnd hlt
    rw [g] at this
    simp only [List.length_append, List.length_cons] at this
    omega
  cases pc with
  | rdHash k' =>
    obtain ⟨rfl, hn⟩ := h
    refine ⟨by omega, ?_⟩
    simp only [Pc.step]
    rw [if_neg (by omega)]
    have hh := chain_head (hs.chain _ hb) hnn
    refine ⟨rfl, ?_⟩
    by_cases he : f (k'.toNat % H) = []
    · right
      refine ⟨hh.1.mpr he, ?_, by omega⟩
      intro hk
      obtain ⟨x, hx, _⟩ := hK hk
      rw [he] at hx; cases hx
    · left
      obtain ⟨r, hr'⟩ := hh.2 he
      exact ⟨[], r, by rw [List.nil_append]; exact hr', by simp, by simp only [List.length_nil]; omega⟩
  | rdLoop k' e =>
    obtain ⟨rfl, ⟨v, r, h1, h2, h3⟩ | ⟨rfl, h1, h2⟩⟩ := h
    · refine ⟨by omega, ?_⟩
      have he := hlt e (by rw [h1]; simp)
      have hl := hlen v e r h1
      simp only [Pc.step]
      rw [if_neg (by omega), if_pos he]
      split
      · rename_i hk
        exact ⟨mem_nodes.mpr ⟨_, hb, by rw [h1]; simp⟩, hk.symm, by omega⟩
      · rename_i hk
        refine ⟨rfl, v, r, h1, ?_, by omega⟩
        intro x hx
        rcases List.mem_append.mp hx with hx | hx
        · exact h2 x hx
        · rw [List.mem_singleton.mp hx]; exact fun g => hk g.symm
    · refine ⟨by omega, ?_⟩
      simp only [Pc.step]
      rw [if_pos trivial]
      exact ⟨h1, by omega⟩
  | rdVal e =>
    obtain ⟨h1, rfl, h3⟩ := h
    exact ⟨by omega, hP e h1, by omega⟩
  | rdNext k' e =>
    obtain ⟨rfl, v, r, h1, h2, h3⟩ := h
    refine ⟨by omega, ?_⟩
    have hl := hlen v e r h1
    have hch := hs.chain _ hb
    rw [h1] at hch
    have hh := chain_head (chain_at hch) (fun i hi => hnn i (by rw [h1]; simp [hi]))
    simp only [Pc.step]
    refine ⟨rfl, ?_⟩
    by_cases he : r = []
    · right
      refine ⟨hh.1.mpr he, ?_, by omega⟩
      intro hk
      obtain ⟨x, hx, hkx⟩ := hK hk
      rw [h1, he] at hx
      exact h2 x hx hkx
    · left
      obtain ⟨r', hr'⟩ := hh.2 he
      refine ⟨v ++ [e], r', by rw [h1, hr']; simp, h2, ?_⟩
      simp only [List.length_append, List.length_singleton]
      omega
  | ret r => exact absurd rfl (hr r)
  | _ => exact h.elim

/-- What holds during the call of process `i`. -/
structure PInv (N H : Nat) (P : UInt64 → V → Prop) (k : UInt64) (K : Prop) (i n : Nat) (s : PSys V) : Prop where
  sim : ∃ a, Sim N H s.sys a
  only : ∀ j c, s.sys.pend j = .called c → Only P c
  mem : ∃ f, Shape N H s.sys.rw.mem f ∧ (∀ x ∈ nodes H f, P (s.sys.rw.mem.key x) (s.sys.rw.mem.val x)) ∧ (K → ∃ x ∈ f (k.toNat % H), s.sys.rw.mem.key x = k) ∧
    ∀ pc, s.peek i = some pc → Place N H P s.sys.rw.mem f k K n pc

/-- What a read of `k` may return. -/
def Good (P : UInt64 → V → Prop) (k : UInt64) (K : Prop) : Ret V → Prop
  | .val none => ¬ K
  | .val (some v) => P k v
  | _ => False

theorem pinv_step (hN : N < NONE) (hH : 0 < H) {P : UInt64 → V → Prop} {k : UInt64} {K : Prop} {i n : Nat} {s s' : PSys V} {x : PAct V} {es : List (PEvent V)} (h : PInv N H P k K i n s)
    (hc : ∀ j c, x = .sys (.call j c) → Only P c) (hb : ∀ k', x ≠ .peek i k') (hs : step N H s x = some (s', es)) :
    (∃ n', PInv N H P k K i n' s' ∧ n' + (if PAct.lookOf i x then 1 else 0) ≤ n) ∧ ∀ r, .looked i r ∈ es → Good P k K r := by
  obtain ⟨⟨a, hsim⟩, honly, f, hsh, hP, hK, hit⟩ := h
  cases x with
  | sys y =>
    obtain ⟨sy, es', hq, rfl, rfl, hpk⟩ := sys_step hs
    obtain ⟨a', h1, _⟩ := sim_step hN hH hsim (safe_only hsim honly y) hq
    obtain ⟨f', hg⟩ := sys_grow hN hH hsim honly hq hsh
    refine ⟨⟨n, ⟨⟨a', h1⟩, ?_, f', hg.shape, ?_, ?_, ?_⟩, by simp [PAct.lookOf]⟩, ?_⟩
    · intro j c hj
      rcases pend_step hq hj with g | rfl
      · exact honly j c g
      · exact hc j c rfl
    · intro x hx
      rcases hg.val x hx with ⟨g1, g2⟩ | g
      · rw [g2, hg.key x g1]; exact hP x g1
      · exact g
    · intro hk
      obtain ⟨x, hx, e⟩ := hK hk
      obtain ⟨r, hr⟩ := hg.ext _ (Nat.mod_lt k.toNat hH)
      exact ⟨x, by rw [hr]; exact List.mem_append_left _ hx, by rw [hg.key x (mem_nodes.mpr ⟨_, Nat.mod_lt _ hH, hx⟩)]; exact e⟩
    · intro pc hpc
      exact place_grow hH hg (hit pc (hpk i pc hpc))
    · intro r hr
      obtain ⟨e, _, g⟩ := List.mem_map.mp hr
      cases g
  | peek j k' =>
    obtain ⟨rfl, e, hnone, rfl⟩ := peek_step hs
    have hj : i ≠ j := by rintro rfl; exact hb k' rfl
    refine ⟨⟨n, ⟨⟨a, hsim⟩, honly, f, hsh, hP, hK, ?_⟩, by simp [PAct.lookOf]⟩, by intro r hr; cases hr⟩
    intro pc hpc
    simp only [PSys.set] at hpc
    rw [if_neg hj] at hpc
    exact hit pc hpc
  | look j =>
    obtain ⟨pc, hpc, e, hcase⟩ := look_step hs
    by_cases hj : j = i
    · subst hj
      have hpl := hit pc hpc
      rcases hcase with ⟨r, rfl, rfl, rfl⟩ | ⟨hr, rfl, rfl⟩
      · have hgood : Good P k K r ∧ 1 ≤ n := by
          cases r with
          | val v => cases v <;> exact hpl
          | _ => exact hpl.elim
        refine ⟨⟨n - 1, ⟨⟨a, hsim⟩, honly, f, hsh, hP, hK, ?_⟩, by simp [PAct.lookOf]; omega⟩, ?_⟩
        · intro pc' hpc'
          simp [PSys.set] at hpc'
        · intro r' hr'
          simp only [List.mem_singleton, PEvent.looked.injEq, true_and] at hr'
          rw [hr']; exact hgood.1
      · obtain ⟨g1, g2⟩ := place_step hN hH hsh hP hK hpl hr
        refine ⟨⟨n - 1, ⟨⟨a, hsim⟩, honly, f, hsh, hP, hK, ?_⟩, by simp [PAct.lookOf]; omega⟩, by intro r hr; cases hr⟩
        intro pc' hpc'
        simp only [PSys.set, if_true, Option.some.injEq] at hpc'
        subst hpc'
        exact g2
    · have hj' : i ≠ j := fun e => hj e.symm
      rcases hcase with ⟨r, rfl, rfl, rfl⟩ | ⟨hr, rfl, rfl⟩
      · refine ⟨⟨n, ⟨⟨a, hsim⟩, honly, f, hsh, hP, hK, ?_⟩, by simp [PAct.lookOf, hj]⟩, ?_⟩
        · intro pc' hpc'
          simp only [PSys.set] at hpc'
          rw [if_neg hj'] at hpc'
          exact hit pc' hpc'
        · intro r' hr'
          simp only [List.mem_singleton, PEvent.looked.injEq] at hr'
          exact absurd hr'.1 hj'
      · refine ⟨⟨n, ⟨⟨a, hsim⟩, honly, f, hsh, hP, hK, ?_⟩, by simp [PAct.lookOf, hj]⟩, by intro r hr; cases hr⟩
        intro pc' hpc'
        simp only [PSys.set] at hpc'
        rw [if_neg hj'] at hpc'
        exact hit pc' hpc'

theorem pinv_exec (hN : N < NONE) (hH : 0 < H) {P : UInt64 → V → Prop} {k : UInt64} {K : Prop} {i : Nat} : ∀ (xs : List (PAct V)) {n : Nat} {s s' : PSys V} {es : List (PEvent V)}, PInv N H P k K i n s →
    (∀ j c, .sys (.call j c) ∈ xs → Only P c) → (∀ k', .peek i k' ∉ xs) → exec N H s xs = some (s', es) →
    (∃ n', PInv N H P k K i n' s' ∧ n' + xs.countP (PAct.lookOf i) ≤ n) ∧ ∀ r, .looked i r ∈ es → Good P k K r := by
  intro xs
  induction xs with
  | nil => intro n s s' es h _ _ he; cases he; exact ⟨⟨n, h, by simp⟩, by intro l hl; cases hl⟩
  | cons x xs ih =>
    intro n s s' es h hc hb he
    simp only [exec] at he
    cases hs : step N H s x with
    | none => rw [hs] at he; cases he
    | some q =>
      obtain ⟨s1, es1⟩ := q
      rw [hs] at he
      simp only at he
      cases hx : exec N H s1 xs with
      | none => rw [hx] at he; cases he
      | some q =>
        obtain ⟨s2, es2⟩ := q
        rw [hx] at he
        cases he
        obtain ⟨⟨n1, h1, hn1⟩, hl1⟩ := pinv_step hN hH h (fun j c e => hc j c (by rw [e]; simp)) (fun k' e => hb k' (by rw [e]; simp)) hs
        obtain ⟨⟨n2, h2, hn2⟩, hl2⟩ := ih h1 (fun j c hm => hc j c (List.mem_cons_of_mem _ hm)) (fun k' hm => hb k' (List.mem_cons_of_mem _ hm)) hx
        refine ⟨⟨n2, h2, ?_⟩, ?_⟩
        · rw [List.countP_cons]; omega
        · intro l hl
          rcases List.mem_append.mp hl with hl | hl
          · exact hl1 l hl
          · exact hl2 l hl

/-- **C182.** Process `i` calls `unprotected_read(k, out)` without the lock, after any history.  From then on nobody takes anything out of the map: the calls in progress and the calls
made meanwhile only read and insert; any process may be killed anywhere.  `l0` is a list that an iteration with the lock could have seen at this instant, given what has been seen of the
calls before.  Then, in every interleaving of the accesses to shared memory: the call never reads outside of the segment, it returns after at most `2 * capacity + 3` steps of its own, it
returns false only if the key is not in `l0`, and if it returns true then the value is that of the key in `l0` or one that those calls insert under the key.
Missing: other processes that erase or clear (`C182_refuted`, `C182_refuted_value`). -/
theorem C182_peek_partial (hN : N < 2 ^ 31) (hH : 0 < H) (s0 s s' : PSys V) (h : Start H s0) (xs ys : List (PAct V)) (hsafe : Safe N H s0 xs) (es0 es : List (PEvent V))
    (he0 : exec N H s0 xs = some (s, es0)) (i : Nat) (k : UInt64) (he : exec N H s (.peek i k :: ys) = some (s', es)) (hnob : ∀ k', .peek i k' ∉ ys)
    (hpend : ∀ j c, s.sys.pend j = .called c → Keeps c) (hcall : ∀ j c, .sys (.call j c) ∈ ys → Keeps c) :
    ∃ l0, MapSys.Spec.Atomic N MapSys.Spec.State.init (calls es0 ++ [.iterated i l0]) ∧
      s'.peek i ≠ some .ub ∧ ys.countP (PAct.lookOf i) ≤ 2 * N + 3 ∧
      ∀ r, .looked i r ∈ es → (r = .val none ∧ ∀ v, (k, v) ∉ l0) ∨
        ∃ v, r = .val (some v) ∧ ((k, v) ∈ l0 ∨ ∃ j c, (s.sys.pend j = .called c ∨ .sys (.call j c) ∈ ys) ∧ Inserts c k v) := by
  have hN' : N < NONE := by unfold NONE; omega
  obtain ⟨a, hsim, hat⟩ := sim_exec hN' hH xs (sim_start h.1) hsafe he0
  obtain ⟨f, fr, lk, b, hr, ⟨pre, hpre⟩, hmore⟩ := mid_rep (P := fun _ _ => True) hN' hH hsim (fun j c hj => keeps_only (hpend j c hj) (fun _ _ _ => trivial))
  refine ⟨a.map, hat _ (.iterated (List.Perm.refl _) ?_ .nil), ?_⟩
  · have := hr.keysL
    rw [hpre, List.nodup_append] at this
    exact this.2.1
  simp only [exec] at he
  cases hs : step N H s (.peek i k) with
  | none => rw [hs] at he; cases he
  | some q =>
    obtain ⟨t, es1⟩ := q
    rw [hs] at he
    simp only at he
    cases hx : exec N H t ys with
    | none => rw [hx] at he; cases he
    | some q =>
      obtain ⟨u, es2⟩ := q
      rw [hx] at he
      cases he
      obtain ⟨rfl, hsys, _, rfl⟩ := peek_step hs
      let P : UInt64 → V → Prop := fun k v => (k, v) ∈ a.map ∨ ∃ j c, (s.sys.pend j = .called c ∨ .sys (.call j c) ∈ ys) ∧ Inserts c k v
      have hinv : PInv N H P k (k ∈ a.map.map (·.1)) i (2 * N + 3) (s.set i (some (.rdHash k))) := by
        refine ⟨⟨a, hsim⟩, ?_, f, shape_rep hr, ?_, ?_, ?_⟩
        · intro j c hj
          exact keeps_only (hpend j c hj) (fun k v hi => Or.inr ⟨j, c, Or.inl hj, hi⟩)
        · intro x hxn
          have hm : (s.sys.rw.mem.key x, s.sys.rw.mem.val x) ∈ b := hr.abs.mem_iff.mpr (List.mem_map.mpr ⟨x, hxn, rfl⟩)
          rcases hmore _ _ hm with g | ⟨j, c, g1, g2⟩
          · exact Or.inl g
          · exact Or.inr ⟨j, c, Or.inl g1, g2⟩
        · intro hk
          exact (hr.has_iff hH k).mp (by unfold ShmMap.Spec.has; rw [hpre]; exact List.mem_append_right _ hk)
        · intro pc hpc
          simp only [PSys.set, if_true, Option.some.injEq] at hpc
          subst hpc
          exact ⟨rfl, Nat.le_refl _⟩
      obtain ⟨⟨n', h1, h2⟩, h3⟩ := pinv_exec hN' hH ys hinv
        (fun j c hm => keeps_only (hcall j c hm) (fun k v hi => Or.inr ⟨j, c, Or.inr hm, hi⟩)) hnob hx
      refine ⟨?_, by omega, ?_⟩
      · intro hub
        obtain ⟨f', _, _, _, g⟩ := h1.mem
        exact (g _ hub).elim
      · intro r hl
        have g := h3 r hl
        cases r with
        | val v =>
          cases v with
          | none =>
            refine Or.inl ⟨rfl, fun v hv => ?_⟩
            exact g (List.mem_map.mpr ⟨_, hv, rfl⟩)
          | some v => exact Or.inr ⟨v, rfl, g⟩
        | _ => exact g.elim

end Verif.MapPeek
