import Verif.MapIter.GrowIt
/-
  Property C181: an iteration that takes no lock, over a map that other processes only read and insert into.
-/
set_option linter.unusedVariables false
set_option linter.unusedSimpArgs false

namespace Verif.MapIter

open Verif.ShmPool Verif.ShmMap Verif.MapSys

variable {V : Type} {N H : Nat}

/-! ## specification -/

/-- The call takes nothing out of the map: it is none of `erase(key)`, `erase(keys, n)`, `clear()`, and no section of its own with `unprotected_erase`. -/
def Keeps (c : Call V) : Prop := ∀ o ∈ MapSys.Spec.meaning c, (∀ k, o ≠ .erase k) ∧ o ≠ .clear

/-- The call inserts the pair `(k, v)`. -/
def Inserts (c : Call V) (k : UInt64) (v : V) : Prop := Op.insert k v ∈ MapSys.Spec.meaning c

/-- No process is killed between the two writes of `free_nodes.push` or inside `clear` (C52). -/
def Safe (N H : Nat) : ISys V → List (IAct V) → Prop
  | _, [] => True
  | s, x :: xs => SafeAct H s x ∧ ∀ s' es, step N H s x = some (s', es) → Safe N H s' xs

/-- What is seen of the calls, without the iterations. -/
def calls (es : List (Event V)) : List (Event V) := es.filter (fun
  | .iterated _ _ => false
  | _ => true)

/-! ## proof -/

theorem sys_calls {s s' : Sys V} {y : Act V} {es : List (Event V)} (hq : MapSys.step N H s y = some (s', es)) : calls es = es := by
  cases y with
  | connect j => obtain ⟨s1, h1, h2⟩ := map_some' hq; cases h2; rfl
  | call j c =>
    simp only [MapSys.step] at hq
    split at hq
    · split at hq
      · cases hq; rfl
      · cases hq
    · cases hq
  | lock j =>
    simp only [MapSys.step] at hq
    split at hq
    · obtain ⟨s1, h1, h2⟩ := map_some' hq; cases h2; rfl
    · cases hq
  | body j => obtain ⟨s1, h1, h2⟩ := map_some' hq; cases h2; rfl
  | unlock j =>
    simp only [MapSys.step] at hq
    split at hq
    · split at hq
      · obtain ⟨s1, h1, h2⟩ := map_some' hq; cases h2; rfl
      · cases hq
    · cases hq
  | ret j =>
    simp only [MapSys.step] at hq
    split at hq
    · cases hq; rfl
    · cases hq
  | kill j => obtain ⟨s1, h1, h2⟩ := map_some' hq; cases h2; rfl
  | spawn j => obtain ⟨s1, h1, h2⟩ := map_some' hq; cases h2; rfl

theorem keeps_only {P : UInt64 → V → Prop} {c : Call V} (h : Keeps c) (hP : ∀ k v, Inserts c k v → P k v) : Only P c := by
  intro o ho
  have := h o ho
  cases o with
  | read k => trivial
  | size => trivial
  | insert k v => exact hP k v ho
  | erase k => exact absurd rfl (this.1 k)
  | clear => exact absurd rfl this.2

theorem sim_exec (hN : N < NONE) (hH : 0 < H) : ∀ (xs : List (IAct V)) {s s' : ISys V} {a : MapSys.Spec.State V} {es : List (Event V)}, Sim N H s.sys a → Safe N H s xs →
    exec N H s xs = some (s', es) → ∃ a', Sim N H s'.sys a' ∧ ∀ es', MapSys.Spec.Atomic N a' es' → MapSys.Spec.Atomic N a (calls es ++ es') := by
  intro xs
  induction xs with
  | nil => intro s s' a es h _ he; cases he; exact ⟨a, h, fun es' he => he⟩
  | cons x xs ih =>
    intro s s' a es h hk he
    simp only [exec] at he
    cases hs : step N H s x with
    | none => rw [hs] at he; cases he
    | some q =>
      obtain ⟨s1, es1⟩ := q
      rw [hs] at he
      simp only at he
      cases hx : exec N H s1 xs with
      | none => rw [hx] at he; cases he
      | some q =>
        obtain ⟨s2, es2⟩ := q
        rw [hx] at he
        cases he
        have hsim : ∃ a', Sim N H s1.sys a' ∧ ∀ es', MapSys.Spec.Atomic N a' es' → MapSys.Spec.Atomic N a (calls es1 ++ es') := by
          cases x with
          | sys y =>
            simp only [step] at hs
            obtain ⟨q, hq, e⟩ := map_some' hs
            obtain ⟨sy, es'⟩ := q
            simp only [Prod.mk.injEq] at e
            obtain ⟨rfl, rfl⟩ := e
            obtain ⟨a', h1, h2⟩ := sim_step hN hH h hk.1 hq
            have hsys : (afterSys s sy y).sys = sy := by cases y <;> rfl
            rw [hsys, sys_calls hq]
            exact ⟨a', h1, h2⟩
          | begin j =>
            simp only [step] at hs
            split at hs
            · split at hs
              · cases hs; exact ⟨a, h, fun es' he => he⟩
              · cases hs
            · cases hs
          | iter j =>
            simp only [step] at hs
            split at hs
            · cases hs
            · split at hs
              · cases hs; exact ⟨a, h, fun es' he => he⟩
              · cases hs; exact ⟨a, h, fun es' he => he⟩
        obtain ⟨a', h1, h2⟩ := hsim
        obtain ⟨a'', h3, h4⟩ := ih h1 (hk.2 _ _ hs) hx
        refine ⟨a'', h3, ?_⟩
        intro es' he
        have : calls (es1 ++ es2) = calls es1 ++ calls es2 := List.filter_append ..
        rw [this, List.append_assoc]
        exact h2 _ (h4 _ he)

/-- What holds during the iteration of process `i`, which may still take `n` steps; `K` are keys that were in the map when it began. -/
structure GInv (N H : Nat) (P : UInt64 → V → Prop) (K : List UInt64) (i n : Nat) (s : ISys V) : Prop where
  sim : ∃ a, Sim N H s.sys a
  only : ∀ j c, s.sys.pend j = .called c → Only P c
  mem : ∃ f, Shape N H s.sys.rw.mem f ∧ (∀ x ∈ nodes H f, P (s.sys.rw.mem.key x) (s.sys.rw.mem.val x)) ∧ (∀ k ∈ K, ∃ x ∈ f (k.toNat % H), s.sys.rw.mem.key x = k) ∧
    ∀ t, s.it i = some t → (∃ vis, At N H P s.sys.rw.mem f K t vis) ∧ left N H t + 1 ≤ n

theorem at_end {P : UInt64 → V → Prop} {m : Map V} {f : Nat → List Nat} {K : List UInt64} {t : It V} {vis : List Nat} (hH : 0 < H) (hs : Shape N H m f) (h : At N H P m f K t vis) (hd : t.pc = .done) :
    (t.seen.map (·.1)).Nodup ∧ (∀ k ∈ K, k ∈ t.seen.map (·.1)) ∧ ∀ p ∈ t.seen, P p.1 p.2 := by
  have hp := h.place
  rw [hd] at hp
  refine ⟨?_, ?_, h.ok⟩
  · rw [h.seen]
    have gen : ∀ l : List Nat, l.Nodup → (∀ x ∈ l, x ∈ nodes H f) → (l.map m.key).Nodup := by
      intro l
      induction l with
      | nil => intro _ _; simp
      | cons y ys ih =>
        intro hn hsub
        rw [List.nodup_cons] at hn
        rw [List.map_cons, List.nodup_cons]
        refine ⟨?_, ih hn.2 (fun x hx => hsub x (by simp [hx]))⟩
        intro hy
        obtain ⟨x, hx, e⟩ := List.mem_map.mp hy
        have := inj_of_nodup_map hs.keys (hsub x (by simp [hx])) (hsub y (by simp)) e
        exact hn.1 (this ▸ hx)
    exact gen vis h.nodup h.sub
  · intro k hk
    obtain ⟨x, hx, e⟩ := hp.2 k hk (Nat.mod_lt _ hH)
    rw [h.seen]
    exact List.mem_map.mpr ⟨x, hx, e⟩

theorem ginv_step (hN : N < NONE) (hH : 0 < H) {P : UInt64 → V → Prop} {K : List UInt64} {i n : Nat} {s s' : ISys V} {x : IAct V} {es : List (Event V)} (h : GInv N H P K i n s)
    (hc : ∀ j c, x = .sys (.call j c) → Only P c) (hb : x ≠ .begin i) (hs : step N H s x = some (s', es)) :
    (∃ n', GInv N H P K i n' s' ∧ n' + (if IAct.iterOf i x then 1 else 0) ≤ n) ∧
    ∀ l, .iterated i l ∈ es → (l.map (·.1)).Nodup ∧ (∀ k ∈ K, k ∈ l.map (·.1)) ∧ ∀ p ∈ l, P p.1 p.2 := by
  obtain ⟨⟨a, hsim⟩, honly, f, hsh, hP, hK, hit⟩ := h
  cases x with
  | sys y =>
    simp only [step] at hs
    obtain ⟨q, hq, e⟩ := map_some' hs
    obtain ⟨sy, es'⟩ := q
    simp only [Prod.mk.injEq] at e
    obtain ⟨rfl, rfl⟩ := e
    have hsys : (afterSys s sy y).sys = sy := by cases y <;> rfl
    obtain ⟨a', h1, _⟩ := sim_step hN hH hsim (safe_only hsim honly y) hq
    obtain ⟨f', hg⟩ := sys_grow hN hH hsim honly hq hsh
    refine ⟨⟨n, ⟨⟨a', by rw [hsys]; exact h1⟩, ?_, f', ?_⟩, by simp [IAct.iterOf]⟩, ?_⟩
    · rw [hsys]
      intro j c hj
      rcases pend_step hq hj with g | rfl
      · exact honly j c g
      · exact hc j c rfl
    · rw [hsys]
      refine ⟨hg.shape, ?_, ?_, ?_⟩
      · intro x hx
        rcases hg.val x hx with ⟨g1, g2⟩ | g
        · rw [g2, hg.key x g1]; exact hP x g1
        · exact g
      · intro k hk
        obtain ⟨x, hx, e⟩ := hK k hk
        obtain ⟨r, hr⟩ := hg.ext _ (Nat.mod_lt k.toNat hH)
        exact ⟨x, by rw [hr]; exact List.mem_append_left _ hx, by rw [hg.key x (mem_nodes.mpr ⟨_, Nat.mod_lt _ hH, hx⟩)]; exact e⟩
      · intro t ht
        have ht' : s.it i = some t := by
          cases y with
          | kill j =>
            simp only [afterSys, ISys.setIt] at ht
            by_cases hj : i = j
            · rw [if_pos hj] at ht; cases ht
            · rw [if_neg hj] at ht; exact ht
          | _ => exact ht
        obtain ⟨⟨vis, g1⟩, g2⟩ := hit t ht'
        exact ⟨⟨vis, at_grow hg g1⟩, g2⟩
    · intro l hl
      exfalso
      rw [← sys_calls hq] at hl
      exact absurd (List.mem_filter.mp hl).2 (by simp)
  | begin j =>
    have hj : i ≠ j := by rintro rfl; exact hb rfl
    simp only [step] at hs
    split at hs
    · split at hs
      · cases hs
        refine ⟨⟨n, ⟨⟨a, hsim⟩, honly, f, hsh, hP, hK, ?_⟩, by simp [IAct.iterOf]⟩, by intro l hl; cases hl⟩
        intro t ht
        simp only [ISys.setIt] at ht
        rw [if_neg hj] at ht
        exact hit t ht
      · cases hs
    · cases hs
  | iter j =>
    simp only [step] at hs
    split at hs
    · cases hs
    · rename_i t ht
      by_cases hj : j = i
      · subst hj
        obtain ⟨⟨vis, g1⟩, g2⟩ := hit t ht
        split at hs
        · rename_i hd
          cases hs
          refine ⟨⟨n - 1, ⟨⟨a, hsim⟩, honly, f, hsh, hP, hK, ?_⟩, by simp [IAct.iterOf]; omega⟩, ?_⟩
          · intro t' ht'
            simp only [ISys.setIt] at ht'
            rw [if_pos trivial] at ht'
            cases ht'
          · intro l hl
            simp only [List.mem_singleton, Event.iterated.injEq, true_and] at hl
            subst hl
            exact at_end hH hsh g1 hd
        · rename_i hd
          cases hs
          obtain ⟨g3, g4⟩ := at_step hN hsh hP hK g1 hd
          refine ⟨⟨n - 1, ⟨⟨a, hsim⟩, honly, f, hsh, hP, hK, ?_⟩, by simp [IAct.iterOf]; omega⟩, by intro l hl; cases hl⟩
          intro t' ht'
          simp only [ISys.setIt] at ht'
          rw [if_pos trivial] at ht'
          cases ht'
          exact ⟨g3, by omega⟩
      · have hj' : i ≠ j := fun e => hj e.symm
        split at hs
        · cases hs
          refine ⟨⟨n, ⟨⟨a, hsim⟩, honly, f, hsh, hP, hK, ?_⟩, by simp [IAct.iterOf, hj]⟩, ?_⟩
          · intro t' ht'
            simp only [ISys.setIt] at ht'
            rw [if_neg hj'] at ht'
            exact hit t' ht'
          · intro l hl
            simp only [List.mem_singleton, Event.iterated.injEq] at hl
            exact absurd hl.1 hj'
        · cases hs
          refine ⟨⟨n, ⟨⟨a, hsim⟩, honly, f, hsh, hP, hK, ?_⟩, by simp [IAct.iterOf, hj]⟩, by intro l hl; cases hl⟩
          intro t' ht'
          simp only [ISys.setIt] at ht'
          rw [if_neg hj'] at ht'
          exact hit t' ht'

theorem ginv_exec (hN : N < NONE) (hH : 0 < H) {P : UInt64 → V → Prop} {K : List UInt64} {i : Nat} : ∀ (xs : List (IAct V)) {n : Nat} {s s' : ISys V} {es : List (Event V)}, GInv N H P K i n s →
    (∀ j c, .sys (.call j c) ∈ xs → Only P c) → .begin i ∉ xs → exec N H s xs = some (s', es) →
    (∃ n', GInv N H P K i n' s' ∧ n' + xs.countP (IAct.iterOf i) ≤ n) ∧
    ∀ l, .iterated i l ∈ es → (l.map (·.1)).Nodup ∧ (∀ k ∈ K, k ∈ l.map (·.1)) ∧ ∀ p ∈ l, P p.1 p.2 := by
  intro xs
  induction xs with
  | nil => intro n s s' es h _ _ he; cases he; exact ⟨⟨n, h, by simp⟩, by intro l hl; cases hl⟩
  | cons x xs ih =>
    intro n s s' es h hc hb he
    simp only [exec] at he
    cases hs : step N H s x with
    | none => rw [hs] at he; cases he
    | some q =>
      obtain ⟨s1, es1⟩ := q
      rw [hs] at he
      simp only at he
      cases hx : exec N H s1 xs with
      | none => rw [hx] at he; cases he
      | some q =>
        obtain ⟨s2, es2⟩ := q
        rw [hx] at he
        cases he
        obtain ⟨⟨n1, h1, hn1⟩, hl1⟩ := ginv_step hN hH h (fun j c e => hc j c (by rw [e]; simp)) (fun e => hb (by rw [e]; simp)) hs
        obtain ⟨⟨n2, h2, hn2⟩, hl2⟩ := ih h1 (fun j c hm => hc j c (List.mem_cons_of_mem _ hm)) (fun hm => hb (List.mem_cons_of_mem _ hm)) hx
        refine ⟨⟨n2, h2, ?_⟩, ?_⟩
        · rw [List.countP_cons]; omega
        · intro l hl
          rcases List.mem_append.mp hl with hl | hl
          · exact hl1 l hl
          · exact hl2 l hl

/-- **C181.** Process `i` begins an iteration without any lock, after any history.  From then on nobody takes anything out of the map: the calls in progress and the calls made later
only read and insert (they may be made by process `i` itself, inside its loop), and any process may be killed anywhere.  `l0` is a list that an iteration with the lock could have seen at
this instant, given what has been seen of the calls before.  Then, in every interleaving of the accesses to shared memory: the loop never reads outside of the segment; it takes at most
`5 * capacity + buckets + 3` steps of its own, however much is inserted meanwhile; and when it reaches end() it has seen no key twice, it has seen every key of `l0`, and every pair it has
seen is in `l0` or is inserted by one of those calls. -/
theorem C181_growing (hN : N < 2 ^ 31) (hH : 0 < H) (s0 s s' : ISys V) (h : Start H s0) (xs ys : List (IAct V)) (hsafe : Safe N H s0 xs) (es0 es : List (Event V))
    (he0 : exec N H s0 xs = some (s, es0)) (i : Nat) (he : exec N H s (.begin i :: ys) = some (s', es)) (hnob : .begin i ∉ ys)
    (hpend : ∀ j c, s.sys.pend j = .called c → Keeps c) (hcall : ∀ j c, .sys (.call j c) ∈ ys → Keeps c) :
    ∃ l0, MapSys.Spec.Atomic N MapSys.Spec.State.init (calls es0 ++ [.iterated i l0]) ∧
      (∀ t, s'.it i = some t → t.pc ≠ .ub) ∧ ys.countP (IAct.iterOf i) ≤ 5 * N + H + 3 ∧
      ∀ l, .iterated i l ∈ es → (l.map (·.1)).Nodup ∧ (∀ k v, (k, v) ∈ l0 → k ∈ l.map (·.1)) ∧
        ∀ k v, (k, v) ∈ l → (k, v) ∈ l0 ∨ ∃ j c, (s.sys.pend j = .called c ∨ .sys (.call j c) ∈ ys) ∧ Inserts c k v := by
  have hN' : N < NONE := by unfold NONE; omega
  obtain ⟨a, hsim, hat⟩ := sim_exec hN' hH xs (sim_start h.1) hsafe he0
  obtain ⟨f, fr, lk, b, hr, ⟨pre, hpre⟩, hmore⟩ := mid_rep (P := fun _ _ => True) hN' hH hsim (fun j c hj => keeps_only (hpend j c hj) (fun _ _ _ => trivial))
  refine ⟨a.map, hat _ (.iterated (List.Perm.refl _) ?_ .nil), ?_⟩
  · have := hr.keysL
    rw [hpre, List.nodup_append] at this
    exact this.2.1
  simp only [exec] at he
  cases hs : step N H s (.begin i) with
  | none => rw [hs] at he; cases he
  | some q =>
    obtain ⟨t, es1⟩ := q
    rw [hs] at he
    simp only at he
    cases hx : exec N H t ys with
    | none => rw [hx] at he; cases he
    | some q =>
      obtain ⟨u, es2⟩ := q
      rw [hx] at he
      cases he
      have hit : t.it i = some ⟨.bScan 0, []⟩ ∧ t.sys = s.sys ∧ es1 = [] := by
        simp only [step] at hs
        split at hs
        · split at hs
          · cases hs; simp [ISys.setIt]
          · cases hs
        · cases hs
      obtain ⟨hit, hsys, rfl⟩ := hit
      let P : UInt64 → V → Prop := fun k v => (k, v) ∈ a.map ∨ ∃ j c, (s.sys.pend j = .called c ∨ .sys (.call j c) ∈ ys) ∧ Inserts c k v
      have hinv : GInv N H P (a.map.map (·.1)) i (5 * N + H + 3) t := by
        refine ⟨⟨a, by rw [hsys]; exact hsim⟩, ?_, f, ?_⟩
        · rw [hsys]
          intro j c hj
          exact keeps_only (hpend j c hj) (fun k v hi => Or.inr ⟨j, c, Or.inl hj, hi⟩)
        · rw [hsys]
          refine ⟨shape_rep hr, ?_, ?_, ?_⟩
          · intro x hxn
            have hm : (s.sys.rw.mem.key x, s.sys.rw.mem.val x) ∈ b := hr.abs.mem_iff.mpr (List.mem_map.mpr ⟨x, hxn, rfl⟩)
            rcases hmore _ _ hm with g | ⟨j, c, g1, g2⟩
            · exact Or.inl g
            · exact Or.inr ⟨j, c, Or.inl g1, g2⟩
          · intro k hk
            exact (hr.has_iff hH k).mp (by unfold ShmMap.Spec.has; rw [hpre]; exact List.mem_append_right _ hk)
          · intro t' ht'
            rw [hit] at ht'
            cases ht'
            refine ⟨⟨[], rfl, by simp, by simp, by simp, ?_, ?_⟩, ?_⟩
            · intro x hx; cases hx
            · intro k _ hlt; omega
            · simp only [left, List.length_nil]; omega
      obtain ⟨⟨n', h1, h2⟩, h3⟩ := ginv_exec hN' hH ys hinv
        (fun j c hm => keeps_only (hcall j c hm) (fun k v hi => Or.inr ⟨j, c, Or.inr hm, hi⟩)) hnob hx
      refine ⟨?_, by omega, ?_⟩
      · intro t' ht' hub
        obtain ⟨f', _, _, _, g⟩ := h1.mem
        obtain ⟨⟨vis, g1⟩, _⟩ := g t' ht'
        have := g1.place
        rw [hub] at this
        exact this
      · intro l hl
        obtain ⟨g1, g2, g3⟩ := h3 l hl
        exact ⟨g1, fun k v hkv => g2 k (List.mem_map.mpr ⟨_, hkv, rfl⟩), fun k v hkv => g3 (k, v) hkv⟩

/-! ## examples -/

/-- Process 0 has inserted key 4 and has begun to insert keys 6 and 8, which go to the same bucket; process 1 begins a loop without the lock in the middle of this, and inserts key 5
itself while it stands at the first entry. -/
def before : List (IAct Nat) := lift (whole 0 (.op (.insert 4 40)) ++ [.call 0 (.insertMany [(6, 60), (8, 80)]), .lock 0] ++ List.replicate 8 (.body 0))

def meanwhile (n : Nat) : List (IAct Nat) :=
  List.replicate 3 (.iter 1) ++ lift (List.replicate 24 (.body 0) ++ [.unlock 0] ++ whole 1 (.op (.insert 5 50))) ++ List.replicate n (.iter 1)

theorem before_safe : Safe 4 2 i0 before := by
  have gen : ∀ (xs : List (IAct Nat)) (s : ISys Nat), (∀ x ∈ xs, ∀ j, x ≠ .sys (.kill j)) → Safe 4 2 s xs := by
    intro xs
    induction xs with
    | nil => intro s _; trivial
    | cons x xs ih =>
      intro s h
      refine ⟨?_, fun s' es _ => ih s' (fun y hy => h y (by simp [hy]))⟩
      cases x with
      | sys y =>
        cases y with
        | kill j => exact absurd rfl (h _ (by simp) j)
        | _ => trivial
      | _ => trivial
  refine gen _ _ ?_
  intro x hx j
  simp only [before, lift, whole, List.mem_map, List.mem_append, List.mem_cons, List.mem_replicate] at hx
  obtain ⟨y, hy, rfl⟩ := hx
  intro e
  cases e
  simp at hy

theorem keeps_insert (k : UInt64) (v : V) : Keeps (.op (.insert k v)) := by
  intro o ho
  simp only [MapSys.Spec.meaning, List.mem_singleton] at ho
  subst ho
  simp

theorem keeps_many (ps : List (UInt64 × V)) : Keeps (.insertMany ps) := by
  intro o ho
  simp only [MapSys.Spec.meaning, List.mem_map] at ho
  obtain ⟨p, _, rfl⟩ := ho
  simp

theorem pend_exec : ∀ (xs : List (IAct V)) {s s' : ISys V} {es : List (Event V)}, exec N H s xs = some (s', es) → ∀ j c, s'.sys.pend j = .called c →
    s.sys.pend j = .called c ∨ .sys (.call j c) ∈ xs := by
  intro xs
  induction xs with
  | nil => intro s s' es he j c hj; cases he; exact Or.inl hj
  | cons x xs ih =>
    intro s s' es he j c hj
    simp only [exec] at he
    cases hs : step N H s x with
    | none => rw [hs] at he; cases he
    | some q =>
      obtain ⟨s1, es1⟩ := q
      rw [hs] at he
      simp only at he
      cases hx : exec N H s1 xs with
      | none => rw [hx] at he; cases he
      | some q =>
        obtain ⟨s2, es2⟩ := q
        rw [hx] at he
        cases he
        rcases ih hx j c hj with g | g
        · cases x with
          | sys y =>
            simp only [step] at hs
            obtain ⟨q, hq, e⟩ := map_some' hs
            obtain ⟨sy, es'⟩ := q
            simp only [Prod.mk.injEq] at e
            obtain ⟨rfl, rfl⟩ := e
            have hsys : (afterSys s sy y).sys = sy := by cases y <;> rfl
            rw [hsys] at g
            rcases pend_step hq g with g | rfl
            · exact Or.inl g
            · exact Or.inr (by simp)
          | begin k =>
            simp only [step] at hs
            split at hs
            · split at hs
              · cases hs; exact Or.inl g
              · cases hs
            · cases hs
          | iter k =>
            simp only [step] at hs
            split at hs
            · cases hs
            · split at hs
              · cases hs; exact Or.inl g
              · cases hs; exact Or.inl g
        · exact Or.inr (List.mem_cons_of_mem _ g)

/-- The premises of `C181_growing` are met by `before` and `meanwhile`: the loop begins in the middle of a batch of inserts, and sees two more entries besides those of the batch.
The loop ends with its 24th step. -/
example : ∃ s s' es0 es, exec 4 2 i0 before = some (s, es0) ∧ exec 4 2 s (.begin 1 :: meanwhile 21) = some (s', es) ∧ Safe 4 2 i0 before ∧ IAct.begin 1 ∉ meanwhile 21 ∧
    (∀ j c, s.sys.pend j = .called c → Keeps c) ∧ (∀ j c, IAct.sys (.call j c) ∈ meanwhile 21 → Keeps c) ∧
    s.sys.pend 0 = .called (.insertMany [(6, 60), (8, 80)]) ∧ .iterated 1 [(4, 40), (6, 60), (8, 80), (5, 50)] ∈ es := by
  have hx : (exec 4 2 i0 before).isSome = true := by decide +kernel
  obtain ⟨⟨s, es0⟩, e⟩ := Option.isSome_iff_exists.mp hx
  have hy : ((exec 4 2 i0 before).bind (fun q => exec 4 2 q.1 (.begin 1 :: meanwhile 21))).map (fun q => decide (.iterated 1 [(4, 40), (6, 60), (8, 80), (5, 50)] ∈ q.2)) = some true := by
    decide +kernel
  rw [e] at hy
  obtain ⟨⟨s', es⟩, e', hm⟩ := map_some' hy
  have hz : (exec 4 2 i0 before).map (fun q => match q.1.sys.pend 0 with
      | .called c => decide (c = .insertMany [(6, 60), (8, 80)])
      | _ => false) = some true := by decide +kernel
  rw [e] at hz
  refine ⟨s, s', es0, es, e, e', before_safe, ?_, ?_, ?_, ?_, by simpa using hm⟩
  · simp [meanwhile, lift, whole]
  · intro j c hj
    rcases pend_exec _ e j c hj with g | g
    · cases g
    · simp [before, lift, whole] at g
      rcases g with ⟨_, rfl⟩ | ⟨_, rfl⟩
      · exact keeps_insert _ _
      · exact keeps_many _
  · intro j c hj
    simp [meanwhile, lift, whole] at hj
    obtain ⟨_, rfl⟩ := hj
    exact keeps_insert _ _
  · simp only [Option.map_some, Option.some.injEq] at hz
    split at hz
    · rename_i c hc
      rw [hc, of_decide_eq_true hz]
    · cases hz

end Verif.MapIter
