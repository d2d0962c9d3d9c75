import Verif.FreeIter.Spec
import Verif.MapFree.Props
import Verif.MapIter.GrowProps
/-
  Property C191: loops over a map that is changed without any lock.
-/
set_option linter.unusedVariables false
set_option linter.unusedSimpArgs false

namespace Verif.FreeIter

open Verif.ShmPool Verif.ShmMap Verif.MapSys Verif.MapIter
open Verif.MapFree (FAct FEvent FSys completed inProgress Within Quiet within_start within_ret within_step within_rep quiet_step store_none store_ok set_self set_other call_step go_step finv_exec
  finv_start own_split inProgress_op)

variable {V : Type} {N H : Nat}

/-! ## The calls -/

def acts (xs : List (IAct V)) : List (FAct V) := xs.filterMap (fun | .free a => some a | _ => none)

theorem mem_acts {xs : List (IAct V)} {a : FAct V} : a ∈ acts xs ↔ .free a ∈ xs := by
  simp only [acts, List.mem_filterMap]
  constructor
  · rintro ⟨x, hx, e⟩
    cases x <;> cases e
    exact hx
  · intro h; exact ⟨_, h, rfl⟩

theorem calls_append (a b : List (IEvent V)) : calls (a ++ b) = calls a ++ calls b := List.filterMap_append ..

theorem calls_free (es : List (FEvent V)) : calls (es.map .free) = es := by
  induction es with
  | nil => rfl
  | cons e es ih =>
    have : calls (.free e :: es.map .free) = e :: calls (es.map .free) := rfl
    rw [List.map_cons, this, ih]

theorem exec_cons {s s' : ISys V} {x : IAct V} {xs : List (IAct V)} {es : List (IEvent V)} (h : exec N H s (x :: xs) = some (s', es)) :
    ∃ s1 es1 es2, step N H s x = some (s1, es1) ∧ exec N H s1 xs = some (s', es2) ∧ es = es1 ++ es2 := by
  simp only [exec] at h
  cases hs : step N H s x with
  | none => rw [hs] at h; cases h
  | some q =>
    obtain ⟨s1, es1⟩ := q
    rw [hs] at h
    simp only at h
    cases hx : exec N H s1 xs with
    | none => rw [hx] at h; cases h
    | some q =>
      obtain ⟨s2, es2⟩ := q
      rw [hx] at h
      cases h
      exact ⟨s1, es1, es2, rfl, hx, rfl⟩

theorem free_step {s s' : ISys V} {a : FAct V} {es : List (IEvent V)} (h : step N H s (.free a) = some (s', es)) :
    ∃ f fs, MapFree.step N H s.free a = some (f, fs) ∧ s' = { s with free := f } ∧ es = fs.map .free := by
  simp only [step] at h
  cases hs : MapFree.step N H s.free a with
  | none => rw [hs] at h; cases h
  | some q => rw [hs] at h; cases h; exact ⟨_, _, rfl, rfl, rfl⟩

theorem begin_step {s s' : ISys V} {i : Nat} {es : List (IEvent V)} (h : step N H s (.begin i) = some (s', es)) : s.it i = none ∧ s' = s.setIt i (some ⟨.bScan 0, []⟩) ∧ es = [] := by
  simp only [step] at h
  split at h
  · cases h; exact ⟨by assumption, rfl, rfl⟩
  · cases h

theorem iter_step {s s' : ISys V} {i : Nat} {es : List (IEvent V)} (h : step N H s (.iter i) = some (s', es)) :
    ∃ t, s.it i = some t ∧ ((t.pc = .done ∧ s' = s.setIt i none ∧ es = [.iterated i t.seen]) ∨ (t.pc ≠ .done ∧ s' = s.setIt i (some (t.step N H s.free.mem)) ∧ es = [])) := by
  simp only [step] at h
  split at h
  · cases h
  · rename_i t ht
    refine ⟨t, ht, ?_⟩
    split at h
    · cases h; exact Or.inl ⟨by assumption, rfl, rfl⟩
    · cases h; exact Or.inr ⟨by assumption, rfl, rfl⟩

/-- The calls are an execution of Verif.MapFree. -/
theorem calls_exec : ∀ (xs : List (IAct V)) {s s' : ISys V} {es : List (IEvent V)}, exec N H s xs = some (s', es) → MapFree.exec N H s.free (acts xs) = some (s'.free, calls es) := by
  intro xs
  induction xs with
  | nil => intro s s' es h; cases h; rfl
  | cons x xs ih =>
    intro s s' es h
    obtain ⟨s1, es1, es2, hs, hx, rfl⟩ := exec_cons h
    have := ih hx
    rw [calls_append]
    cases x with
    | free a =>
      obtain ⟨f, fs, h1, rfl, rfl⟩ := free_step hs
      rw [calls_free]
      show MapFree.exec N H s.free (a :: acts xs) = _
      simp only [MapFree.exec, h1, this]
    | begin i => obtain ⟨_, rfl, rfl⟩ := begin_step hs; exact this
    | iter i =>
      obtain ⟨t, _, ⟨_, rfl, rfl⟩ | ⟨_, rfl, rfl⟩⟩ := iter_step hs
      · exact this
      · exact this

/-- What holds while process `w` takes nothing out. -/
structure FOk (N H : Nat) (P : UInt64 → V → Prop) (w : Nat) (s : FSys V) : Prop where
  quiet : ∀ j pc, j ≠ w → s.pc j = some pc → Quiet pc
  own : (s.pc w = none ∧ ∃ f fr l, Rep N H s.mem f fr 0 l) ∨ ∃ pc l o, s.pc w = some pc ∧ Within N H s.mem pc l o ∧ Adds P o

/-- Then every step keeps the chains or makes them longer. -/
theorem fok_step (hN : N < NONE) (hH : 0 < H) {P : UInt64 → V → Prop} {w : Nat} {s s' : FSys V} {x : FAct V} {es : List (FEvent V)} (h : FOk N H P w s)
    (hc : ∀ j u, x = .call j u → j ≠ w → ∃ k, u = .read k) (ha : ∀ u, x = .call w u → Adds P u.op) (hs : MapFree.step N H s x = some (s', es)) :
    FOk N H P w s' ∧ ∀ f, Shape N H s.mem f → ∃ f', Grow N H P s.mem s'.mem f f' := by
  obtain ⟨hq, hown⟩ := h
  cases x with
  | call j u =>
    obtain ⟨hn, rfl, rfl⟩ := call_step hs
    refine ⟨⟨?_, ?_⟩, fun f hf => ⟨f, grow_refl hf⟩⟩
    · intro j' pc hj' hp
      by_cases e : j' = j
      · subst e
        obtain ⟨k', rfl⟩ := hc j' u rfl hj'
        rw [set_self] at hp; cases hp; trivial
      · rw [set_other _ _ e] at hp
        exact hq j' pc hj' hp
    · by_cases e : w = j
      · subst e
        rcases hown with ⟨_, f', fr, l, hr⟩ | ⟨pc, l, o, hp, _⟩
        · exact Or.inr ⟨_, l, u.op, set_self _ _ _, within_start hN hH hr _, ha u rfl⟩
        · rw [hn] at hp; cases hp
      · rw [set_other _ _ e]; exact hown
  | go j =>
    obtain ⟨pc, hpc, ⟨r, rfl, rfl, rfl⟩ | ⟨hr, rfl, rfl⟩⟩ := go_step hs
    · refine ⟨⟨?_, ?_⟩, fun f hf => ⟨f, grow_refl hf⟩⟩
      · intro j' pc' hj' hp
        by_cases e : j' = j
        · subst e; rw [set_self] at hp; cases hp
        · rw [set_other _ _ e] at hp; exact hq j' pc' hj' hp
      · by_cases e : w = j
        · subst e
          rcases hown with ⟨hp, _⟩ | ⟨pc, l, o, hp, hwi, _⟩
          · rw [hpc] at hp; cases hp
          · rw [hpc] at hp; cases hp
            obtain ⟨_, f', fr, hr'⟩ := within_ret hwi
            exact Or.inl ⟨set_self _ _ _, f', fr, _, hr'⟩
        · rw [set_other _ _ e]; exact hown
    · by_cases e : j = w
      · subst e
        rcases hown with ⟨hp, _⟩ | ⟨pc', l, o, hp, hwi', hadd⟩
        · rw [hpc] at hp; cases hp
        · rw [hpc] at hp; cases hp
          have hquiet : ∀ (m : Map V) t j' pc', j' ≠ j → (({ s with mem := m } : FSys V).set j t).pc j' = some pc' → Quiet pc' := by
            intro m t j' pc' hj' hp
            rw [set_other _ _ hj'] at hp
            exact hq j' pc' hj' hp
          rcases within_step hN hH hwi' hr with ⟨h1, h2⟩ | ⟨a, m', h1, h2, h3, h4⟩
          · rw [store_none h1]
            exact ⟨⟨hquiet s.mem _, Or.inr ⟨_, l, o, set_self _ _ _, h2, hadd⟩⟩, fun f hf => ⟨f, grow_refl hf⟩⟩
          · rw [store_ok h1 h2]
            exact ⟨⟨hquiet m' _, Or.inr ⟨_, l, o, set_self _ _ _, h3, hadd⟩⟩, h4 P hadd⟩
      · obtain ⟨g1, g2⟩ := quiet_step (N := N) (H := H) (m := s.mem) (hq j pc e hpc)
        rw [store_none g1]
        refine ⟨⟨?_, ?_⟩, fun f hf => ⟨f, grow_refl hf⟩⟩
        · intro j' pc' hj' hp
          by_cases e : j' = j
          · subst e; rw [set_self] at hp; cases hp; exact g2
          · rw [set_other _ _ e] at hp; exact hq j' pc' hj' hp
        · rw [set_other _ _ (fun h => e h.symm)]; exact hown

/-! ## The loop -/

/-- What holds during the loop of process `i`, which may still take `n` steps; `K` are keys that were in the map when it began. -/
structure GInv (N H : Nat) (P : UInt64 → V → Prop) (K : List UInt64) (w i n : Nat) (s : ISys V) : Prop where
  ok : FOk N H P w s.free
  mem : ∃ f, Shape N H s.free.mem f ∧ (∀ x ∈ nodes H f, P (s.free.mem.key x) (s.free.mem.val x)) ∧ (∀ k ∈ K, ∃ x ∈ f (k.toNat % H), s.free.mem.key x = k) ∧
    ∀ t, s.it i = some t → (∃ vis, At N H P s.free.mem f K t vis) ∧ left N H t + 1 ≤ n

theorem ginv_step (hN : N < NONE) (hH : 0 < H) {P : UInt64 → V → Prop} {K : List UInt64} {w i n : Nat} {s s' : ISys V} {x : IAct V} {es : List (IEvent V)} (h : GInv N H P K w i n s)
    (hc : ∀ j u, x = .free (.call j u) → j ≠ w → ∃ k, u = .read k) (ha : ∀ u, x = .free (.call w u) → Adds P u.op) (hb : x ≠ .begin i) (hs : step N H s x = some (s', es)) :
    (∃ n', GInv N H P K w i n' s' ∧ n' + (if IAct.iterOf i x then 1 else 0) ≤ n) ∧
    ∀ l, .iterated i l ∈ es → (l.map (·.1)).Nodup ∧ (∀ k ∈ K, k ∈ l.map (·.1)) ∧ ∀ p ∈ l, P p.1 p.2 := by
  obtain ⟨hok, f, hsh, hP, hK, hit⟩ := h
  cases x with
  | free a =>
    obtain ⟨t, fs, h1, rfl, rfl⟩ := free_step hs
    obtain ⟨g1, g2⟩ := fok_step hN hH hok (fun j u e => hc j u (by rw [e])) (fun u e => ha u (by rw [e])) h1
    obtain ⟨f', hg⟩ := g2 f hsh
    refine ⟨⟨n, ⟨g1, f', hg.shape, ?_, ?_, ?_⟩, by simp [IAct.iterOf]⟩, ?_⟩
    · intro x hx
      rcases hg.val x hx with ⟨g1, g2⟩ | g
      · show P (t.mem.key x) (t.mem.val x)
        rw [g2, hg.key x g1]; exact hP x g1
      · exact g
    · intro k hk
      obtain ⟨x, hx, e⟩ := hK k hk
      obtain ⟨r, hr⟩ := hg.ext _ (Nat.mod_lt k.toNat hH)
      exact ⟨x, by rw [hr]; exact List.mem_append_left _ hx, by show t.mem.key x = k; rw [hg.key x (mem_nodes.mpr ⟨_, Nat.mod_lt _ hH, hx⟩)]; exact e⟩
    · intro u hu
      obtain ⟨⟨vis, g1⟩, g2⟩ := hit u hu
      exact ⟨⟨vis, at_grow hg g1⟩, g2⟩
    · intro l hl
      obtain ⟨e, _, he⟩ := List.mem_map.mp hl
      cases he
  | begin j =>
    obtain ⟨_, rfl, rfl⟩ := begin_step hs
    have hj : i ≠ j := by rintro rfl; exact hb rfl
    refine ⟨⟨n, ⟨hok, f, hsh, hP, hK, ?_⟩, by simp [IAct.iterOf]⟩, by intro r hr; cases hr⟩
    intro u hu
    simp only [ISys.setIt] at hu
    rw [if_neg hj] at hu
    exact hit u hu
  | iter j =>
    obtain ⟨u, hu, hcase⟩ := iter_step hs
    by_cases hj : j = i
    · subst hj
      obtain ⟨⟨vis, g1⟩, g2⟩ := hit u hu
      rcases hcase with ⟨hd, rfl, rfl⟩ | ⟨hd, rfl, rfl⟩
      · refine ⟨⟨n - 1, ⟨hok, f, hsh, hP, hK, ?_⟩, by simp [IAct.iterOf]; omega⟩, ?_⟩
        · intro t' ht'
          simp [ISys.setIt] at ht'
        · intro l hl
          simp only [List.mem_singleton, IEvent.iterated.injEq, true_and] at hl
          subst hl
          exact at_end hH hsh g1 hd
      · obtain ⟨g3, g4⟩ := at_step hN hsh hP hK g1 hd
        refine ⟨⟨n - 1, ⟨hok, f, hsh, hP, hK, ?_⟩, by simp [IAct.iterOf]; omega⟩, by intro l hl; cases hl⟩
        intro t' ht'
        simp only [ISys.setIt, if_true, Option.some.injEq] at ht'
        subst ht'
        exact ⟨g3, by omega⟩
    · have hj' : i ≠ j := fun e => hj e.symm
      have hset : ∀ (q : Option (It V)) u, (s.setIt j q).it i = some u → (∃ vis, At N H P s.free.mem f K u vis) ∧ left N H u + 1 ≤ n := by
        intro q u hu
        simp only [ISys.setIt] at hu
        rw [if_neg hj'] at hu
        exact hit u hu
      rcases hcase with ⟨hd, rfl, rfl⟩ | ⟨hd, rfl, rfl⟩
      · refine ⟨⟨n, ⟨hok, f, hsh, hP, hK, hset _⟩, by simp [IAct.iterOf, hj]⟩, ?_⟩
        intro l hl
        simp only [List.mem_singleton, IEvent.iterated.injEq] at hl
        exact absurd hl.1 hj'
      · exact ⟨⟨n, ⟨hok, f, hsh, hP, hK, hset _⟩, by simp [IAct.iterOf, hj]⟩, by intro l hl; cases hl⟩

theorem ginv_exec (hN : N < NONE) (hH : 0 < H) {P : UInt64 → V → Prop} {K : List UInt64} {w i : Nat} : ∀ (xs : List (IAct V)) {n : Nat} {s s' : ISys V} {es : List (IEvent V)}, GInv N H P K w i n s →
    OneWriter w xs → (∀ u, .free (.call w u) ∈ xs → Adds P u.op) → .begin i ∉ xs → exec N H s xs = some (s', es) →
    (∃ n', GInv N H P K w i n' s' ∧ n' + xs.countP (IAct.iterOf i) ≤ n) ∧
    ∀ l, .iterated i l ∈ es → (l.map (·.1)).Nodup ∧ (∀ k ∈ K, k ∈ l.map (·.1)) ∧ ∀ p ∈ l, P p.1 p.2 := by
  intro xs
  induction xs with
  | nil => intro n s s' es h _ _ _ he; cases he; exact ⟨⟨n, h, by simp⟩, by intro l hl; cases hl⟩
  | cons x xs ih =>
    intro n s s' es h hc ha hb he
    obtain ⟨s1, es1, es2, hs, hx, rfl⟩ := exec_cons he
    obtain ⟨⟨n1, h1, hn1⟩, hl1⟩ := ginv_step hN hH h (fun j u e hj => hc j u (by rw [e]; simp) hj) (fun u e => ha u (by rw [e]; simp)) (fun e => hb (by rw [e]; simp)) hs
    obtain ⟨⟨n2, h2, hn2⟩, hl2⟩ := ih h1 (fun j u hm hj => hc j u (List.mem_cons_of_mem _ hm) hj) (fun u hm => ha u (List.mem_cons_of_mem _ hm)) (fun hm => hb (List.mem_cons_of_mem _ hm)) hx
    refine ⟨⟨n2, h2, ?_⟩, ?_⟩
    · rw [List.countP_cons]; omega
    · intro l hl
      rcases List.mem_append.mp hl with hl | hl
      · exact hl1 l hl
      · exact hl2 l hl

/-! ## The theorems -/

/-- **C191.** One process `w` inserts, erases and reads without any lock; all processes may read and loop over the map with an iterator, without the lock.  Process `i` begins a loop; the call
of `w` in progress at this instant, if any, and its later calls are no `unprotected_erase`.  `l0` is what the finite map contains after the calls of `w` that had returned by then.  Then, in
every interleaving, the loop never leaves the segment, it comes to its end after at most `5 * capacity + buckets + 3` steps of its own, it meets no key twice, it meets every key of
`l0`, and every pair it meets is one of `l0` or one that `w` inserts in the call in progress or later.  Missing: erasing during the loop (`C191_refuted`, `C191_refuted_ub`). -/
theorem C191_growing_partial (hN : N < 2 ^ 31) (hH : 0 < H) (w i : Nat) (s0 s s' : ISys V) (h : Start H s0) (xs ys : List (IAct V)) (hw : OneWriter w (xs ++ ys))
    (es0 es : List (IEvent V)) (he0 : exec N H s0 xs = some (s, es0)) (he : exec N H s (.begin i :: ys) = some (s', es)) (hno : .begin i ∉ ys)
    (hpend : ∀ k, .erase k ∉ inProgress w (calls es0)) (hcall : ∀ k, .free (.call w (.erase k)) ∉ ys) :
    (∀ t, s'.it i = some t → t.pc ≠ .ub) ∧ ys.countP (IAct.iterOf i) ≤ 5 * N + H + 3 ∧
    ∀ l, .iterated i l ∈ es → (l.map (·.1)).Nodup ∧ (∀ k v, (k, v) ∈ (ShmMap.Spec.run N [] (completed w (calls es0))).1 → k ∈ l.map (·.1)) ∧
      ∀ k v, (k, v) ∈ l → (k, v) ∈ (ShmMap.Spec.run N [] (completed w (calls es0))).1 ∨ .insert k v ∈ inProgress w (calls es0) ∨ .free (.call w (.insert k v)) ∈ ys := by
  have hN' : N < NONE := by unfold NONE; omega
  have hfi := finv_exec hN' hH (acts xs) (finv_start (w := w) h.1) (fun j u hm hj => hw j u (List.mem_append_left _ (mem_acts.mp hm)) hj) (calls_exec xs he0)
  have hown := hfi.own
  simp only [List.nil_append] at hown
  obtain ⟨_, hcase⟩ := own_split hown
  generalize hl0 : (ShmMap.Spec.run N [] (completed w (calls es0))).1 = l0 at hcase ⊢
  obtain ⟨s1, es1, es2, hs, hx, rfl⟩ := exec_cons he
  obtain ⟨hn, rfl, rfl⟩ := begin_step hs
  let P : UInt64 → V → Prop := fun k v => (k, v) ∈ l0 ∨ .insert k v ∈ inProgress w (calls es0) ∨ .free (.call w (.insert k v)) ∈ ys
  have hrep : ∃ f fr lk l, Rep N H s.free.mem f fr lk l ∧ (∃ pre, l.map (·.1) = pre ++ l0.map (·.1)) ∧ ∀ k v, (k, v) ∈ l → P k v := by
    rcases hcase with ⟨_, _, f, fr, hr⟩ | ⟨pc, o, _, hin, hwi⟩
    · exact ⟨f, fr, 0, l0, hr, ⟨[], by simp⟩, fun k v hk => Or.inl hk⟩
    · have hadd : Adds (fun _ _ => True) o := by
        obtain ⟨u, hu⟩ := inProgress_op (w := w) (es := calls es0) (o := o) (by rw [hin]; simp)
        subst hu
        cases u with
        | read k => trivial
        | insert k v => trivial
        | erase k' => exact absurd (show Op.erase k' ∈ inProgress w (calls es0) by rw [hin]; simp [Unprot.op]) (hpend k')
      obtain ⟨f, fr, lk, l', hr, hm⟩ := within_rep hN' hH hwi hadd
      refine ⟨f, fr, lk, l', hr, hm.1, fun k v hk => ?_⟩
      rcases hm.2 k v hk with g | g
      · exact Or.inl g
      · exact Or.inr (Or.inl (by rw [hin]; exact g))
  obtain ⟨f, fr, lk, l, hr, ⟨pre, hpre⟩, hlP⟩ := hrep
  have hinv : GInv N H P (l0.map (·.1)) w i (5 * N + H + 3) (s.setIt i (some ⟨.bScan 0, []⟩)) := by
    refine ⟨⟨hfi.quiet, ?_⟩, f, shape_rep hr, ?_, ?_, ?_⟩
    · rcases hcase with ⟨h1, _, f, fr, hr⟩ | ⟨pc, o, h1, hin, hwi⟩
      · exact Or.inl ⟨h1, f, fr, l0, hr⟩
      · refine Or.inr ⟨pc, l0, o, h1, hwi, ?_⟩
        obtain ⟨u, rfl⟩ := inProgress_op (w := w) (es := calls es0) (o := o) (by rw [hin]; simp)
        cases u with
        | read k => trivial
        | insert k' v => exact Or.inr (Or.inl (by rw [hin]; simp [Unprot.op]))
        | erase k' => exact absurd (show Op.erase k' ∈ inProgress w (calls es0) by rw [hin]; simp [Unprot.op]) (hpend k')
    · intro x hxn
      exact hlP _ _ (hr.abs.mem_iff.mpr (List.mem_map.mpr ⟨x, hxn, rfl⟩))
    · intro k hk
      exact (hr.has_iff hH k).mp (by unfold ShmMap.Spec.has; rw [hpre]; exact List.mem_append_right _ hk)
    · intro t' ht'
      simp only [ISys.setIt, if_true, Option.some.injEq] at ht'
      subst ht'
      refine ⟨⟨[], rfl, by simp, by simp, by simp, ?_, ?_⟩, ?_⟩
      · intro x hx; cases hx
      · intro k _ hlt; omega
      · simp only [left, List.length_nil]; omega
  obtain ⟨⟨n', h1, h2⟩, h3⟩ := ginv_exec hN' hH ys hinv (fun j u hm hj => hw j u (List.mem_append_right _ hm) hj)
    (by
      intro u hm
      cases u with
      | read k => trivial
      | insert k' v => exact Or.inr (Or.inr hm)
      | erase k' => exact absurd hm (hcall k')) hno hx
  refine ⟨?_, by omega, ?_⟩
  · intro t' ht' hub
    obtain ⟨f', _, _, _, g⟩ := h1.mem
    obtain ⟨⟨vis, g1⟩, _⟩ := g t' ht'
    have := g1.place
    rw [hub] at this
    exact this
  · intro l hl
    have hl : .iterated i l ∈ es2 := by simpa using hl
    obtain ⟨g1, g2, g3⟩ := h3 l hl
    exact ⟨g1, fun k v hkv => g2 k (List.mem_map.mpr ⟨_, hkv, rfl⟩), fun k v hkv => g3 (k, v) hkv⟩

theorem step_nodup {l : ShmMap.Spec.Bindings V} (h : (l.map (·.1)).Nodup) (op : Op V) : ((ShmMap.Spec.step N l op).1.map (·.1)).Nodup := by
  cases op with
  | read k => exact h
  | insert k v =>
    simp only [ShmMap.Spec.step]
    split
    · simp only [ShmMap.Spec.bind]
      split
      · have : (l.map (fun p => if p.1 = k then (k, v) else p)).map (·.1) = l.map (·.1) := by
          rw [List.map_map]
          refine List.map_congr_left fun p _ => ?_
          simp only [Function.comp]
          split
          · rename_i e; exact e.symm
          · rfl
        rw [this]; exact h
      · rename_i hk
        exact List.nodup_cons.mpr ⟨hk, h⟩
    · exact h
  | erase k => exact h.sublist ((List.filter_sublist ..).map _)
  | clear => exact List.nodup_nil
  | size => exact h

theorem nodup_of_map {l : List (UInt64 × V)} (h : (l.map (·.1)).Nodup) : l.Nodup := by
  induction l with
  | nil => exact List.nodup_nil
  | cons p l ih =>
    rw [List.map_cons, List.nodup_cons] at h
    exact List.nodup_cons.mpr ⟨fun hp => h.1 (List.mem_map.mpr ⟨p, hp, rfl⟩), ih h.2⟩

theorem run_nodup : ∀ (ops : List (Op V)) {l : ShmMap.Spec.Bindings V}, (l.map (·.1)).Nodup → ((ShmMap.Spec.run N l ops).1.map (·.1)).Nodup := by
  intro ops
  induction ops with
  | nil => intro l h; exact h
  | cons op ops ih => intro l h; exact ih (step_nodup h op)

/-- **C191, nothing is stored during the loop.** If process `w` is in no `unprotected_insert` or `unprotected_erase` when the loop begins, and calls none during it, then the loop meets exactly
the entries of the finite map, each once: whatever the calls before it were, erasures too. -/
theorem C191_still_partial (hN : N < 2 ^ 31) (hH : 0 < H) (w i : Nat) (s0 s s' : ISys V) (h : Start H s0) (xs ys : List (IAct V)) (hw : OneWriter w (xs ++ ys))
    (es0 es : List (IEvent V)) (he0 : exec N H s0 xs = some (s, es0)) (he : exec N H s (.begin i :: ys) = some (s', es)) (hno : .begin i ∉ ys)
    (hpend : ∀ o ∈ inProgress w (calls es0), ∃ k, o = .read k) (hcall : ∀ u, .free (.call w u) ∈ ys → ∃ k, u = .read k) (l : List (UInt64 × V)) (hl : .iterated i l ∈ es) :
    l.Perm (ShmMap.Spec.run N [] (completed w (calls es0))).1 := by
  have hN' : N < NONE := by unfold NONE; omega
  obtain ⟨_, _, h3⟩ := C191_growing_partial hN hH w i s0 s s' h xs ys hw es0 es he0 he hno (fun k hk => by obtain ⟨_, e⟩ := hpend _ hk; cases e) (fun k hk => by obtain ⟨_, e⟩ := hcall _ hk; cases e)
  obtain ⟨g1, g2, g3⟩ := h3 l hl
  have hnd := run_nodup (N := N) (completed w (calls es0)) (l := ([] : List (UInt64 × V))) (by simp)
  have hsub : ∀ k v, (k, v) ∈ l → (k, v) ∈ (ShmMap.Spec.run N [] (completed w (calls es0))).1 := by
    intro k v hkv
    rcases g3 k v hkv with g | g | g
    · exact g
    · obtain ⟨_, e⟩ := hpend _ g; cases e
    · obtain ⟨_, e⟩ := hcall _ g; cases e
  refine (List.perm_ext_iff_of_nodup (nodup_of_map g1) (nodup_of_map hnd)).mpr ?_
  rintro ⟨k, v⟩
  refine ⟨hsub k v, fun hk => ?_⟩
  obtain ⟨⟨k', v'⟩, hm, e⟩ := List.mem_map.mp (g2 k v hk)
  simp only at e
  subst e
  have : (k', v) = (k', v') := inj_of_nodup_map hnd hk (hsub _ _ hm) rfl
  rw [this]; exact hm

/-! ## Erasing during the loop -/

/-- A fresh map. -/
def i0 : ISys Nat := ⟨MapFree.f0, fun _ => none⟩

theorem i0_start (H : Nat) : Start H i0 := ⟨MapFree.f0_start H, fun _ => rfl⟩

def go (n i : Nat) : List (IAct Nat) := List.replicate n (.free (.go i))

def it (n i : Nat) : List (IAct Nat) := List.replicate n (.iter i)

/-- Process 0 inserts keys 4 and 6, of the same bucket. -/
def two : List (IAct Nat) := [.free (.call 0 (.insert 4 40))] ++ go 10 0 ++ [.free (.call 0 (.insert 6 60))] ++ go 12 0

/-- Process 1 loops; after `n` steps of the loop process 0 erases key 4. -/
def cut (n k : Nat) : List (IAct Nat) := it n 1 ++ [.free (.call 0 (.erase 4))] ++ go 9 0 ++ it k 1

/-- The lists that loops have met. -/
def lists (es : List (IEvent V)) : List (Nat × List (UInt64 × V)) := es.filterMap (fun | .iterated i l => some (i, l) | .free _ => none)

/-- **C191 is false when the process erases during the loop: an entry is missed.** Key 6 is inserted before the loop and never erased, and the loop meets key 4 only, which is erased. -/
theorem C191_refuted : (exec 4 2 i0 (two ++ .begin 1 :: cut 4 5)).map (fun q => (MapFree.answers (calls q.2), lists q.2)) =
    some ([(0, .bool true), (0, .bool true), (0, .bool true)], [(1, [(4, 40)])]) := by decide +kernel

/-- **C191 is false when the process erases during the loop: an entry is met twice.** Process 0 erases key 4 and inserts it again; it is now behind key 6. -/
theorem C191_refuted_twice : (exec 4 2 i0 (two ++ .begin 1 :: (it 7 1 ++ [.free (.call 0 (.erase 4))] ++ go 9 0 ++ [.free (.call 0 (.insert 4 41))] ++ go 12 0 ++ it 12 1))).map (fun q => lists q.2) =
    some [(1, [(4, 40), (6, 60), (4, 41)])] := by decide +kernel

/-- **C191 is false when the process erases during the loop: the loop reads outside of the segment.** The entry is erased between the two reads of `next` in `operator++`; the loop goes on
with `objects[-1]`. -/
theorem C191_refuted_ub : (exec 4 2 i0 (two ++ .begin 1 :: cut 5 3)).map (fun q => (q.1.it 1).map (·.pc)) = some (some .ub) := by decide +kernel

theorem oneWriter_of {xs : List (IAct Nat)} {w : Nat} (h : xs.all (fun | .free (.call j (.read _)) => true | .free (.call j _) => j == w | _ => true) = true) : OneWriter w xs := by
  intro j u hm hj
  have := List.all_eq_true.mp h _ hm
  cases u with
  | read k => exact ⟨k, rfl⟩
  | insert k v => simp at this; exact absurd this hj
  | erase k => simp at this; exact absurd this hj

/-- Process 0 has inserted keys 4 and 6 and erased 4, and is inserting key 8. -/
def early : List (IAct Nat) := two ++ [.free (.call 0 (.erase 4))] ++ go 9 0 ++ [.free (.call 0 (.insert 8 80))] ++ go 4 0

/-- During the loop of process 1 the insertion of key 8 returns, and process 0 inserts key 7 and replaces the value of key 6. -/
def during : List (IAct Nat) := it 4 1 ++ go 8 0 ++ [.free (.call 0 (.insert 7 70))] ++ go 10 0 ++ [.free (.call 0 (.insert 6 61))] ++ go 4 0 ++ it 15 1

/-- `C191_growing_partial` applies: the loop also meets the entries that are inserted meanwhile, and the old value of key 6. -/
example : ∃ s es0 s' es, exec 4 2 i0 early = some (s, es0) ∧ exec 4 2 s (.begin 1 :: during) = some (s', es) ∧ Start 2 i0 ∧ OneWriter 0 (early ++ during) ∧
    completed 0 (calls es0) = [.insert 4 40, .insert 6 60, .erase 4] ∧ inProgress 0 (calls es0) = [.insert 8 80] ∧ lists es = [(1, [(6, 60), (8, 80), (7, 70)])] := by
  have hy : (exec 4 2 i0 early).bind (fun q => (exec 4 2 q.1 (.begin 1 :: during)).map (fun t => decide (completed 0 (calls q.2) = [.insert 4 40, .insert 6 60, .erase 4]) &&
      (decide (inProgress 0 (calls q.2) = [.insert 8 80]) && decide (lists t.2 = [(1, [(6, 60), (8, 80), (7, 70)])])))) = some true := by decide +kernel
  cases h1 : exec 4 2 i0 early with
  | none => rw [h1] at hy; cases hy
  | some q =>
    obtain ⟨s, es0⟩ := q
    rw [h1] at hy
    simp only [Option.bind_some] at hy
    cases h2 : exec 4 2 s (.begin 1 :: during) with
    | none => rw [h2] at hy; cases hy
    | some q =>
      obtain ⟨s', es⟩ := q
      rw [h2] at hy
      simp only [Option.map_some, Option.some.injEq, Bool.and_eq_true, decide_eq_true_eq] at hy
      exact ⟨s, es0, s', es, rfl, h2, i0_start 2, oneWriter_of (by decide +kernel), hy.1, hy.2.1, hy.2.2⟩

/-- `C191_still_partial` applies: after an erasure the loop meets what is left. -/
example : ∃ s es0 s' es, exec 4 2 i0 (two ++ [.free (.call 0 (.erase 4))] ++ go 9 0) = some (s, es0) ∧ exec 4 2 s (.begin 1 :: it 9 1) = some (s', es) ∧
    completed 0 (calls es0) = [.insert 4 40, .insert 6 60, .erase 4] ∧ inProgress 0 (calls es0) = [] ∧ lists es = [(1, [(6, 60)])] := by
  have hy : (exec 4 2 i0 (two ++ [.free (.call 0 (.erase 4))] ++ go 9 0)).bind (fun q => (exec 4 2 q.1 (.begin 1 :: it 9 1)).map (fun t =>
      decide (completed 0 (calls q.2) = [.insert 4 40, .insert 6 60, .erase 4]) && (decide (inProgress 0 (calls q.2) = []) && decide (lists t.2 = [(1, [(6, 60)])])))) = some true := by decide +kernel
  cases h1 : exec 4 2 i0 (two ++ [.free (.call 0 (.erase 4))] ++ go 9 0) with
  | none => rw [h1] at hy; cases hy
  | some q =>
    obtain ⟨s, es0⟩ := q
    rw [h1] at hy
    simp only [Option.bind_some] at hy
    cases h2 : exec 4 2 s (.begin 1 :: it 9 1) with
    | none => rw [h2] at hy; cases hy
    | some q =>
      obtain ⟨s', es⟩ := q
      rw [h2] at hy
      simp only [Option.map_some, Option.some.injEq, Bool.and_eq_true, decide_eq_true_eq] at hy
      exact ⟨s, es0, s', es, rfl, h2, hy.1, hy.2.1, hy.2.2⟩

end Verif.FreeIter
