import Verif.WeakIter.Spec
import Verif.WeakPeek.Props
/-
  Property C185: iteration on processors that delay and reorder stores.
-/
set_option linter.unusedVariables false
set_option linter.unusedSimpArgs false

namespace Verif.WeakIter

open Verif.ShmPool Verif.ShmMap Verif.MapSys
open Verif.MapIter (It Keeps Inserts calls Shape Grow Only At at_grow at_step at_end left keeps_only mid_rep sys_grow safe_only pend_step shape_rep sys_calls)
open Verif.MapWeak (store storeAll)
open Verif.WeakPeek (Growing growing_append act_view arrive_view)

variable {V : Type} {N H : Nat}

theorem sys_step {s s' : ISys V} {a : MapWeak.Act V} {es : List (Event V)} (h : step N H s (.sys a) = some (s', es)) :
    MapWeak.step N H s.sys a = some (s'.sys, es) ∧ (∀ i t, s'.it i = some t → s.it i = some t) ∧ s' = afterSys s s'.sys a := by
  simp only [step] at h
  obtain ⟨⟨sy, es1⟩, hq, e⟩ := map_some' h
  simp only [Prod.mk.injEq] at e
  obtain ⟨rfl, rfl⟩ := e
  cases a with
  | arrive j k => exact ⟨hq, fun i t hi => hi, rfl⟩
  | act a =>
    have hsys : (afterSys s sy (.act a)).sys = sy := by cases a <;> rfl
    refine ⟨by rw [hsys]; exact hq, ?_, by rw [hsys]⟩
    intro i t hi
    cases a with
    | kill j =>
      simp only [afterSys, ISys.setIt] at hi
      by_cases hj : i = j
      · rw [if_pos hj] at hi; cases hi
      · rw [if_neg hj] at hi; exact hi
    | _ => exact hi

theorem begin_step {s s' : ISys V} {i : Nat} {es : List (Event V)} (h : step N H s (.begin i) = some (s', es)) :
    es = [] ∧ s.it i = none ∧ connected s.sys i = true ∧ s' = s.setIt i (some ⟨.bScan 0, []⟩) := by
  simp only [step] at h
  split at h
  · split at h
    · cases h; exact ⟨rfl, by assumption, by assumption, rfl⟩
    · cases h
  · cases h

theorem iter_step {s s' : ISys V} {i : Nat} {es : List (Event V)} (h : step N H s (.iter i) = some (s', es)) :
    ∃ t, s.it i = some t ∧ s'.sys = s.sys ∧
      ((t.pc = .done ∧ s' = s.setIt i none ∧ es = [.iterated i t.seen]) ∨ (t.pc ≠ .done ∧ s' = s.setIt i (some (t.step N H (s.sys.view i))) ∧ es = [])) := by
  simp only [step] at h
  split at h
  · cases h
  · rename_i t ht
    split at h
    · rename_i hd; cases h; exact ⟨t, ht, rfl, Or.inl ⟨hd, rfl, rfl⟩⟩
    · rename_i hd; cases h; exact ⟨t, ht, rfl, Or.inr ⟨hd, rfl, rfl⟩⟩

theorem safe_kill {s : ISys V} {t : MapSys.Sys V} {b : MapSys.Act V} (hw : MapWeak.Sim N H s.sys t) (hk : SafeAct H s (.sys (.act b))) : SafeKill H t b := by
  cases b with
  | kill i =>
    intro p hp hm
    rw [hw.rw] at hp
    exact hk i p rfl hp hm
  | _ => trivial

/-! ## iterations inside sections -/

theorem locked_step (hN : N < NONE) (hH : 0 < H) {s s' : ISys V} {t : MapSys.Sys V} {a : MapSys.Spec.State V} {x : IAct V} {es : List (Event V)} (hw : MapWeak.Sim N H s.sys t)
    (h : MapIter.Inv N H ⟨t, s.it⟩ a) (hl : Locked s x) (hk : SafeAct H s x) (hs : step N H s x = some (s', es)) :
    ∃ t' a', MapWeak.Sim N H s'.sys t' ∧ MapIter.Inv N H ⟨t', s'.it⟩ a' ∧ ∀ es', MapSys.Spec.Atomic N a' es' → MapSys.Spec.Atomic N a (es ++ es') := by
  cases x with
  | sys y =>
    obtain ⟨hq, _, e⟩ := sys_step hs
    rcases MapWeak.sim_step hw hq with ⟨j, r, rfl, rfl, hw'⟩ | ⟨b, t', rfl, ht, hw'⟩
    · refine ⟨t, a, hw', ?_, fun es' he => he⟩
      rw [e]; exact h
    · have hs' : MapIter.step N H ⟨t, s.it⟩ (.sys b) = some (⟨t', s'.it⟩, es) := by
        simp only [MapIter.step, ht, Option.map_some, Option.some.injEq, Prod.mk.injEq, and_true]
        rw [e]
        cases b <;> rfl
      have hl' : MapIter.Locked ⟨t, s.it⟩ (.sys b) := by
        cases b with
        | unlock i => exact hl
        | _ => trivial
      obtain ⟨a', g1, g2⟩ := MapIter.inv_step hN hH h hl' (safe_kill hw hk) hs'
      exact ⟨t', a', hw', g1, g2⟩
  | begin j =>
    obtain ⟨rfl, hnone, hc, rfl⟩ := begin_step hs
    have hs' : MapIter.step N H ⟨t, s.it⟩ (.begin j) = some (⟨t, (s.setIt j (some ⟨.bScan 0, []⟩)).it⟩, []) := by
      have hc' : MapIter.connected t j = true := by
        have : t.rw.mode j = s.sys.lk.mode j := by rw [hw.rw]; rfl
        unfold MapIter.connected
        rw [this]
        exact hc
      simp only [MapIter.step, hnone, hc', if_true]
      rfl
    obtain ⟨⟨p, hp, hm⟩, ks, hks⟩ := hl
    have hl' : MapIter.Locked ⟨t, s.it⟩ (.begin j) := ⟨⟨p, by show t.rw.procs[j]? = some p; rw [hw.rw]; exact hp, hm⟩, ks, by show t.pend j = _; rw [hw.pend]; exact hks⟩
    obtain ⟨a', g1, g2⟩ := MapIter.inv_step hN hH h hl' trivial hs'
    exact ⟨t, a', hw, g1, g2⟩
  | iter j =>
    obtain ⟨u, hu, _, hcase⟩ := iter_step hs
    obtain ⟨⟨p, hp, hm⟩, _, _⟩ := h.it j u hu
    have hview : s.sys.view j = t.rw.mem := by
      have hp' : s.sys.lk.procs[j]? = some p := by
        have : t.rw.procs[j]? = some p := hp
        rw [hw.rw] at this
        exact this
      have := hw.view j
      rw [hw.none j p hp' (Or.inr hm)] at this
      exact this
    have hs' : MapIter.step N H ⟨t, s.it⟩ (.iter j) = some (⟨t, s'.it⟩, es) := by
      simp only [MapIter.step, hu]
      rcases hcase with ⟨hd, rfl, rfl⟩ | ⟨hd, rfl, rfl⟩
      · rw [if_pos hd]; rfl
      · rw [if_neg hd, hview]; rfl
    obtain ⟨a', g1, g2⟩ := MapIter.inv_step (x := .iter j) hN hH h trivial trivial hs'
    rcases hcase with ⟨hd, rfl, rfl⟩ | ⟨hd, rfl, rfl⟩
    · exact ⟨t, a', hw, g1, g2⟩
    · exact ⟨t, a', hw, g1, g2⟩

theorem locked_exec (hN : N < NONE) (hH : 0 < H) : ∀ (xs : List (IAct V)) {s s' : ISys V} {t : MapSys.Sys V} {a : MapSys.Spec.State V} {es : List (Event V)}, MapWeak.Sim N H s.sys t →
    MapIter.Inv N H ⟨t, s.it⟩ a → Polite N H s xs → exec N H s xs = some (s', es) → MapSys.Spec.Atomic N a es ∧ ∃ t' a', MapIter.Inv N H ⟨t', s'.it⟩ a' := by
  intro xs
  induction xs with
  | nil => intro s s' t a es _ h _ he; cases he; exact ⟨.nil, t, a, h⟩
  | cons x xs ih =>
    intro s s' t a es hw h hk he
    simp only [exec] at he
    cases hs : step N H s x with
    | none => rw [hs] at he; cases he
    | some q =>
      obtain ⟨s1, es1⟩ := q
      rw [hs] at he
      simp only at he
      cases hx : exec N H s1 xs with
      | none => rw [hx] at he; cases he
      | some q =>
        obtain ⟨s2, es2⟩ := q
        rw [hx] at he
        cases he
        obtain ⟨t', a', h1, h2, h3⟩ := locked_step hN hH hw h hk.1 hk.2.1 hs
        obtain ⟨h4, h5⟩ := ih h1 h2 (hk.2.2 _ _ hs) hx
        exact ⟨h3 _ h4, h5⟩

/-- **C185, with the lock.** Any number of processes use one map through any calls, and iterate over it between their own `lock_read_rw()` and `unlock_read_rw()`, on processors that delay
and reorder stores at will: what they see is a history of the atomic map, in which an iteration sees every entry exactly once, with its value, all at one instant; and no iteration reads
outside of the segment.  Missing: iterations without the lock (`C185_in_order_partial`, `C185_refuted`, `C185_refuted_ub`), and kills at the places of C52. -/
theorem C185_locked_partial (hN : N < 2 ^ 31) (hH : 0 < H) (s s' : ISys V) (m : Map V) (h : Start H s m) (xs : List (IAct V)) (hk : Polite N H s xs) (es : List (Event V))
    (he : exec N H s xs = some (s', es)) : MapSys.Spec.Atomic N MapSys.Spec.State.init es ∧ ∀ i t, s'.it i = some t → t.pc ≠ .ub := by
  have hN' : N < NONE := by unfold NONE; omega
  have hstart : MapIter.Start H ⟨s.sys.strong m, s.it⟩ := ⟨⟨h.1.1, h.1.2.1, h.1.2.2.2⟩, h.2⟩
  obtain ⟨h1, t', a', h2⟩ := locked_exec hN' hH xs (MapWeak.sim_start h.1) (MapIter.inv_start hstart) hk he
  refine ⟨h1, ?_⟩
  intro i t ht e
  obtain ⟨_, _, n, l, g, _⟩ := h2.it i t ht
  have gen : ∀ n (t : It V), t.pc = .ub → (MapIter.runIt N H t'.rw.mem n t).pc = .ub := by
    intro n
    induction n with
    | zero => intro t h; exact h
    | succ n ih => intro t h; exact ih _ (by simp only [It.step, h])
  have := gen n t e
  have g' : MapIter.runIt N H t'.rw.mem n t = ⟨.done, l⟩ := g
  rw [g'] at this
  cases this

/-! ## stores that arrive in order -/

/-- What holds during the iteration of process `i`, which may still take `n` steps; `K` are keys that were in the map when it began. -/
structure GInv (N H : Nat) (P : UInt64 → V → Prop) (K : List UInt64) (i n : Nat) (s : ISys V) : Prop where
  sim : ∃ t a, MapWeak.Sim N H s.sys t ∧ MapSys.Sim N H t a
  only : ∀ j c, s.sys.pend j = .called c → Only P c
  mem : ∃ f, Shape N H (s.sys.view i) f ∧ (∀ x ∈ nodes H f, P ((s.sys.view i).key x) ((s.sys.view i).val x)) ∧ (∀ k ∈ K, ∃ x ∈ f (k.toNat % H), (s.sys.view i).key x = k) ∧
    Growing N H P (s.sys.view i) f (s.sys.inc i) ∧ ∀ t, s.it i = some t → (∃ vis, At N H P (s.sys.view i) f K t vis) ∧ left N H t + 1 ≤ n

theorem ginv_step (hN : N < NONE) (hH : 0 < H) {P : UInt64 → V → Prop} {K : List UInt64} {i n : Nat} {s s' : ISys V} {x : IAct V} {es : List (Event V)} (h : GInv N H P K i n s)
    (hc : ∀ j c, x = .sys (.act (.call j c)) → Only P c) (hb : x ≠ .begin i) (hf : ∀ r, x = .sys (.arrive i r) → r = 0) (hs : step N H s x = some (s', es)) :
    (∃ n', GInv N H P K i n' s' ∧ n' + (if IAct.iterOf i x then 1 else 0) ≤ n) ∧
    ∀ l, .iterated i l ∈ es → (l.map (·.1)).Nodup ∧ (∀ k ∈ K, k ∈ l.map (·.1)) ∧ ∀ p ∈ l, P p.1 p.2 := by
  obtain ⟨⟨t, a, hw, hsim⟩, honly, f, hsh, hP, hK, hgr, hit⟩ := h
  -- the view of process `i` grows
  have grows : ∀ {s1 : ISys V} {f' : Nat → List Nat}, Grow N H P (s.sys.view i) (s1.sys.view i) f f' → (∀ i t, s1.it i = some t → s.it i = some t) →
      (∀ x ∈ nodes H f', P ((s1.sys.view i).key x) ((s1.sys.view i).val x)) ∧ (∀ k ∈ K, ∃ x ∈ f' (k.toNat % H), (s1.sys.view i).key x = k) ∧
      ∀ t, s1.it i = some t → (∃ vis, At N H P (s1.sys.view i) f' K t vis) ∧ left N H t + 1 ≤ n := by
    intro s1 f' hg hpk
    refine ⟨?_, ?_, ?_⟩
    · intro x hx
      rcases hg.val x hx with ⟨g1, g2⟩ | g
      · rw [g2, hg.key x g1]; exact hP x g1
      · exact g
    · intro k hk
      obtain ⟨x, hx, e⟩ := hK k hk
      obtain ⟨r, hr⟩ := hg.ext _ (Nat.mod_lt k.toNat hH)
      exact ⟨x, by rw [hr]; exact List.mem_append_left _ hx, by rw [hg.key x (mem_nodes.mpr ⟨_, Nat.mod_lt _ hH, hx⟩)]; exact e⟩
    · intro t ht
      obtain ⟨⟨vis, g1⟩, g2⟩ := hit t (hpk i t ht)
      exact ⟨⟨vis, at_grow hg g1⟩, g2⟩
  cases x with
  | sys y =>
    obtain ⟨hq, hpk, _⟩ := sys_step hs
    have hno : ∀ l, Event.iterated i l ∈ es → False := by
      intro l hl
      rcases MapWeak.sim_step hw hq with ⟨j, r, rfl, rfl, hw'⟩ | ⟨b, t', rfl, ht, hw'⟩
      · cases hl
      · rw [← sys_calls ht] at hl
        exact absurd (List.mem_filter.mp hl).2 (by simp)
    refine ⟨?_, fun l hl => (hno l hl).elim⟩
    rcases MapWeak.sim_step hw hq with ⟨j, r, rfl, rfl, hw'⟩ | ⟨b, t', rfl, ht, hw'⟩
    · have hq' : s.sys.arrive N H j r = some s'.sys := by
        simp only [MapWeak.step] at hq
        obtain ⟨s1, h1, h2⟩ := map_some' hq
        cases h2
        exact h1
      have hpend : s'.sys.pend = s.sys.pend := by rw [← hw'.pend, hw.pend]
      rcases arrive_view hq' i with ⟨_, e1, e2⟩ | ⟨rfl, w, e0, e1, e2⟩
      · refine ⟨n, ⟨⟨t, a, hw', hsim⟩, by rw [hpend]; exact honly, f, ?_⟩, by simp [IAct.iterOf]⟩
        rw [e1, e2]
        exact ⟨hsh, hP, hK, hgr, fun t ht => hit t (hpk i t ht)⟩
      · have hr0 := hf r rfl
        subst hr0
        cases hi : s.sys.inc j with
        | nil => rw [hi] at e0; simp at e0
        | cons w' ws =>
          rw [hi] at e0 e2 hgr
          simp only [List.getElem?_cons_zero, Option.some.injEq] at e0
          subst e0
          obtain ⟨f', hg, hgr'⟩ := hgr
          rw [← e1] at hg hgr'
          obtain ⟨g1, g2, g3⟩ := grows hg hpk
          refine ⟨n, ⟨⟨t, a, hw', hsim⟩, by rw [hpend]; exact honly, f', hg.shape, g1, g2, ?_, g3⟩, by simp [IAct.iterOf]⟩
          rw [e2]
          exact hgr'
    · obtain ⟨a', h1, _⟩ := MapSys.sim_step hN hH hsim (safe_only hsim (by rw [hw.pend]; exact honly) b) ht
      have hgrow : ∀ g, Shape N H t.rw.mem g → ∃ g', Grow N H P t.rw.mem t'.rw.mem g g' := fun g hg => sys_grow hN hH hsim (by rw [hw.pend]; exact honly) ht hg
      have hon : ∀ j c, s'.sys.pend j = .called c → Only P c := by
        intro j c hj
        rw [← hw'.pend] at hj
        rcases pend_step ht hj with g | rfl
        · rw [hw.pend] at g; exact honly j c g
        · exact hc j c rfl
      have hv := hw.view i
      have hv' := hw'.view i
      rcases act_view hw hq i with ⟨e1, e2⟩ | ⟨w, e1, e2⟩ | ⟨w, e0, e1, e2⟩
      · refine ⟨n, ⟨⟨t', a', hw', h1⟩, hon, f, ?_⟩, by simp [IAct.iterOf]⟩
        rw [e1, e2]
        exact ⟨hsh, hP, hK, hgr, fun t ht => hit t (hpk i t ht)⟩
      · refine ⟨n, ⟨⟨t', a', hw', h1⟩, hon, f, ?_⟩, by simp [IAct.iterOf]⟩
        rw [e1, e2, MapWeak.storeAll_append] at hv'
        rw [e1, e2]
        refine ⟨hsh, hP, hK, growing_append _ hsh hgr ?_, fun t ht => hit t (hpk i t ht)⟩
        rw [hv', hv]
        exact hgrow
      · rw [e0] at hv
        rw [e2] at hv'
        simp only [storeAll, List.foldl_nil] at hv hv'
        rw [← hv, ← hv'] at hgrow
        obtain ⟨f', hg⟩ := hgrow f hsh
        obtain ⟨g1, g2, g3⟩ := grows hg hpk
        refine ⟨n, ⟨⟨t', a', hw', h1⟩, hon, f', hg.shape, g1, g2, ?_, g3⟩, by simp [IAct.iterOf]⟩
        rw [e2]
        trivial
  | begin j =>
    obtain ⟨rfl, hnone, _, rfl⟩ := begin_step hs
    have hj : i ≠ j := by rintro rfl; exact hb rfl
    refine ⟨⟨n, ⟨⟨t, a, hw, hsim⟩, honly, f, hsh, hP, hK, hgr, ?_⟩, by simp [IAct.iterOf]⟩, by intro r hr; cases hr⟩
    intro u hu
    simp only [ISys.setIt] at hu
    rw [if_neg hj] at hu
    exact hit u hu
  | iter j =>
    obtain ⟨u, hu, e, hcase⟩ := iter_step hs
    by_cases hj : j = i
    · subst hj
      obtain ⟨⟨vis, g1⟩, g2⟩ := hit u hu
      rcases hcase with ⟨hd, rfl, rfl⟩ | ⟨hd, rfl, rfl⟩
      · refine ⟨⟨n - 1, ⟨⟨t, a, hw, hsim⟩, honly, f, hsh, hP, hK, hgr, ?_⟩, by simp [IAct.iterOf]; omega⟩, ?_⟩
        · intro t' ht'
          simp [ISys.setIt] at ht'
        · intro l hl
          simp only [List.mem_singleton, Event.iterated.injEq, true_and] at hl
          subst hl
          exact at_end hH hsh g1 hd
      · obtain ⟨g3, g4⟩ := at_step hN hsh hP hK g1 hd
        refine ⟨⟨n - 1, ⟨⟨t, a, hw, hsim⟩, honly, f, hsh, hP, hK, hgr, ?_⟩, by simp [IAct.iterOf]; omega⟩, by intro l hl; cases hl⟩
        intro t' ht'
        simp only [ISys.setIt, if_true, Option.some.injEq] at ht'
        subst ht'
        exact ⟨g3, by omega⟩
    · have hj' : i ≠ j := fun e => hj e.symm
      have hset : ∀ (q : Option (It V)) u, (s.setIt j q).it i = some u → (∃ vis, At N H P (s.sys.view i) f K u vis) ∧ left N H u + 1 ≤ n := by
        intro q u hu
        simp only [ISys.setIt] at hu
        rw [if_neg hj'] at hu
        exact hit u hu
      rcases hcase with ⟨hd, rfl, rfl⟩ | ⟨hd, rfl, rfl⟩
      · refine ⟨⟨n, ⟨⟨t, a, hw, hsim⟩, honly, f, hsh, hP, hK, hgr, hset _⟩, by simp [IAct.iterOf, hj]⟩, ?_⟩
        intro l hl
        simp only [List.mem_singleton, Event.iterated.injEq] at hl
        exact absurd hl.1 hj'
      · exact ⟨⟨n, ⟨⟨t, a, hw, hsim⟩, honly, f, hsh, hP, hK, hgr, hset _⟩, by simp [IAct.iterOf, hj]⟩, by intro l hl; cases hl⟩

theorem ginv_exec (hN : N < NONE) (hH : 0 < H) {P : UInt64 → V → Prop} {K : List UInt64} {i : Nat} : ∀ (xs : List (IAct V)) {n : Nat} {s s' : ISys V} {es : List (Event V)}, GInv N H P K i n s →
    (∀ j c, .sys (.act (.call j c)) ∈ xs → Only P c) → .begin i ∉ xs → (∀ r, .sys (.arrive i r) ∈ xs → r = 0) → exec N H s xs = some (s', es) →
    (∃ n', GInv N H P K i n' s' ∧ n' + xs.countP (IAct.iterOf i) ≤ n) ∧
    ∀ l, .iterated i l ∈ es → (l.map (·.1)).Nodup ∧ (∀ k ∈ K, k ∈ l.map (·.1)) ∧ ∀ p ∈ l, P p.1 p.2 := by
  intro xs
  induction xs with
  | nil => intro n s s' es h _ _ _ he; cases he; exact ⟨⟨n, h, by simp⟩, by intro l hl; cases hl⟩
  | cons x xs ih =>
    intro n s s' es h hc hb hf he
    simp only [exec] at he
    cases hs : step N H s x with
    | none => rw [hs] at he; cases he
    | some q =>
      obtain ⟨s1, es1⟩ := q
      rw [hs] at he
      simp only at he
      cases hx : exec N H s1 xs with
      | none => rw [hx] at he; cases he
      | some q =>
        obtain ⟨s2, es2⟩ := q
        rw [hx] at he
        cases he
        obtain ⟨⟨n1, h1, hn1⟩, hl1⟩ := ginv_step hN hH h (fun j c e => hc j c (by rw [e]; simp)) (fun e => hb (by rw [e]; simp)) (fun r e => hf r (by rw [e]; simp)) hs
        obtain ⟨⟨n2, h2, hn2⟩, hl2⟩ := ih h1 (fun j c hm => hc j c (List.mem_cons_of_mem _ hm)) (fun hm => hb (List.mem_cons_of_mem _ hm)) (fun r hm => hf r (List.mem_cons_of_mem _ hm)) hx
        refine ⟨⟨n2, h2, ?_⟩, ?_⟩
        · rw [List.countP_cons]; omega
        · intro l hl
          rcases List.mem_append.mp hl with hl | hl
          · exact hl1 l hl
          · exact hl2 l hl

theorem calls_append (a b : List (Event V)) : calls (a ++ b) = calls a ++ calls b := List.filter_append ..

theorem sim_exec (hN : N < NONE) (hH : 0 < H) : ∀ (xs : List (IAct V)) {s s' : ISys V} {t : MapSys.Sys V} {a : MapSys.Spec.State V} {es : List (Event V)}, MapWeak.Sim N H s.sys t → MapSys.Sim N H t a →
    Safe N H s xs → exec N H s xs = some (s', es) → ∃ t' a', MapWeak.Sim N H s'.sys t' ∧ MapSys.Sim N H t' a' ∧ ∀ es', MapSys.Spec.Atomic N a' es' → MapSys.Spec.Atomic N a (calls es ++ es') := by
  intro xs
  induction xs with
  | nil => intro s s' t a es hw h _ he; cases he; exact ⟨t, a, hw, h, fun es' he => he⟩
  | cons x xs ih =>
    intro s s' t a es hw h hk he
    simp only [exec] at he
    cases hs : step N H s x with
    | none => rw [hs] at he; cases he
    | some q =>
      obtain ⟨s1, es1⟩ := q
      rw [hs] at he
      simp only at he
      cases hx : exec N H s1 xs with
      | none => rw [hx] at he; cases he
      | some q =>
        obtain ⟨s2, es2⟩ := q
        rw [hx] at he
        cases he
        have hone : ∃ t' a', MapWeak.Sim N H s1.sys t' ∧ MapSys.Sim N H t' a' ∧ ∀ es', MapSys.Spec.Atomic N a' es' → MapSys.Spec.Atomic N a (calls es1 ++ es') := by
          cases x with
          | sys y =>
            obtain ⟨hq, _, _⟩ := sys_step hs
            rcases MapWeak.sim_step hw hq with ⟨j, r, rfl, rfl, hw'⟩ | ⟨b, t', rfl, ht, hw'⟩
            · exact ⟨t, a, hw', h, fun es' he => he⟩
            · obtain ⟨a', h1, h2⟩ := MapSys.sim_step hN hH h (safe_kill hw hk.1) ht
              rw [sys_calls ht]
              exact ⟨t', a', hw', h1, h2⟩
          | begin j =>
            obtain ⟨rfl, _, _, rfl⟩ := begin_step hs
            exact ⟨t, a, hw, h, fun es' he => he⟩
          | iter j =>
            obtain ⟨u, _, _, ⟨_, rfl, rfl⟩ | ⟨_, rfl, rfl⟩⟩ := iter_step hs
            · exact ⟨t, a, hw, h, fun es' he => he⟩
            · exact ⟨t, a, hw, h, fun es' he => he⟩
        obtain ⟨t', a', h1, h2, h3⟩ := hone
        obtain ⟨t'', a'', h4, h5, h6⟩ := ih h1 h2 (hk.2 _ _ hs) hx
        refine ⟨t'', a'', h4, h5, ?_⟩
        intro es' he
        rw [calls_append, List.append_assoc]
        exact h3 _ (h6 _ he)

/-- **C185, without the lock.** Process `i` begins an iteration without any lock, at a moment when no store is on its way to it (as after any call of its own that took the lock), after any
history in which stores were delayed and reordered at will.  From then on nobody takes anything out of the map, and stores are delayed at will but arrive at process `i` in the order in
which they were made, as on x86 processors.  `l0` is a list that an iteration with the lock could have seen at this instant.  Then what C181 says holds: the loop never reads outside of the
segment; it takes at most `5 * capacity + buckets + 3` steps of its own; and when it reaches end() it has seen no key twice, it has seen every key of `l0`, and every pair it has seen is in
`l0` or is inserted by one of the calls made meanwhile.  Missing: stores that arrive in another order (`C185_refuted`, `C185_refuted_ub`), and others that erase (`C127_refuted`). -/
theorem C185_in_order_partial (hN : N < 2 ^ 31) (hH : 0 < H) (s0 s s' : ISys V) (m : Map V) (h : Start H s0 m) (xs ys : List (IAct V)) (hsafe : Safe N H s0 xs) (es0 es : List (Event V))
    (he0 : exec N H s0 xs = some (s, es0)) (i : Nat) (hinc : s.sys.inc i = []) (he : exec N H s (.begin i :: ys) = some (s', es)) (hnob : .begin i ∉ ys)
    (horder : ∀ r, .sys (.arrive i r) ∈ ys → r = 0)
    (hpend : ∀ j c, s.sys.pend j = .called c → Keeps c) (hcall : ∀ j c, .sys (.act (.call j c)) ∈ ys → Keeps c) :
    ∃ l0, MapSys.Spec.Atomic N MapSys.Spec.State.init (calls es0 ++ [.iterated i l0]) ∧
      (∀ t, s'.it i = some t → t.pc ≠ .ub) ∧ ys.countP (IAct.iterOf i) ≤ 5 * N + H + 3 ∧
      ∀ l, .iterated i l ∈ es → (l.map (·.1)).Nodup ∧ (∀ k v, (k, v) ∈ l0 → k ∈ l.map (·.1)) ∧
        ∀ k v, (k, v) ∈ l → (k, v) ∈ l0 ∨ ∃ j c, (s.sys.pend j = .called c ∨ .sys (.act (.call j c)) ∈ ys) ∧ Inserts c k v := by
  have hN' : N < NONE := by unfold NONE; omega
  have hstart : MapSys.Start H (s0.sys.strong m) := ⟨h.1.1, h.1.2.1, h.1.2.2.2⟩
  obtain ⟨t, a, hw, hsim, hat⟩ := sim_exec hN' hH xs (MapWeak.sim_start h.1) (MapSys.sim_start hstart) hsafe he0
  obtain ⟨f, fr, lk, b, hr, ⟨pre, hpre⟩, hmore⟩ := mid_rep (P := fun _ _ => True) hN' hH hsim (fun j c hj => keeps_only (hpend j c (by rw [← hw.pend]; exact hj)) (fun _ _ _ => trivial))
  have hview : s.sys.view i = t.rw.mem := by
    have := hw.view i
    rw [hinc] at this
    exact this
  refine ⟨a.map, hat _ (.iterated (List.Perm.refl _) ?_ .nil), ?_⟩
  · have := hr.keysL
    rw [hpre, List.nodup_append] at this
    exact this.2.1
  simp only [exec] at he
  cases hs : step N H s (.begin i) with
  | none => rw [hs] at he; cases he
  | some q =>
    obtain ⟨s1, es1⟩ := q
    rw [hs] at he
    simp only at he
    cases hx : exec N H s1 ys with
    | none => rw [hx] at he; cases he
    | some q =>
      obtain ⟨u, es2⟩ := q
      rw [hx] at he
      cases he
      obtain ⟨rfl, _, _, rfl⟩ := begin_step hs
      let P : UInt64 → V → Prop := fun k v => (k, v) ∈ a.map ∨ ∃ j c, (s.sys.pend j = .called c ∨ .sys (.act (.call j c)) ∈ ys) ∧ Inserts c k v
      have hinv : GInv N H P (a.map.map (·.1)) i (5 * N + H + 3) (s.setIt i (some ⟨.bScan 0, []⟩)) := by
        refine ⟨⟨t, a, hw, hsim⟩, ?_, f, ?_⟩
        · intro j c hj
          exact keeps_only (hpend j c hj) (fun k v hi => Or.inr ⟨j, c, Or.inl hj, hi⟩)
        show Shape N H (s.sys.view i) f ∧ (∀ x ∈ nodes H f, P ((s.sys.view i).key x) ((s.sys.view i).val x)) ∧ (∀ k ∈ _, ∃ x ∈ f (k.toNat % H), (s.sys.view i).key x = k) ∧
          Growing N H P (s.sys.view i) f (s.sys.inc i) ∧ _
        rw [hview, hinc]
        refine ⟨shape_rep hr, ?_, ?_, trivial, ?_⟩
        · intro x hxn
          have hm : (t.rw.mem.key x, t.rw.mem.val x) ∈ b := hr.abs.mem_iff.mpr (List.mem_map.mpr ⟨x, hxn, rfl⟩)
          rcases hmore _ _ hm with g | ⟨j, c, g1, g2⟩
          · exact Or.inl g
          · exact Or.inr ⟨j, c, Or.inl (by rw [← hw.pend]; exact g1), g2⟩
        · intro k hk
          exact (hr.has_iff hH k).mp (by unfold ShmMap.Spec.has; rw [hpre]; exact List.mem_append_right _ hk)
        · intro t' ht'
          simp only [ISys.setIt, if_true, Option.some.injEq] at ht'
          subst ht'
          refine ⟨⟨[], rfl, by simp, by simp, by simp, ?_, ?_⟩, ?_⟩
          · intro x hx; cases hx
          · intro k _ hlt; omega
          · simp only [left, List.length_nil]; omega
      obtain ⟨⟨n', h1, h2⟩, h3⟩ := ginv_exec hN' hH ys hinv
        (fun j c hm => keeps_only (hcall j c hm) (fun k v hi => Or.inr ⟨j, c, Or.inr hm, hi⟩)) hnob horder hx
      refine ⟨?_, by omega, ?_⟩
      · intro t' ht' hub
        obtain ⟨f', _, _, _, _, g⟩ := h1.mem
        obtain ⟨⟨vis, g1⟩, _⟩ := g t' ht'
        have := g1.place
        rw [hub] at this
        exact this
      · intro l hl
        obtain ⟨g1, g2, g3⟩ := h3 l hl
        exact ⟨g1, fun k v hkv => g2 k (List.mem_map.mpr ⟨_, hkv, rfl⟩), fun k v hkv => g3 (k, v) hkv⟩

/-! ## examples -/

def w0 : ISys Nat := ⟨MapWeak.s0, fun _ => none⟩

theorem w0_start : Start 2 w0 MapWeak.m0 := ⟨MapWeak.s0_start, fun _ => rfl⟩

/-- Process 0 inserts key 5 with value 50; its stores to the counter of the pool, the key, the value, the next index and the bucket are on their way to process 1. -/
def ins : List (IAct Nat) := MapWeak.xs0.map .sys

/-- **C185 is false for stores that arrive in another order: a pair that nobody has inserted.** All stores but that of the value have arrived when process 1 iterates: it sees the
pair (5, 0). -/
theorem C185_refuted : (exec 2 2 w0 (ins ++ [.sys (.arrive 1 4), .sys (.arrive 1 3), .sys (.arrive 1 1), .begin 1] ++ List.replicate 9 (.iter 1))).map (fun q => q.2.getLast?) =
    some (some (.iterated 1 [(5, 0)])) := by decide +kernel

/-- **C185 is false for stores that arrive in another order: the loop reads outside of the segment**, although nobody takes anything out of the map.  The bucket arrives first and leads to
node 0, whose next index is still the 0 of the new segment.  The store of the next index arrives between the two reads of operator++, and process 1 goes on with `objects[-1]`. -/
theorem C185_refuted_ub : (exec 2 2 w0 (ins ++ [.sys (.arrive 1 4), .begin 1] ++ List.replicate 6 (.iter 1) ++ [.sys (.arrive 1 3), .iter 1, .iter 1, .iter 1])).map (fun q => (q.1.it 1).map (·.pc)) =
    some (some .ub) := by decide +kernel

/-- A checker for `Polite`. -/
def politeB (N H : Nat) : ISys V → List (IAct V) → Bool
  | _, [] => true
  | s, x :: xs =>
    (match x with
      | .begin i => decide (s.sys.lk.mode i = some .reading) && (match s.sys.pend i with
        | .called (.readSection _) => true
        | _ => false)
      | .sys (.act (.unlock i)) => (s.it i).isNone
      | .sys (.act (.kill _)) => false
      | _ => true) && (match step N H s x with
      | some (s', _) => politeB N H s' xs
      | none => true)

theorem polite_of : ∀ {xs : List (IAct V)} {s : ISys V}, politeB N H s xs = true → Polite N H s xs := by
  intro xs
  induction xs with
  | nil => intro s _; trivial
  | cons x xs ih =>
    intro s h
    simp only [politeB, Bool.and_eq_true] at h
    refine ⟨?_, ?_, ?_⟩
    · cases x with
      | begin i =>
        have := h.1
        simp only [Bool.and_eq_true, decide_eq_true_eq] at this
        obtain ⟨h1, h2⟩ := this
        refine ⟨?_, ?_⟩
        · unfold RwLock.State.mode at h1
          rw [Option.map_eq_some_iff] at h1
          exact h1
        · split at h2
          · rename_i ks e; exact ⟨ks, e⟩
          · cases h2
      | iter i => trivial
      | sys y =>
        cases y with
        | arrive j r => trivial
        | act y =>
          cases y with
          | unlock i =>
            have := h.1
            simp only [Option.isNone_iff_eq_none] at this
            exact this
          | _ => trivial
    · intro i p e
      subst e
      exact absurd h.1 (by simp)
    · intro s' es hs
      have := h.2
      rw [hs] at this
      exact ih this

/-- The stores of process 0 arrive at process 1 in reverse order; then process 1 can take the lock, and iterates in a section. -/
def section1 : List (IAct Nat) := ins ++ [.sys (.act (.call 1 (.readSection []))), .sys (.arrive 1 4), .sys (.arrive 1 3), .sys (.arrive 1 2), .sys (.arrive 1 1), .sys (.arrive 1 0),
    .sys (.act (.lock 1)), .begin 1] ++ List.replicate 9 (.iter 1)

/-- The premises of `C185_locked_partial` are met by `section1`. -/
example : Polite 2 2 w0 section1 ∧ (exec 2 2 w0 section1).map (fun q => q.2.getLast?) = some (some (.iterated 1 [(5, 50)])) := ⟨polite_of (by decide +kernel), by decide +kernel⟩

/-- Process 1 begins its loop before process 0 inserts; the stores arrive in order, with steps of the loop between them. -/
def inOrder : List (IAct Nat) := .iter 1 :: ins ++ [.sys (.arrive 1 0), .sys (.arrive 1 0), .sys (.arrive 1 0), .sys (.arrive 1 0)] ++ [.sys (.arrive 1 0)] ++ List.replicate 8 (.iter 1)

/-- The premises of `C185_in_order_partial` are met: the loop sees the entry that is inserted while it is running. -/
example : ∃ s' es, exec 2 2 w0 (.begin 1 :: inOrder) = some (s', es) ∧ es.getLast? = some (.iterated 1 [(5, 50)]) ∧ w0.sys.inc 1 = [] ∧ Safe 2 2 w0 [] ∧ Start 2 w0 MapWeak.m0 ∧
    IAct.begin 1 ∉ inOrder ∧ (∀ r, IAct.sys (.arrive 1 r) ∈ inOrder → r = 0) ∧ (∀ j c, w0.sys.pend j = .called c → Keeps c) ∧
    ∀ j c, IAct.sys (.act (.call j c)) ∈ inOrder → Keeps c := by
  have hy : (exec 2 2 w0 (.begin 1 :: inOrder)).map (fun q => decide (q.2.getLast? = some (.iterated 1 [(5, 50)]))) = some true := by decide +kernel
  obtain ⟨⟨s', es⟩, e, hm⟩ := map_some' hy
  refine ⟨s', es, e, of_decide_eq_true hm.symm, rfl, trivial, w0_start, ?_, ?_, ?_, ?_⟩
  · simp [inOrder, ins]
  · intro r hr
    simp [inOrder, ins, MapWeak.xs0] at hr
    exact hr
  · intro j c hj; cases hj
  · intro j c hj
    simp [inOrder, ins, MapWeak.xs0] at hj
    obtain ⟨_, rfl⟩ := hj
    exact MapIter.keeps_insert _ _

end Verif.WeakIter
