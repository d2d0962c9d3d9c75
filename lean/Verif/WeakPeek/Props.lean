import Verif.WeakPeek.Spec
import Verif.MapWeak.Props
import Verif.MapPeek.Bounds
/-
  Property C184: `unprotected_read` without the lock on processors that delay and reorder stores.
-/
set_option linter.unusedVariables false
set_option linter.unusedSimpArgs false

namespace Verif.WeakPeek

open Verif.ShmPool Verif.ShmMap Verif.MapSys Verif.MapIter
open Verif.MapPeek (Keeps Inserts Place place_grow place_step keeps_only Good Ix Tidy Has WrOk tidy_apply has_step start_has Reading reading_step Zeroed)
open Verif.MapWeak (store storeAll wstep wstep_wbody)

variable {V : Type} {N H : Nat}

theorem calls_append (a b : List (WEvent V)) : calls (a ++ b) = calls a ++ calls b := by
  induction a with
  | nil => rfl
  | cons e es ih => cases e <;> simp [calls, ih]

theorem calls_sys (es : List (Event V)) : calls (es.map .sys) = es := by
  induction es with
  | nil => rfl
  | cons e es ih => simp [calls, ih]

theorem sys_step {s s' : WSys V} {a : MapWeak.Act V} {es : List (WEvent V)} (h : step N H s (.sys a) = some (s', es)) :
    ∃ sy es1, MapWeak.step N H s.sys a = some (sy, es1) ∧ s'.sys = sy ∧ es = es1.map .sys ∧ ∀ i pc, s'.peek i = some pc → s.peek i = some pc := by
  simp only [step] at h
  obtain ⟨⟨sy, es1⟩, hq, e⟩ := map_some' h
  simp only [Prod.mk.injEq] at e
  obtain ⟨rfl, rfl⟩ := e
  cases a with
  | arrive j k => exact ⟨sy, es1, hq, rfl, rfl, fun i pc hi => hi⟩
  | act a =>
    refine ⟨sy, es1, hq, by cases a <;> rfl, rfl, ?_⟩
    intro i pc hi
    cases a with
    | kill j =>
      simp only [afterSys, WSys.set] at hi
      by_cases hj : i = j
      · rw [if_pos hj] at hi; cases hi
      · rw [if_neg hj] at hi; exact hi
    | _ => exact hi

theorem peek_step {s s' : WSys V} {i : Nat} {k : UInt64} {es : List (WEvent V)} (h : step N H s (.peek i k) = some (s', es)) :
    es = [] ∧ s'.sys = s.sys ∧ s.peek i = none ∧ s' = s.set i (some (.rdHash k)) := by
  simp only [step] at h
  split at h
  · split at h
    · cases h; exact ⟨rfl, rfl, by assumption, rfl⟩
    · cases h
  · cases h

theorem look_step {s s' : WSys V} {i : Nat} {es : List (WEvent V)} (h : step N H s (.look i) = some (s', es)) :
    ∃ pc, s.peek i = some pc ∧ s'.sys = s.sys ∧
      ((∃ r, pc = .ret r ∧ s' = s.set i none ∧ es = [.looked i r]) ∨ ((∀ r, pc ≠ .ret r) ∧ s' = s.set i (some (pc.step N H (s.sys.view i)).2) ∧ es = [])) := by
  simp only [step] at h
  split at h
  · cases h
  · rename_i r hr
    cases h
    exact ⟨.ret r, hr, rfl, Or.inl ⟨r, rfl, rfl, rfl⟩⟩
  · rename_i pc hpc hr
    cases h
    exact ⟨pc, hr, rfl, Or.inr ⟨fun r e => hpc r e, rfl, rfl⟩⟩

/-! ## what a step does to the view of a process -/

/-- A step of process `j` leaves the view of process `i` alone and puts at most one store on its way to it; or it is a step of process `i` itself, and its view gets the store. -/
theorem act_view {s s' : MapWeak.Sys V} {a : MapSys.Act V} {es : List (Event V)} {t : MapSys.Sys V} (hsim : MapWeak.Sim N H s t) (h : MapWeak.step N H s (.act a) = some (s', es)) (i : Nat) :
    (s'.view i = s.view i ∧ s'.inc i = s.inc i) ∨ (∃ w, s'.view i = s.view i ∧ s'.inc i = s.inc i ++ [w]) ∨
      (∃ w, s.inc i = [] ∧ s'.view i = store N H (s.view i) w ∧ s'.inc i = []) := by
  have low : ∀ (l : RwLock.Label (Loc V)) (s1 : MapWeak.Sys V), s.low l = some s1 → s1.view = s.view ∧ s1.inc = s.inc := by
    intro l s1 e
    simp only [MapWeak.Sys.low, Option.map_eq_some_iff] at e
    obtain ⟨lk, _, rfl⟩ := e
    exact ⟨rfl, rfl⟩
  have same : s'.view = s.view ∧ s'.inc = s.inc → (s'.view i = s.view i ∧ s'.inc i = s.inc i) ∨ (∃ w, s'.view i = s.view i ∧ s'.inc i = s.inc i ++ [w]) ∨
      (∃ w, s.inc i = [] ∧ s'.view i = store N H (s.view i) w ∧ s'.inc i = []) := fun g => Or.inl ⟨by rw [g.1], by rw [g.2]⟩
  cases a with
  | connect j => obtain ⟨s1, h1, h2⟩ := map_some' h; cases h2; exact same (low _ _ h1)
  | call j c =>
    simp only [MapWeak.step] at h
    split at h
    · split at h
      · cases h; exact same ⟨rfl, rfl⟩
      · cases h
    · cases h
  | lock j =>
    simp only [MapWeak.step] at h
    split at h
    · obtain ⟨s1, h1, h2⟩ := map_some' h; cases h2; exact same (low _ _ h1)
    · cases h
  | body j =>
    obtain ⟨s1, h1, h2⟩ := map_some' h; cases h2
    simp only [MapWeak.Sys.body] at h1
    split at h1
    · rename_i p hp
      split at h1
      · rename_i hm
        cases h1
        cases hw : (wstep N H (s.view j) p.loc).1 with
        | none => exact Or.inl ⟨rfl, rfl⟩
        | some w =>
          simp only [MapWeak.Sys.send]
          by_cases hij : i = j
          · right; right
            have hinc := hsim.none j p hp (Or.inl hm)
            subst hij
            exact ⟨w, hinc, by simp, by simp [hinc]⟩
          · right; left
            exact ⟨w, by simp [hij], by simp [hij]⟩
      · split at h1
        · cases h1; exact same ⟨rfl, rfl⟩
        · cases h1
    · cases h1
  | unlock j =>
    simp only [MapWeak.step] at h
    split at h
    · split at h
      · obtain ⟨s1, h1, h2⟩ := map_some' h; cases h2; obtain ⟨g1, g2⟩ := low _ _ h1; exact same ⟨g1, g2⟩
      · cases h
    · cases h
  | ret j =>
    simp only [MapWeak.step] at h
    split at h
    · cases h; exact same ⟨rfl, rfl⟩
    · cases h
  | kill j => obtain ⟨s1, h1, h2⟩ := map_some' h; cases h2; obtain ⟨g1, g2⟩ := low _ _ h1; exact same ⟨g1, g2⟩
  | spawn j => obtain ⟨s1, h1, h2⟩ := map_some' h; cases h2; exact same (low _ _ h1)

theorem arrive_view {s s' : MapWeak.Sys V} {j n : Nat} (h : s.arrive N H j n = some s') (i : Nat) :
    (j ≠ i ∧ s'.view i = s.view i ∧ s'.inc i = s.inc i) ∨ (j = i ∧ ∃ w, (s.inc i)[n]? = some w ∧ s'.view i = store N H (s.view i) w ∧ s'.inc i = (s.inc i).eraseIdx n) := by
  simp only [MapWeak.Sys.arrive] at h
  split at h
  · rename_i w hw
    split at h
    · cases h
      by_cases hij : i = j
      · subst hij
        exact Or.inr ⟨rfl, w, hw, by simp, by simp⟩
      · exact Or.inl ⟨fun e => hij e.symm, by simp [hij], by simp [hij]⟩
    · cases h
  · cases h

/-! ## stores that arrive in order -/

/-- The stores on their way only make the map grow, one after the other. -/
def Growing (N H : Nat) (P : UInt64 → V → Prop) : Map V → (Nat → List Nat) → List (Wr V) → Prop
  | _, _, [] => True
  | m, f, w :: ws => ∃ f', Grow N H P m (store N H m w) f f' ∧ Growing N H P (store N H m w) f' ws

theorem growing_append {P : UInt64 → V → Prop} {w : Wr V} : ∀ (ws : List (Wr V)) {m : Map V} {f : Nat → List Nat}, Shape N H m f → Growing N H P m f ws →
    (∀ g, Shape N H (storeAll N H m ws) g → ∃ g', Grow N H P (storeAll N H m ws) (store N H (storeAll N H m ws) w) g g') → Growing N H P m f (ws ++ [w]) := by
  intro ws
  induction ws with
  | nil =>
    intro m f hs _ h
    obtain ⟨f', hf'⟩ := h f hs
    exact ⟨f', hf', trivial⟩
  | cons x ws ih =>
    intro m f hs hg h
    obtain ⟨f', h1, h2⟩ := hg
    exact ⟨f', h1, ih h1.shape h2 h⟩

/-- What holds during the call of process `i`. -/
structure PInv (N H : Nat) (P : UInt64 → V → Prop) (k : UInt64) (K : Prop) (i n : Nat) (s : WSys V) : Prop where
  sim : ∃ t a, MapWeak.Sim N H s.sys t ∧ MapSys.Sim N H t a
  only : ∀ j c, s.sys.pend j = .called c → Only P c
  mem : ∃ f, Shape N H (s.sys.view i) f ∧ (∀ x ∈ nodes H f, P ((s.sys.view i).key x) ((s.sys.view i).val x)) ∧ (K → ∃ x ∈ f (k.toNat % H), (s.sys.view i).key x = k) ∧
    Growing N H P (s.sys.view i) f (s.sys.inc i) ∧ ∀ pc, s.peek i = some pc → Place N H P (s.sys.view i) f k K n pc

theorem pinv_step (hN : N < NONE) (hH : 0 < H) {P : UInt64 → V → Prop} {k : UInt64} {K : Prop} {i n : Nat} {s s' : WSys V} {x : WAct V} {es : List (WEvent V)} (h : PInv N H P k K i n s)
    (hc : ∀ j c, x = .sys (.act (.call j c)) → Only P c) (hb : ∀ k', x ≠ .peek i k') (hf : ∀ r, x = .sys (.arrive i r) → r = 0) (hs : step N H s x = some (s', es)) :
    (∃ n', PInv N H P k K i n' s' ∧ n' + (if WAct.lookOf i x then 1 else 0) ≤ n) ∧ ∀ r, .looked i r ∈ es → Good P k K r := by
  obtain ⟨⟨t, a, hw, hsim⟩, honly, f, hsh, hP, hK, hgr, hit⟩ := h
  -- the view of process `i` grows
  have grows : ∀ {s1 : WSys V} {f' : Nat → List Nat}, Grow N H P (s.sys.view i) (s1.sys.view i) f f' → (∀ i pc, s1.peek i = some pc → s.peek i = some pc) →
      (∀ x ∈ nodes H f', P ((s1.sys.view i).key x) ((s1.sys.view i).val x)) ∧ (K → ∃ x ∈ f' (k.toNat % H), (s1.sys.view i).key x = k) ∧
      ∀ pc, s1.peek i = some pc → Place N H P (s1.sys.view i) f' k K n pc := by
    intro s1 f' hg hpk
    refine ⟨?_, ?_, ?_⟩
    · intro x hx
      rcases hg.val x hx with ⟨g1, g2⟩ | g
      · rw [g2, hg.key x g1]; exact hP x g1
      · exact g
    · intro hk
      obtain ⟨x, hx, e⟩ := hK hk
      obtain ⟨r, hr⟩ := hg.ext _ (Nat.mod_lt k.toNat hH)
      exact ⟨x, by rw [hr]; exact List.mem_append_left _ hx, by rw [hg.key x (mem_nodes.mpr ⟨_, Nat.mod_lt _ hH, hx⟩)]; exact e⟩
    · intro pc hpc
      exact place_grow hH hg (hit pc (hpk i pc hpc))
  cases x with
  | sys y =>
    obtain ⟨sy, es', hq, rfl, rfl, hpk⟩ := sys_step hs
    have hno : ∀ r, WEvent.looked i r ∈ es'.map WEvent.sys → Good P k K r := by
      intro r hr
      obtain ⟨e, _, g⟩ := List.mem_map.mp hr
      cases g
    refine ⟨?_, hno⟩
    rcases MapWeak.sim_step hw hq with ⟨j, r, rfl, rfl, hw'⟩ | ⟨b, t', rfl, ht, hw'⟩
    · have hq' : s.sys.arrive N H j r = some s'.sys := by
        simp only [MapWeak.step] at hq
        obtain ⟨s1, h1, h2⟩ := map_some' hq
        cases h2
        exact h1
      have hpend : s'.sys.pend = s.sys.pend := by rw [← hw'.pend, hw.pend]
      rcases arrive_view hq' i with ⟨_, e1, e2⟩ | ⟨rfl, w, e0, e1, e2⟩
      · refine ⟨n, ⟨⟨t, a, hw', hsim⟩, by rw [hpend]; exact honly, f, ?_⟩, by simp [WAct.lookOf]⟩
        rw [e1, e2]
        exact ⟨hsh, hP, hK, hgr, fun pc hpc => hit pc (hpk i pc hpc)⟩
      · have hr0 := hf r rfl
        subst hr0
        cases hi : s.sys.inc j with
        | nil => rw [hi] at e0; simp at e0
        | cons w' ws =>
          rw [hi] at e0 e2 hgr
          simp only [List.getElem?_cons_zero, Option.some.injEq] at e0
          subst e0
          obtain ⟨f', hg, hgr'⟩ := hgr
          rw [← e1] at hg hgr'
          obtain ⟨g1, g2, g3⟩ := grows hg hpk
          refine ⟨n, ⟨⟨t, a, hw', hsim⟩, by rw [hpend]; exact honly, f', hg.shape, g1, g2, ?_, g3⟩, by simp [WAct.lookOf]⟩
          rw [e2]
          exact hgr'
    · obtain ⟨a', h1, _⟩ := MapSys.sim_step hN hH hsim (safe_only hsim (by rw [hw.pend]; exact honly) b) ht
      have hgrow : ∀ g, Shape N H t.rw.mem g → ∃ g', Grow N H P t.rw.mem t'.rw.mem g g' := fun g hg => sys_grow hN hH hsim (by rw [hw.pend]; exact honly) ht hg
      have hon : ∀ j c, s'.sys.pend j = .called c → Only P c := by
        intro j c hj
        rw [← hw'.pend] at hj
        rcases pend_step ht hj with g | rfl
        · rw [hw.pend] at g; exact honly j c g
        · exact hc j c rfl
      have hv := hw.view i
      have hv' := hw'.view i
      rcases act_view hw hq i with ⟨e1, e2⟩ | ⟨w, e1, e2⟩ | ⟨w, e0, e1, e2⟩
      · refine ⟨n, ⟨⟨t', a', hw', h1⟩, hon, f, ?_⟩, by simp [WAct.lookOf]⟩
        rw [e1, e2]
        exact ⟨hsh, hP, hK, hgr, fun pc hpc => hit pc (hpk i pc hpc)⟩
      · refine ⟨n, ⟨⟨t', a', hw', h1⟩, hon, f, ?_⟩, by simp [WAct.lookOf]⟩
        rw [e1, e2, MapWeak.storeAll_append] at hv'
        rw [e1, e2]
        refine ⟨hsh, hP, hK, growing_append _ hsh hgr ?_, fun pc hpc => hit pc (hpk i pc hpc)⟩
        rw [hv', hv]
        exact hgrow
      · rw [e0] at hv
        rw [e2] at hv'
        simp only [storeAll, List.foldl_nil] at hv hv'
        rw [← hv, ← hv'] at hgrow
        obtain ⟨f', hg⟩ := hgrow f hsh
        obtain ⟨g1, g2, g3⟩ := grows hg hpk
        refine ⟨n, ⟨⟨t', a', hw', h1⟩, hon, f', hg.shape, g1, g2, ?_, g3⟩, by simp [WAct.lookOf]⟩
        rw [e2]
        trivial
  | peek j k' =>
    obtain ⟨rfl, e, hnone, rfl⟩ := peek_step hs
    have hj : i ≠ j := by rintro rfl; exact hb k' rfl
    refine ⟨⟨n, ⟨⟨t, a, hw, hsim⟩, honly, f, hsh, hP, hK, hgr, ?_⟩, by simp [WAct.lookOf]⟩, by intro r hr; cases hr⟩
    intro pc hpc
    simp only [WSys.set] at hpc
    rw [if_neg hj] at hpc
    exact hit pc hpc
  | look j =>
    obtain ⟨pc, hpc, e, hcase⟩ := look_step hs
    by_cases hj : j = i
    · subst hj
      have hpl := hit pc hpc
      rcases hcase with ⟨r, rfl, rfl, rfl⟩ | ⟨hr, rfl, rfl⟩
      · have hgood : Good P k K r ∧ 1 ≤ n := by
          cases r with
          | val v => cases v <;> exact hpl
          | _ => exact hpl.elim
        refine ⟨⟨n - 1, ⟨⟨t, a, hw, hsim⟩, honly, f, hsh, hP, hK, hgr, ?_⟩, by simp [WAct.lookOf]; omega⟩, ?_⟩
        · intro pc' hpc'
          simp [WSys.set] at hpc'
        · intro r' hr'
          simp only [List.mem_singleton, WEvent.looked.injEq, true_and] at hr'
          rw [hr']; exact hgood.1
      · obtain ⟨g1, g2⟩ := place_step hN hH hsh hP hK hpl hr
        refine ⟨⟨n - 1, ⟨⟨t, a, hw, hsim⟩, honly, f, hsh, hP, hK, hgr, ?_⟩, by simp [WAct.lookOf]; omega⟩, by intro r hr; cases hr⟩
        intro pc' hpc'
        simp only [WSys.set, if_true, Option.some.injEq] at hpc'
        subst hpc'
        exact g2
    · have hj' : i ≠ j := fun e => hj e.symm
      have hset : ∀ (q : Option (Pc V)) pc', (s.set j q).peek i = some pc' → Place N H P (s.sys.view i) f k K n pc' := by
        intro q pc' hpc'
        simp only [WSys.set] at hpc'
        rw [if_neg hj'] at hpc'
        exact hit pc' hpc'
      rcases hcase with ⟨r, rfl, rfl, rfl⟩ | ⟨hr, rfl, rfl⟩
      · refine ⟨⟨n, ⟨⟨t, a, hw, hsim⟩, honly, f, hsh, hP, hK, hgr, hset _⟩, by simp [WAct.lookOf, hj]⟩, ?_⟩
        intro r' hr'
        simp only [List.mem_singleton, WEvent.looked.injEq] at hr'
        exact absurd hr'.1 hj'
      · exact ⟨⟨n, ⟨⟨t, a, hw, hsim⟩, honly, f, hsh, hP, hK, hgr, hset _⟩, by simp [WAct.lookOf, hj]⟩, by intro r hr; cases hr⟩

theorem pinv_exec (hN : N < NONE) (hH : 0 < H) {P : UInt64 → V → Prop} {k : UInt64} {K : Prop} {i : Nat} : ∀ (xs : List (WAct V)) {n : Nat} {s s' : WSys V} {es : List (WEvent V)}, PInv N H P k K i n s →
    (∀ j c, .sys (.act (.call j c)) ∈ xs → Only P c) → (∀ k', .peek i k' ∉ xs) → (∀ r, .sys (.arrive i r) ∈ xs → r = 0) → exec N H s xs = some (s', es) →
    (∃ n', PInv N H P k K i n' s' ∧ n' + xs.countP (WAct.lookOf i) ≤ n) ∧ ∀ r, .looked i r ∈ es → Good P k K r := by
  intro xs
  induction xs with
  | nil => intro n s s' es h _ _ _ he; cases he; exact ⟨⟨n, h, by simp⟩, by intro l hl; cases hl⟩
  | cons x xs ih =>
    intro n s s' es h hc hb hf he
    simp only [exec] at he
    cases hs : step N H s x with
    | none => rw [hs] at he; cases he
    | some q =>
      obtain ⟨s1, es1⟩ := q
      rw [hs] at he
      simp only at he
      cases hx : exec N H s1 xs with
      | none => rw [hx] at he; cases he
      | some q =>
        obtain ⟨s2, es2⟩ := q
        rw [hx] at he
        cases he
        obtain ⟨⟨n1, h1, hn1⟩, hl1⟩ := pinv_step hN hH h (fun j c e => hc j c (by rw [e]; simp)) (fun k' e => hb k' (by rw [e]; simp)) (fun r e => hf r (by rw [e]; simp)) hs
        obtain ⟨⟨n2, h2, hn2⟩, hl2⟩ := ih h1 (fun j c hm => hc j c (List.mem_cons_of_mem _ hm)) (fun k' hm => hb k' (List.mem_cons_of_mem _ hm))
          (fun r hm => hf r (List.mem_cons_of_mem _ hm)) hx
        refine ⟨⟨n2, h2, ?_⟩, ?_⟩
        · rw [List.countP_cons]; omega
        · intro l hl
          rcases List.mem_append.mp hl with hl | hl
          · exact hl1 l hl
          · exact hl2 l hl

theorem sim_exec (hN : N < NONE) (hH : 0 < H) : ∀ (xs : List (WAct V)) {s s' : WSys V} {t : MapSys.Sys V} {a : MapSys.Spec.State V} {es : List (WEvent V)}, MapWeak.Sim N H s.sys t → MapSys.Sim N H t a →
    Safe N H s xs → exec N H s xs = some (s', es) → ∃ t' a', MapWeak.Sim N H s'.sys t' ∧ MapSys.Sim N H t' a' ∧ ∀ es', MapSys.Spec.Atomic N a' es' → MapSys.Spec.Atomic N a (calls es ++ es') := by
  intro xs
  induction xs with
  | nil => intro s s' t a es hw h _ he; cases he; exact ⟨t, a, hw, h, fun es' he => he⟩
  | cons x xs ih =>
    intro s s' t a es hw h hk he
    simp only [exec] at he
    cases hs : step N H s x with
    | none => rw [hs] at he; cases he
    | some q =>
      obtain ⟨s1, es1⟩ := q
      rw [hs] at he
      simp only at he
      cases hx : exec N H s1 xs with
      | none => rw [hx] at he; cases he
      | some q =>
        obtain ⟨s2, es2⟩ := q
        rw [hx] at he
        cases he
        have hone : ∃ t' a', MapWeak.Sim N H s1.sys t' ∧ MapSys.Sim N H t' a' ∧ ∀ es', MapSys.Spec.Atomic N a' es' → MapSys.Spec.Atomic N a (calls es1 ++ es') := by
          cases x with
          | sys y =>
            obtain ⟨sy, es', hq, rfl, rfl, _⟩ := sys_step hs
            rw [calls_sys]
            rcases MapWeak.sim_step hw hq with ⟨j, r, rfl, rfl, hw'⟩ | ⟨b, t', rfl, ht, hw'⟩
            · exact ⟨t, a, hw', h, fun es' he => he⟩
            · have hsafe : SafeKill H t b := by
                cases b with
                | kill i =>
                  intro p hp hm
                  rw [hw.rw] at hp
                  exact hk.1 i p rfl hp hm
                | _ => trivial
              obtain ⟨a', h1, h2⟩ := MapSys.sim_step hN hH h hsafe ht
              exact ⟨t', a', hw', h1, h2⟩
          | peek j k =>
            obtain ⟨rfl, e, _⟩ := peek_step hs
            rw [e]; exact ⟨t, a, hw, h, fun es' he => he⟩
          | look j =>
            obtain ⟨pc, _, e, ⟨r, _, _, rfl⟩ | ⟨_, _, rfl⟩⟩ := look_step hs
            · rw [e]; exact ⟨t, a, hw, h, fun es' he => he⟩
            · rw [e]; exact ⟨t, a, hw, h, fun es' he => he⟩
        obtain ⟨t', a', h1, h2, h3⟩ := hone
        obtain ⟨t'', a'', h4, h5, h6⟩ := ih h1 h2 (hk.2 _ _ hs) hx
        refine ⟨t'', a'', h4, h5, ?_⟩
        intro es' he
        rw [calls_append, List.append_assoc]
        exact h3 _ (h6 _ he)

/-- **C184.** Process `i` calls `unprotected_read(k, out)` without the lock, at a moment when no store is on its way to it (as after any call of its own that took the lock), after any history
in which stores were delayed and reordered at will.  From then on nobody takes anything out of the map, and stores are delayed at will but arrive at process `i` in the order in which
they were made, as on x86 processors.  Then what C182 says holds: `l0` is a list that an iteration with the lock could have seen at this instant; the call never reads outside of the
segment, returns after at most `2 * capacity + 3` steps of its own, returns false only if the key is not in `l0`, and delivers only a value that the key has in `l0` or that is inserted under it.
Missing: stores that arrive in another order (`C184_refuted`, `C184_refuted_loop`), and others that erase (`C182_refuted`). -/
theorem C184_in_order_partial (hN : N < 2 ^ 31) (hH : 0 < H) (s0 s s' : WSys V) (m : Map V) (h : Start H s0 m) (xs ys : List (WAct V)) (hsafe : Safe N H s0 xs) (es0 es : List (WEvent V))
    (he0 : exec N H s0 xs = some (s, es0)) (i : Nat) (k : UInt64) (hinc : s.sys.inc i = []) (he : exec N H s (.peek i k :: ys) = some (s', es)) (hnob : ∀ k', .peek i k' ∉ ys)
    (horder : ∀ r, .sys (.arrive i r) ∈ ys → r = 0)
    (hpend : ∀ j c, s.sys.pend j = .called c → Keeps c) (hcall : ∀ j c, .sys (.act (.call j c)) ∈ ys → Keeps c) :
    ∃ l0, MapSys.Spec.Atomic N MapSys.Spec.State.init (calls es0 ++ [.iterated i l0]) ∧
      s'.peek i ≠ some .ub ∧ ys.countP (WAct.lookOf i) ≤ 2 * N + 3 ∧
      ∀ r, .looked i r ∈ es → (r = .val none ∧ ∀ v, (k, v) ∉ l0) ∨
        ∃ v, r = .val (some v) ∧ ((k, v) ∈ l0 ∨ ∃ j c, (s.sys.pend j = .called c ∨ .sys (.act (.call j c)) ∈ ys) ∧ Inserts c k v) := by
  have hN' : N < NONE := by unfold NONE; omega
  have hstart : MapSys.Start H (s0.sys.strong m) := ⟨h.1.1, h.1.2.1, h.1.2.2.2⟩
  obtain ⟨t, a, hw, hsim, hat⟩ := sim_exec hN' hH xs (MapWeak.sim_start h.1) (MapSys.sim_start hstart) hsafe he0
  obtain ⟨f, fr, lk, b, hr, ⟨pre, hpre⟩, hmore⟩ := mid_rep (P := fun _ _ => True) hN' hH hsim (fun j c hj => keeps_only (hpend j c (by rw [← hw.pend]; exact hj)) (fun _ _ _ => trivial))
  have hview : s.sys.view i = t.rw.mem := by
    have := hw.view i
    rw [hinc] at this
    exact this
  refine ⟨a.map, hat _ (.iterated (List.Perm.refl _) ?_ .nil), ?_⟩
  · have := hr.keysL
    rw [hpre, List.nodup_append] at this
    exact this.2.1
  simp only [exec] at he
  cases hs : step N H s (.peek i k) with
  | none => rw [hs] at he; cases he
  | some q =>
    obtain ⟨s1, es1⟩ := q
    rw [hs] at he
    simp only at he
    cases hx : exec N H s1 ys with
    | none => rw [hx] at he; cases he
    | some q =>
      obtain ⟨u, es2⟩ := q
      rw [hx] at he
      cases he
      obtain ⟨rfl, hsys, _, rfl⟩ := peek_step hs
      let P : UInt64 → V → Prop := fun k v => (k, v) ∈ a.map ∨ ∃ j c, (s.sys.pend j = .called c ∨ .sys (.act (.call j c)) ∈ ys) ∧ Inserts c k v
      have hinv : PInv N H P k (k ∈ a.map.map (·.1)) i (2 * N + 3) (s.set i (some (.rdHash k))) := by
        refine ⟨⟨t, a, hw, hsim⟩, ?_, f, ?_⟩
        · intro j c hj
          exact keeps_only (hpend j c hj) (fun k v hi => Or.inr ⟨j, c, Or.inl hj, hi⟩)
        show Shape N H (s.sys.view i) f ∧ (∀ x ∈ nodes H f, P ((s.sys.view i).key x) ((s.sys.view i).val x)) ∧ (_ → ∃ x ∈ f (k.toNat % H), (s.sys.view i).key x = k) ∧
          Growing N H P (s.sys.view i) f (s.sys.inc i) ∧ _
        rw [hview, hinc]
        refine ⟨shape_rep hr, ?_, ?_, trivial, ?_⟩
        · intro x hxn
          have hm : (t.rw.mem.key x, t.rw.mem.val x) ∈ b := hr.abs.mem_iff.mpr (List.mem_map.mpr ⟨x, hxn, rfl⟩)
          rcases hmore _ _ hm with g | ⟨j, c, g1, g2⟩
          · exact Or.inl g
          · exact Or.inr ⟨j, c, Or.inl (by rw [← hw.pend]; exact g1), g2⟩
        · intro hk
          exact (hr.has_iff hH k).mp (by unfold ShmMap.Spec.has; rw [hpre]; exact List.mem_append_right _ hk)
        · intro pc hpc
          simp only [WSys.set, if_true, Option.some.injEq] at hpc
          subst hpc
          exact ⟨rfl, Nat.le_refl _⟩
      obtain ⟨⟨n', h1, h2⟩, h3⟩ := pinv_exec hN' hH ys hinv
        (fun j c hm => keeps_only (hcall j c hm) (fun k v hi => Or.inr ⟨j, c, Or.inr hm, hi⟩)) hnob horder hx
      refine ⟨?_, by omega, ?_⟩
      · intro hub
        obtain ⟨f', _, _, _, _, g⟩ := h1.mem
        exact (g _ hub).elim
      · intro r hl
        have g := h3 r hl
        cases r with
        | val v =>
          cases v with
          | none =>
            refine Or.inl ⟨rfl, fun v hv => ?_⟩
            exact g (List.mem_map.mpr ⟨_, hv, rfl⟩)
          | some v => exact Or.inr ⟨v, rfl, g⟩
        | _ => exact g.elim

end Verif.WeakPeek
