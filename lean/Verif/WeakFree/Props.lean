import Verif.WeakFree.Spec
import Verif.MapFree.Props
import Verif.WeakPeek.Bounds
/-
  Property C188: the map without any lock on processors that delay and reorder stores.
-/
set_option linter.unusedVariables false
set_option linter.unusedSimpArgs false

namespace Verif.WeakFree

open Verif.ShmPool Verif.ShmMap Verif.MapSys Verif.MapIter
open Verif.MapPeek (Place place_grow place_step Good Tidy Has WrOk tidy_apply has_step start_has Reading reading_step Zeroed)
open Verif.MapFree (FAct FEvent callsOf retsOf completed inProgress Own Within Quiet quiet_step own_step own_ret own_call own_split within_step within_start within_ret within_rep within_ub
  callsOf_append retsOf_append good_place inProgress_op reading_quiet)
open Verif.MapWeak (storeAll storeAll_append storeAll_early)
open Verif.WeakPeek (Growing growing_append tidy_store)

variable {V : Type} {N H : Nat}

theorem call_step {s s' : WSys V} {i : Nat} {u : Unprot V} {es : List (FEvent V)} (h : step N H s (.act (.call i u)) = some (s', es)) :
    s.pc i = none ∧ s' = s.set i (some (start u.op)) ∧ es = [.call i u] := by
  simp only [step] at h
  split at h
  · cases h; exact ⟨by assumption, rfl, rfl⟩
  · cases h

theorem go_step {s s' : WSys V} {i : Nat} {es : List (FEvent V)} (h : step N H s (.act (.go i)) = some (s', es)) :
    ∃ pc, s.pc i = some pc ∧ ((∃ r, pc = .ret r ∧ s' = s.set i none ∧ es = [.ret i r]) ∨ ((∀ r, pc ≠ .ret r) ∧ s' = s.store N H i (pc.step N H (s.view i)) ∧ es = [])) := by
  simp only [step] at h
  split at h
  · cases h
  · rename_i r hr
    cases h
    exact ⟨.ret r, hr, Or.inl ⟨r, rfl, rfl, rfl⟩⟩
  · rename_i pc hpc hr
    cases h
    exact ⟨pc, hr, Or.inr ⟨fun r e => hpc r e, rfl, rfl⟩⟩

theorem arrive_step {s s' : WSys V} {j r : Nat} {es : List (FEvent V)} (h : step N H s (.arrive j r) = some (s', es)) :
    es = [] ∧ s'.pc = s.pc ∧ ∃ w, (s.inc j)[r]? = some w ∧ (∀ u ∈ (s.inc j).take r, MapWeak.cell u ≠ MapWeak.cell w) ∧ s'.view j = MapWeak.store N H (s.view j) w ∧
      s'.inc j = (s.inc j).eraseIdx r ∧ ∀ i, i ≠ j → s'.view i = s.view i ∧ s'.inc i = s.inc i := by
  simp only [step] at h
  obtain ⟨s1, h1, h2⟩ := map_some' h
  cases h2
  simp only [WSys.arrive] at h1
  split at h1
  · rename_i w hw
    split at h1
    · rename_i hc
      cases h1
      exact ⟨rfl, rfl, w, hw, hc, by simp, by simp, fun i hi => ⟨by simp [hi], by simp [hi]⟩⟩
    · cases h1
  · cases h1

theorem set_self (s : WSys V) (i : Nat) (t : Option (Pc V)) : (s.set i t).pc i = t := by simp [WSys.set]

theorem set_other (s : WSys V) {i j : Nat} (t : Option (Pc V)) (h : j ≠ i) : (s.set i t).pc j = s.pc j := by simp [WSys.set, h]

theorem store_none {s : WSys V} {i : Nat} {q : Option (Wr V) × Pc V} (h : q.1 = none) : s.store N H i q = s.set i (some q.2) := by
  obtain ⟨a, b⟩ := q
  cases h
  rfl

theorem store_ok {s : WSys V} {i : Nat} {q : Option (Wr V) × Pc V} {w : Wr V} {m : Map V} (h : q.1 = some w) (ha : w.apply N H (s.view i) = .ok m) :
    (s.store N H i q).pc i = some q.2 ∧ (∀ j, j ≠ i → (s.store N H i q).pc j = s.pc j ∧ (s.store N H i q).view j = s.view j ∧ (s.store N H i q).inc j = s.inc j ++ [w]) ∧
      (s.store N H i q).view i = m ∧ (s.store N H i q).inc i = s.inc i := by
  obtain ⟨a, b⟩ := q
  cases h
  simp only [WSys.store, ha, WSys.set]
  exact ⟨by simp, fun j hj => by simp [hj], by simp, by simp⟩

theorem exec_cons {s s' : WSys V} {x : WAct V} {xs : List (WAct V)} {es : List (FEvent V)} (h : exec N H s (x :: xs) = some (s', es)) :
    ∃ s1 es1 es2, step N H s x = some (s1, es1) ∧ exec N H s1 xs = some (s', es2) ∧ es = es1 ++ es2 := by
  simp only [exec] at h
  cases hs : step N H s x with
  | none => rw [hs] at h; cases h
  | some q =>
    obtain ⟨s1, es1⟩ := q
    rw [hs] at h
    simp only at h
    cases hx : exec N H s1 xs with
    | none => rw [hx] at h; cases h
    | some q =>
      obtain ⟨s2, es2⟩ := q
      rw [hx] at h
      cases h
      exact ⟨s1, es1, es2, rfl, hx, rfl⟩

theorem store_apply {m m' : Map V} {w : Wr V} (h : w.apply N H m = .ok m') : MapWeak.store N H m w = m' := by
  unfold MapWeak.store; rw [h]

/-! ## Any order -/

/-- What always holds when only process `w` stores. -/
structure FInv (N H w : Nat) (s : WSys V) (ops : List (Op V)) (rets : List (Ret V)) : Prop where
  quiet : ∀ j pc, j ≠ w → s.pc j = some pc → Quiet pc
  own : Own N H (s.view w) (s.pc w) ops rets
  inc : s.inc w = []
  flow : ∀ j, storeAll N H (s.view j) (s.inc j) = s.view w

theorem quiet_set {w : Nat} {s : WSys V} (h : ∀ j pc, j ≠ w → s.pc j = some pc → Quiet pc) (i : Nat) {t : Option (Pc V)} (ht : ∀ pc, i ≠ w → t = some pc → Quiet pc) :
    ∀ j pc, j ≠ w → (s.set i t).pc j = some pc → Quiet pc := by
  intro j pc hj hp
  by_cases e : j = i
  · subst e; rw [set_self] at hp; exact ht pc hj hp
  · rw [set_other _ _ e] at hp; exact h j pc hj hp

theorem finv_step (hN : N < NONE) (hH : 0 < H) {w : Nat} {s s' : WSys V} {x : WAct V} {es : List (FEvent V)} {ops : List (Op V)} {rets : List (Ret V)} (h : FInv N H w s ops rets)
    (hc : ∀ j u, x = .act (.call j u) → j ≠ w → ∃ k, u = .read k) (hs : step N H s x = some (s', es)) : FInv N H w s' (ops ++ callsOf w es) (rets ++ retsOf w es) := by
  cases x with
  | arrive j r =>
    obtain ⟨rfl, hpc, a, h1, h2, h3, h4, h5⟩ := arrive_step hs
    have hjw : j ≠ w := by rintro rfl; rw [h.inc] at h1; simp at h1
    have hw5 := h5 w (fun e => hjw e.symm)
    simp only [callsOf, retsOf, List.append_nil]
    refine ⟨by rw [hpc]; exact h.quiet, by rw [hw5.1, hpc]; exact h.own, by rw [hw5.2]; exact h.inc, ?_⟩
    intro i
    rw [hw5.1]
    by_cases e : i = j
    · subst e
      rw [h3, h4, ← h.flow i]
      exact storeAll_early _ _ _ _ h1 h2
    · rw [(h5 i e).1, (h5 i e).2]; exact h.flow i
  | act a =>
    cases a with
    | call i u =>
      obtain ⟨hn, rfl, rfl⟩ := call_step hs
      refine ⟨quiet_set h.quiet i ?_, ?_, h.inc, h.flow⟩
      · intro pc hi e
        obtain ⟨k, rfl⟩ := hc i u rfl hi
        cases e; trivial
      · by_cases hi : i = w
        · subst hi
          have ho := h.own
          rw [hn] at ho
          rw [set_self]
          simp only [callsOf, retsOf, if_true, List.append_nil]
          exact own_call hN hH ho _
        · rw [set_other _ _ (fun e => hi e.symm)]
          simp only [callsOf, retsOf, if_neg hi, List.append_nil]
          exact h.own
    | go i =>
      obtain ⟨pc, hpc, ⟨r, rfl, rfl, rfl⟩ | ⟨hr, rfl, rfl⟩⟩ := go_step hs
      · refine ⟨quiet_set h.quiet i (fun pc _ e => by cases e), ?_, h.inc, h.flow⟩
        by_cases hi : i = w
        · subst hi
          have ho := h.own
          rw [hpc] at ho
          rw [set_self]
          simp only [callsOf, retsOf, if_true, List.append_nil]
          exact own_ret ho
        · rw [set_other _ _ (fun e => hi e.symm)]
          simp only [callsOf, retsOf, if_neg hi, List.append_nil]
          exact h.own
      · simp only [callsOf, retsOf, List.append_nil]
        by_cases hi : i = w
        · subst hi
          have ho := h.own
          rw [hpc] at ho
          rcases own_step hN hH ho hr with ⟨h1, h2⟩ | ⟨a, m', h1, h2, h3⟩
          · rw [store_none h1]
            exact ⟨quiet_set h.quiet i (fun pc hi _ => absurd rfl hi), by rw [set_self]; exact h2, h.inc, h.flow⟩
          · obtain ⟨g1, g2, g3, g4⟩ := store_ok h1 h2
            refine ⟨fun j pc hj hp => h.quiet j pc hj (by rw [(g2 j hj).1] at hp; exact hp), by rw [g1, g3]; exact h3, by rw [g4]; exact h.inc, ?_⟩
            intro j
            by_cases e : j = i
            · subst e; rw [g4, h.inc]; rfl
            · rw [(g2 j e).2.1, (g2 j e).2.2, storeAll_append, h.flow j, g3]
              exact store_apply h2
        · obtain ⟨g1, g2⟩ := quiet_step (N := N) (H := H) (m := s.view i) (h.quiet i pc hi hpc)
          rw [store_none g1]
          exact ⟨quiet_set h.quiet i (fun pc _ e => by cases e; exact g2), by rw [set_other _ _ (fun e => hi e.symm)]; exact h.own, h.inc, h.flow⟩

theorem finv_exec (hN : N < NONE) (hH : 0 < H) {w : Nat} : ∀ (xs : List (WAct V)) {s s' : WSys V} {es : List (FEvent V)} {ops : List (Op V)} {rets : List (Ret V)}, FInv N H w s ops rets →
    OneWriter w xs → exec N H s xs = some (s', es) → FInv N H w s' (ops ++ callsOf w es) (rets ++ retsOf w es) := by
  intro xs
  induction xs with
  | nil => intro s s' es ops rets h _ he; cases he; simpa [callsOf, retsOf] using h
  | cons x xs ih =>
    intro s s' es ops rets h hc he
    obtain ⟨s1, es1, es2, hs, hx, rfl⟩ := exec_cons he
    have h1 := finv_step hN hH h (fun j u e hj => hc j u (by rw [e]; simp) hj) hs
    have h2 := ih h1 (fun j u hm hj => hc j u (List.mem_cons_of_mem _ hm) hj) hx
    rw [callsOf_append, retsOf_append, ← List.append_assoc, ← List.append_assoc]
    exact h2

theorem finv_start {w : Nat} {s : WSys V} {m : Map V} (h : Start H s m) : FInv N H w s [] [] :=
  ⟨fun j pc _ hp => (by rw [h.2.2.2 j] at hp; cases hp),
    by rw [h.2.2.2 w, h.2.1 w]; exact @Own.idle V N H m [] (fun _ => []) [] (rep_init _ h.1.1 h.1.2.1 h.1.2.2), h.2.2.1 w,
    fun j => by rw [h.2.2.1 j, h.2.1 j, h.2.1 w]; rfl⟩

/-- **C188.** One process inserts, erases and reads without any lock, all others only read without the lock, in every interleaving and whatever is delayed or reordered.  Then the calls of
this process return exactly the results of a finite map of the given capacity, and it never accesses memory outside of the segment.
Missing: a second process that inserts or erases (`C186_refuted`, `C186_refuted_value`). -/
theorem C188_writer_partial (hN : N < 2 ^ 31) (hH : 0 < H) (w : Nat) (s s' : WSys V) (m : Map V) (h : Start H s m) (xs : List (WAct V)) (hw : OneWriter w xs) (es : List (FEvent V))
    (he : exec N H s xs = some (s', es)) : retsOf w es = (ShmMap.Spec.run N [] (completed w es)).2 ∧ s'.pc w ≠ some .ub := by
  have hN' : N < NONE := by unfold NONE; omega
  have hf := (finv_exec hN' hH xs (finv_start h) hw he).own
  simp only [List.nil_append] at hf
  obtain ⟨h1, h2⟩ := own_split hf
  refine ⟨h1, ?_⟩
  intro e
  rcases h2 with ⟨g, _⟩ | ⟨pc, o, g, _, hwi⟩
  · rw [g] at e; cases e
  · rw [e] at g; cases g; exact within_ub hwi

/-- Every index that anybody sees, will see or is about to store is one of a node, or none. -/
structure SInv (N H w : Nat) (s : WSys V) : Prop where
  tidy : ∀ j, Tidy N H (s.view j)
  inc : ∀ j, ∀ a ∈ s.inc j, WrOk N a
  has : ∀ pc, s.pc w = some pc → Has N pc
  others : ∀ j pc, j ≠ w → s.pc j = some pc → Reading N pc

theorem sinv_set {w : Nat} {s : WSys V} (h : SInv N H w s) (i : Nat) {t : Option (Pc V)} (ht : ∀ pc, t = some pc → (i = w → Has N pc) ∧ (i ≠ w → Reading N pc)) : SInv N H w (s.set i t) := by
  refine ⟨h.tidy, h.inc, ?_, ?_⟩
  · intro pc hp
    by_cases e : w = i
    · subst e; rw [set_self] at hp; exact (ht pc hp).1 rfl
    · rw [set_other _ _ e] at hp; exact h.has pc hp
  · intro j pc hj hp
    by_cases e : j = i
    · subst e; rw [set_self] at hp; exact (ht pc hp).2 hj
    · rw [set_other _ _ e] at hp; exact h.others j pc hj hp

theorem sinv_step (hH : 0 < H) {w : Nat} {s s' : WSys V} {x : WAct V} {es : List (FEvent V)} (h : SInv N H w s) (hc : ∀ j u, x = .act (.call j u) → j ≠ w → ∃ k, u = .read k)
    (hs : step N H s x = some (s', es)) : SInv N H w s' ∧ ∀ j r, j ≠ w → .ret j r ∈ es → ∃ v, r = .val v := by
  cases x with
  | arrive j r =>
    obtain ⟨rfl, hpc, a, h1, _, h3, h4, h5⟩ := arrive_step hs
    refine ⟨⟨?_, ?_, by rw [hpc]; exact h.has, by rw [hpc]; exact h.others⟩, by intro j r _ hr; cases hr⟩
    · intro i
      by_cases e : i = j
      · subst e; rw [h3]; exact tidy_store (h.tidy i) (h.inc i a (List.mem_of_getElem? h1))
      · rw [(h5 i e).1]; exact h.tidy i
    · intro i b hb
      by_cases e : i = j
      · subst e; rw [h4] at hb; exact h.inc i b (List.mem_of_mem_eraseIdx hb)
      · rw [(h5 i e).2] at hb; exact h.inc i b hb
  | act a =>
    cases a with
    | call j u =>
      obtain ⟨hn, rfl, rfl⟩ := call_step hs
      refine ⟨sinv_set h j ?_, by intro j r _ hr; simp at hr⟩
      intro pc e
      cases e
      refine ⟨fun _ => start_has _, fun hj => ?_⟩
      obtain ⟨k, rfl⟩ := hc j u rfl hj
      trivial
    | go j =>
      obtain ⟨pc, hpc, ⟨r, rfl, rfl, rfl⟩ | ⟨hr, rfl, rfl⟩⟩ := go_step hs
      · refine ⟨sinv_set h j (fun pc e => (by cases e)), ?_⟩
        intro j' r' hj' hm
        simp only [List.mem_singleton, FEvent.ret.injEq] at hm
        obtain ⟨rfl, rfl⟩ := hm
        have := h.others j' _ hj' hpc
        cases r' with
        | val v => exact ⟨v, rfl⟩
        | _ => exact this.elim
      · refine ⟨?_, by intro j r _ hr; cases hr⟩
        by_cases e : j = w
        · subst e
          obtain ⟨g1, g2⟩ := has_step (h.tidy j) (h.has pc hpc)
          cases hst : (pc.step N H (s.view j)).1 with
          | none =>
            rw [store_none hst]
            exact sinv_set h j (fun pc' e' => (by cases e'; exact ⟨fun _ => g2, fun hj => absurd rfl hj⟩))
          | some a =>
            cases ha : a.apply N H (s.view j) with
            | ok m =>
              obtain ⟨k1, k2, k3, k4⟩ := store_ok hst ha
              refine ⟨?_, ?_, ?_, ?_⟩
              · intro i
                by_cases e : i = j
                · subst e; rw [k3]; exact tidy_apply (h.tidy i) (g1 a hst) ha
                · rw [(k2 i e).2.1]; exact h.tidy i
              · intro i b hb
                by_cases e : i = j
                · subst e; rw [k4] at hb; exact h.inc i b hb
                · rw [(k2 i e).2.2] at hb
                  rcases List.mem_append.mp hb with hb | hb
                  · exact h.inc i b hb
                  · rw [List.mem_singleton.mp hb]; exact g1 a hst
              · intro pc' hp; rw [k1] at hp; cases hp; exact g2
              · intro i pc' hi hp; rw [(k2 i hi).1] at hp; exact h.others i pc' hi hp
            | ub =>
              have : s.store N H j (pc.step N H (s.view j)) = s.set j (some .ub) := by
                generalize pc.step N H (s.view j) = q at hst
                obtain ⟨a', b⟩ := q
                cases hst
                simp only [WSys.store, ha]
              rw [this]
              exact sinv_set h j (fun pc' e' => (by cases e'; exact ⟨fun _ => trivial, fun hj => absurd rfl hj⟩))
        · have hrd := h.others j pc e hpc
          rw [store_none (quiet_step (reading_quiet hrd)).1]
          exact sinv_set h j (fun pc' e' => (by cases e'; exact ⟨fun hj => absurd hj e, fun _ => reading_step hH (h.tidy j) hrd⟩))

/-- **C188, no access outside of the segment.** One process inserts, erases and reads without any lock, all others only read without the lock, stores are delayed and reordered at will; the
segment was zeroed by the system before it was initialised.  Then no call ever accesses memory outside of the segment, and a read that returns says true or false. -/
theorem C188_bounds_partial (hN : 0 < N) (hN2 : N < 2 ^ 31) (hH : 0 < H) (w : Nat) (s s' : WSys V) (m : Map V) (h : Start H s m) (hz : Zeroed m) (xs : List (WAct V)) (hw : OneWriter w xs)
    (es : List (FEvent V)) (he : exec N H s xs = some (s', es)) : (∀ i, s'.pc i ≠ some .ub) ∧ ∀ j r, j ≠ w → .ret j r ∈ es → ∃ v, r = .val v := by
  have gen : ∀ (xs : List (WAct V)) (s s' : WSys V) (es : List (FEvent V)), OneWriter w xs → SInv N H w s → exec N H s xs = some (s', es) →
      SInv N H w s' ∧ ∀ j r, j ≠ w → .ret j r ∈ es → ∃ v, r = .val v := by
    intro xs
    induction xs with
    | nil => intro s s' es _ h he; cases he; exact ⟨h, by intro j r _ hr; cases hr⟩
    | cons x xs ih =>
      intro s s' es hw h he
      obtain ⟨s1, es1, es2, hs, hx, rfl⟩ := exec_cons he
      obtain ⟨h1, h2⟩ := sinv_step hH h (fun j u e hj => hw j u (by rw [e]; simp) hj) hs
      obtain ⟨h3, h4⟩ := ih s1 s' es2 (fun j u hm hj => hw j u (List.mem_cons_of_mem _ hm) hj) h1 hx
      refine ⟨h3, ?_⟩
      intro j r hj hr
      rcases List.mem_append.mp hr with g | g
      · exact h2 j r hj g
      · exact h4 j r hj g
  have h0 : SInv N H w s := by
    refine ⟨fun j => ?_, fun j a ha => (by rw [h.2.2.1 j] at ha; cases ha), ?_, ?_⟩
    · rw [h.2.1 j]
      exact ⟨fun b hb => Or.inl (h.1.2.2 b hb), fun e => Or.inr (by rw [hz.1]; exact hN), fun t => Or.inr (by rw [hz.2]; exact hN)⟩
    · intro pc hp; rw [h.2.2.2 w] at hp; cases hp
    · intro j pc _ hp; rw [h.2.2.2 j] at hp; cases hp
  obtain ⟨h1, h2⟩ := gen xs s s' es hw h0 he
  refine ⟨?_, h2⟩
  intro i hi
  by_cases e : i = w
  · subst e
    exact (C188_writer_partial hN2 hH i s s' m h xs hw es he).2 hi
  · exact (h1.others i _ e hi).elim

/-! ## Stores that arrive in order -/

/-- What holds while process `w` takes nothing out and its stores arrive at process `i` in order. -/
structure RInv (N H : Nat) (P : UInt64 → V → Prop) (k : UInt64) (K : Prop) (w i : Nat) (f : Nat → List Nat) (s : WSys V) : Prop where
  quiet : ∀ j pc, j ≠ w → s.pc j = some pc → Quiet pc
  own : (s.pc w = none ∧ ∃ f fr l, Rep N H (s.view w) f fr 0 l) ∨ ∃ pc l o, s.pc w = some pc ∧ Within N H (s.view w) pc l o ∧ Adds P o
  inc : s.inc w = []
  flow : storeAll N H (s.view i) (s.inc i) = s.view w
  shape : Shape N H (s.view i) f
  vals : ∀ x ∈ nodes H f, P ((s.view i).key x) ((s.view i).val x)
  has : K → ∃ x ∈ f (k.toNat % H), (s.view i).key x = k
  grow : Growing N H P (s.view i) f (s.inc i)

theorem rinv_step (hN : N < NONE) (hH : 0 < H) {P : UInt64 → V → Prop} {k : UInt64} {K : Prop} {w i : Nat} {f : Nat → List Nat} {s s' : WSys V} {x : WAct V} {es : List (FEvent V)} (hiw : i ≠ w)
    (h : RInv N H P k K w i f s) (hc : ∀ j u, x = .act (.call j u) → j ≠ w → ∃ k, u = .read k) (ha : ∀ u, x = .act (.call w u) → Adds P u.op) (ho : ∀ r, x = .arrive i r → r = 0)
    (hs : step N H s x = some (s', es)) :
    ∃ f', RInv N H P k K w i f' s' ∧ ∀ n pc, Place N H P (s.view i) f k K n pc → Place N H P (s'.view i) f' k K n pc := by
  have hwi : w ≠ i := fun e => hiw e.symm
  cases x with
  | arrive j r =>
    obtain ⟨rfl, hpc, a, h1, h2, h3, h4, h5⟩ := arrive_step hs
    have hjw : j ≠ w := by rintro rfl; rw [h.inc] at h1; simp at h1
    have hw5 := h5 w (fun e => hjw e.symm)
    by_cases hj : i = j
    · subst hj
      have hr0 := ho r rfl
      subst hr0
      have hfl := h.flow
      have hgr := h.grow
      cases hi : s.inc i with
      | nil => rw [hi] at h1; simp at h1
      | cons a' ws =>
        rw [hi] at h1 h4 hgr hfl
        simp only [List.getElem?_cons_zero, Option.some.injEq] at h1
        subst h1
        obtain ⟨f', hg, hgr'⟩ := hgr
        rw [← h3] at hg hgr'
        refine ⟨f', ⟨by rw [hpc]; exact h.quiet, by rw [hpc, hw5.1]; exact h.own, by rw [hw5.2]; exact h.inc, ?_, hg.shape, ?_, ?_, ?_⟩, fun n pc hp => place_grow hH hg hp⟩
        · rw [hw5.1, h4, h3]; exact hfl
        · intro x hx
          rcases hg.val x hx with ⟨g1, g2⟩ | g
          · rw [g2, hg.key x g1]; exact h.vals x g1
          · exact g
        · intro hk
          obtain ⟨x, hx, e⟩ := h.has hk
          obtain ⟨r, hr⟩ := hg.ext _ (Nat.mod_lt k.toNat hH)
          exact ⟨x, by rw [hr]; exact List.mem_append_left _ hx, by rw [hg.key x (mem_nodes.mpr ⟨_, Nat.mod_lt _ hH, hx⟩)]; exact e⟩
        · rw [h4]; exact hgr'
    · have hi5 := h5 i hj
      refine ⟨f, ⟨by rw [hpc]; exact h.quiet, by rw [hpc, hw5.1]; exact h.own, by rw [hw5.2]; exact h.inc, by rw [hi5.1, hi5.2, hw5.1]; exact h.flow, by rw [hi5.1]; exact h.shape,
        by rw [hi5.1]; exact h.vals, by rw [hi5.1]; exact h.has, by rw [hi5.1, hi5.2]; exact h.grow⟩, fun n pc hp => by rw [hi5.1]; exact hp⟩
  | act a =>
    cases a with
    | call j u =>
      obtain ⟨hn, rfl, rfl⟩ := call_step hs
      refine ⟨f, ⟨quiet_set h.quiet j ?_, ?_, h.inc, h.flow, h.shape, h.vals, h.has, h.grow⟩, fun n pc hp => hp⟩
      · intro pc hi e
        obtain ⟨k, rfl⟩ := hc j u rfl hi
        cases e; trivial
      · by_cases e : w = j
        · subst e
          rcases h.own with ⟨_, f', fr, l, hr⟩ | ⟨pc, l, o, hp, _⟩
          · exact Or.inr ⟨_, l, u.op, set_self _ _ _, within_start hN hH hr _, ha u rfl⟩
          · rw [hn] at hp; cases hp
        · rw [set_other _ _ e]; exact h.own
    | go j =>
      obtain ⟨pc, hpc, ⟨r, rfl, rfl, rfl⟩ | ⟨hr, rfl, rfl⟩⟩ := go_step hs
      · refine ⟨f, ⟨quiet_set h.quiet j (fun pc _ e => by cases e), ?_, h.inc, h.flow, h.shape, h.vals, h.has, h.grow⟩, fun n pc hp => hp⟩
        by_cases e : w = j
        · subst e
          rcases h.own with ⟨hp, _⟩ | ⟨pc, l, o, hp, hwi, _⟩
          · rw [hpc] at hp; cases hp
          · rw [hpc] at hp; cases hp
            obtain ⟨_, f', fr, hr'⟩ := within_ret hwi
            exact Or.inl ⟨set_self _ _ _, f', fr, _, hr'⟩
        · rw [set_other _ _ e]; exact h.own
      · by_cases e : j = w
        · subst e
          rcases h.own with ⟨hp, _⟩ | ⟨pc', l, o, hp, hwi', hadd⟩
          · rw [hpc] at hp; cases hp
          · rw [hpc] at hp; cases hp
            rcases within_step hN hH hwi' hr with ⟨h1, h2⟩ | ⟨a, m', h1, h2, h3, h4⟩
            · rw [store_none h1]
              exact ⟨f, ⟨quiet_set h.quiet j (fun pc hi _ => absurd rfl hi), Or.inr ⟨_, l, o, set_self _ _ _, h2, hadd⟩, h.inc, h.flow, h.shape, h.vals, h.has, h.grow⟩, fun n pc hp => hp⟩
            · obtain ⟨g1, g2, g3, g4⟩ := store_ok h1 h2
              obtain ⟨_, gv, gi⟩ := g2 i hiw
              refine ⟨f, ⟨fun j' pc hj hp => h.quiet j' pc hj (by rw [(g2 j' hj).1] at hp; exact hp), Or.inr ⟨_, l, o, g1, by rw [g3]; exact h3, hadd⟩, by rw [g4]; exact h.inc, ?_, ?_, ?_, ?_, ?_⟩, ?_⟩
              · rw [gv, gi, storeAll_append, h.flow, g3]; exact store_apply h2
              · rw [gv]; exact h.shape
              · rw [gv]; exact h.vals
              · rw [gv]; exact h.has
              · rw [gv, gi]
                refine growing_append _ h.shape h.grow ?_
                rw [h.flow, store_apply h2]
                exact h4 P hadd
              · intro n pc hp; rw [gv]; exact hp
        · obtain ⟨g1, g2⟩ := quiet_step (N := N) (H := H) (m := s.view j) (h.quiet j pc e hpc)
          rw [store_none g1]
          exact ⟨f, ⟨quiet_set h.quiet j (fun pc _ e => by cases e; exact g2), by rw [set_other _ _ (fun h => e h.symm)]; exact h.own, h.inc, h.flow, h.shape, h.vals, h.has, h.grow⟩, fun n pc hp => hp⟩

theorem rinv_exec (hN : N < NONE) (hH : 0 < H) {P : UInt64 → V → Prop} {k : UInt64} {K : Prop} {w i : Nat} (hiw : i ≠ w) : ∀ (xs : List (WAct V)) {f : Nat → List Nat} {s s' : WSys V} {es : List (FEvent V)},
    RInv N H P k K w i f s → OneWriter w xs → (∀ u, .act (.call w u) ∈ xs → Adds P u.op) → InOrder i xs → exec N H s xs = some (s', es) → ∃ f', RInv N H P k K w i f' s' := by
  intro xs
  induction xs with
  | nil => intro f s s' es h _ _ _ he; cases he; exact ⟨f, h⟩
  | cons x xs ih =>
    intro f s s' es h hc ha ho he
    obtain ⟨s1, es1, es2, hs, hx, rfl⟩ := exec_cons he
    obtain ⟨f1, h1, _⟩ := rinv_step hN hH hiw h (fun j u e hj => hc j u (by rw [e]; simp) hj) (fun u e => ha u (by rw [e]; simp)) (fun r e => ho r (by rw [e]; simp)) hs
    exact ih h1 (fun j u hm hj => hc j u (List.mem_cons_of_mem _ hm) hj) (fun u hm => ha u (List.mem_cons_of_mem _ hm)) (fun r hm => ho r (List.mem_cons_of_mem _ hm)) hx

/-- A step of the system during a read of process `i`. -/
theorem place_exec (hN : N < NONE) (hH : 0 < H) {P : UInt64 → V → Prop} {k : UInt64} {K : Prop} {w i : Nat} (hiw : i ≠ w) : ∀ (xs : List (WAct V)) {n : Nat} {f : Nat → List Nat} {s s' : WSys V} {es : List (FEvent V)},
    RInv N H P k K w i f s → (∀ pc, s.pc i = some pc → Place N H P (s.view i) f k K n pc) → OneWriter w xs → (∀ u, .act (.call w u) ∈ xs → Adds P u.op) → InOrder i xs →
    (∀ u, .act (.call i u) ∉ xs) → exec N H s xs = some (s', es) →
    xs.countP (WAct.goOf i) ≤ n ∧ s'.pc i ≠ some .ub ∧ ∀ r, .ret i r ∈ es → Good P k K r := by
  intro xs
  induction xs with
  | nil =>
    intro n f s s' es h hp _ _ _ _ he
    cases he
    exact ⟨by simp, fun e => (hp _ e).elim, by intro r hr; cases hr⟩
  | cons x xs ih =>
    intro n f s s' es h hp hc ha ho hb he
    obtain ⟨s1, es1, es2, hs, hx, rfl⟩ := exec_cons he
    obtain ⟨f1, h1, hpl⟩ := rinv_step hN hH hiw h (fun j u e hj => hc j u (by rw [e]; simp) hj) (fun u e => ha u (by rw [e]; simp)) (fun r e => ho r (by rw [e]; simp)) hs
    have hone : ∃ n1, (∀ pc, s1.pc i = some pc → Place N H P (s1.view i) f1 k K n1 pc) ∧ n1 + (if WAct.goOf i x then 1 else 0) ≤ n ∧ ∀ r, .ret i r ∈ es1 → Good P k K r := by
      cases x with
      | arrive j r =>
        obtain ⟨rfl, hpc, _⟩ := arrive_step hs
        exact ⟨n, fun pc e => hpl n pc (hp pc (by rw [hpc] at e; exact e)), by simp [WAct.goOf], by intro r hr; cases hr⟩
      | act a =>
        cases a with
        | call j u =>
          obtain ⟨hn, rfl, rfl⟩ := call_step hs
          have hij : i ≠ j := by rintro rfl; exact hb u (by simp)
          exact ⟨n, fun pc e => hpl n pc (hp pc (by rw [set_other _ _ hij] at e; exact e)), by simp [WAct.goOf], by intro r hr; simp at hr⟩
        | go j =>
          obtain ⟨pc, hpc, hcase⟩ := go_step hs
          by_cases hj : j = i
          · subst hj
            have hpp := hp pc hpc
            rcases hcase with ⟨r, rfl, rfl, rfl⟩ | ⟨hr, rfl, rfl⟩
            · obtain ⟨hg, hn1⟩ := good_place hpp
              refine ⟨n - 1, fun pc' e => (by rw [set_self] at e; cases e), by simp [WAct.goOf]; omega, ?_⟩
              intro r' hr'
              simp only [List.mem_singleton, FEvent.ret.injEq, true_and] at hr'
              rw [hr']; exact hg
            · obtain ⟨g1, g2⟩ := quiet_step (N := N) (H := H) (m := s.view j) (h.quiet j pc hiw hpc)
              obtain ⟨p1, p2⟩ := place_step hN hH h.shape h.vals h.has hpp hr
              rw [store_none g1] at hpl ⊢
              refine ⟨n - 1, ?_, by simp [WAct.goOf]; omega, by intro r hr; cases hr⟩
              intro pc' e
              rw [set_self] at e; cases e
              exact hpl _ _ p2
          · have hij : i ≠ j := fun e => hj e.symm
            rcases hcase with ⟨r, rfl, rfl, rfl⟩ | ⟨hr, rfl, rfl⟩
            · refine ⟨n, fun pc e => hpl n pc (hp pc (by rw [set_other _ _ hij] at e; exact e)), by simp [WAct.goOf, hj], ?_⟩
              intro r' hr'
              simp only [List.mem_singleton, FEvent.ret.injEq] at hr'
              exact absurd hr'.1 hij
            · refine ⟨n, fun pc' e => hpl n pc' (hp pc' ?_), by simp [WAct.goOf, hj], by intro r hr; cases hr⟩
              have key : (s.store N H j (pc.step N H (s.view j))).pc i = s.pc i := by
                generalize pc.step N H (s.view j) = q
                obtain ⟨a, b⟩ := q
                cases a with
                | none => exact set_other _ _ hij
                | some a =>
                  simp only [WSys.store]
                  split
                  · exact set_other _ _ hij
                  · exact set_other _ _ hij
              rw [key] at e; exact e
    obtain ⟨n1, q1, q2, q3⟩ := hone
    obtain ⟨r1, r2, r3⟩ := ih h1 q1 (fun j u hm hj => hc j u (List.mem_cons_of_mem _ hm) hj) (fun u hm => ha u (List.mem_cons_of_mem _ hm)) (fun r hm => ho r (List.mem_cons_of_mem _ hm))
      (fun u hm => hb u (List.mem_cons_of_mem _ hm)) hx
    refine ⟨by rw [List.countP_cons]; omega, r2, ?_⟩
    intro r hr
    rcases List.mem_append.mp hr with g | g
    · exact q3 r g
    · exact r3 r g

/-- **C188, the others.** One process `w` inserts, erases and reads without any lock, all others only read without the lock.  After any history in which stores were delayed and reordered at
will there is an instant at which no store is on its way to process `i` (the beginning is one); `l0` is what the finite map contains after the calls of `w` that had returned by then.  From
then on stores arrive at process `i` in the order in which they were made, as on x86 processors, with any delay; the call of `w` in progress at this instant and its later calls are no
`unprotected_erase`.  Then every later call `unprotected_read(k, out)` of process `i` stays in the segment, returns after at most `2 * capacity + 3` steps of its own whatever the others do,
returns false only if the key is not in `l0`, and if it returns true then the value is that of the key in `l0` or one that `w` inserts under the key in the call in progress or later.
Missing: stores that arrive in another order (`C188_refuted`, `C188_refuted_loop`), and erasing (`C186_refuted_erase`). -/
theorem C188_readers_partial (hN : N < 2 ^ 31) (hH : 0 < H) (w i : Nat) (hiw : i ≠ w) (s0 s t s' : WSys V) (m : Map V) (h : Start H s0 m) (xs ys zs : List (WAct V))
    (hw : OneWriter w (xs ++ ys ++ zs)) (es0 es1 es : List (FEvent V)) (he0 : exec N H s0 xs = some (s, es0)) (hinc : s.inc i = []) (he1 : exec N H s ys = some (t, es1)) (k : UInt64)
    (he : exec N H t (.act (.call i (.read k)) :: zs) = some (s', es)) (hno : ∀ u, .act (.call i u) ∉ zs) (horder : InOrder i (ys ++ zs))
    (hpend : ∀ k', .erase k' ∉ inProgress w es0) (hcall : ∀ k', .act (.call w (.erase k')) ∉ ys ++ zs) :
    s'.pc i ≠ some .ub ∧ zs.countP (WAct.goOf i) ≤ 2 * N + 3 ∧
    ∀ r, .ret i r ∈ es → (r = .val none ∧ ∀ v, (k, v) ∉ (ShmMap.Spec.run N [] (completed w es0)).1) ∨
      ∃ v, r = .val (some v) ∧ ((k, v) ∈ (ShmMap.Spec.run N [] (completed w es0)).1 ∨ .insert k v ∈ inProgress w es0 ∨ .act (.call w (.insert k v)) ∈ ys ++ zs) := by
  have hN' : N < NONE := by unfold NONE; omega
  have hfi := finv_exec hN' hH xs (finv_start h) (fun j u hm hj => hw j u (by simp [hm]) hj) he0
  have hown := hfi.own
  simp only [List.nil_append] at hown
  obtain ⟨_, hcase⟩ := own_split hown
  generalize hl0 : (ShmMap.Spec.run N [] (completed w es0)).1 = l0 at hcase ⊢
  obtain ⟨s1, es2, es3, hs, hx, rfl⟩ := exec_cons he
  obtain ⟨hn, rfl, rfl⟩ := call_step hs
  have hview : s.view i = s.view w := by
    have := hfi.flow i
    rw [hinc] at this
    exact this
  let P : UInt64 → V → Prop := fun k v => (k, v) ∈ l0 ∨ .insert k v ∈ inProgress w es0 ∨ .act (.call w (.insert k v)) ∈ ys ++ zs
  have hadds : ∀ o ∈ inProgress w es0, Adds P o := by
    intro o ho
    obtain ⟨u, rfl⟩ := inProgress_op ho
    cases u with
    | read k => trivial
    | insert k v => exact Or.inr (Or.inl ho)
    | erase k' => exact absurd ho (hpend k')
  have hrep : ∃ f fr lk l, Rep N H (s.view w) f fr lk l ∧ (∃ pre, l.map (·.1) = pre ++ l0.map (·.1)) ∧ ∀ k v, (k, v) ∈ l → P k v := by
    rcases hcase with ⟨_, _, f, fr, hr⟩ | ⟨pc, o, _, hin, hwi⟩
    · exact ⟨f, fr, 0, l0, hr, ⟨[], by simp⟩, fun k v hk => Or.inl hk⟩
    · obtain ⟨f, fr, lk, l', hr, hm⟩ := within_rep hN' hH hwi (hadds o (by rw [hin]; simp))
      refine ⟨f, fr, lk, l', hr, hm.1, fun k v hk => ?_⟩
      rcases hm.2 k v hk with g | g
      · exact Or.inl g
      · exact Or.inr (Or.inl (by rw [hin]; exact g))
  obtain ⟨f, fr, lk, l, hr, ⟨pre, hpre⟩, hlP⟩ := hrep
  have hinv : RInv N H P k (k ∈ l0.map (·.1)) w i f s := by
    refine ⟨hfi.quiet, ?_, hfi.inc, hfi.flow i, by rw [hview]; exact shape_rep hr, ?_, ?_, by rw [hinc]; trivial⟩
    · rcases hcase with ⟨h1, _, f, fr, hr⟩ | ⟨pc, o, h1, hin, hwi⟩
      · exact Or.inl ⟨h1, f, fr, l0, hr⟩
      · exact Or.inr ⟨pc, l0, o, h1, hwi, hadds o (by rw [hin]; simp)⟩
    · intro x hxn
      rw [hview]
      exact hlP _ _ (hr.abs.mem_iff.mpr (List.mem_map.mpr ⟨x, hxn, rfl⟩))
    · intro hk
      rw [hview]
      exact (hr.has_iff hH k).mp (by unfold ShmMap.Spec.has; rw [hpre]; exact List.mem_append_right _ hk)
  have hcalls : ∀ u, .act (.call w u) ∈ ys ++ zs → Adds P u.op := by
    intro u hm
    cases u with
    | read k => trivial
    | insert k' v => exact Or.inr (Or.inr hm)
    | erase k' => exact absurd hm (hcall k')
  obtain ⟨f1, h1⟩ := rinv_exec hN' hH hiw ys hinv (fun j u hm hj => hw j u (by simp [hm]) hj) (fun u hm => hcalls u (by simp [hm])) (fun r hm => horder r (by simp [hm])) he1
  have h2 : RInv N H P k (k ∈ l0.map (·.1)) w i f1 (t.set i (some (start (Unprot.read k).op))) :=
    ⟨quiet_set h1.quiet i (fun pc _ e => by cases e; trivial), by rw [set_other _ _ (fun e => hiw e.symm)]; exact h1.own, h1.inc, h1.flow, h1.shape, h1.vals, h1.has, h1.grow⟩
  obtain ⟨q1, q2, q3⟩ := place_exec hN' hH hiw zs (n := 2 * N + 3) h2 (by intro pc e; rw [set_self] at e; cases e; exact ⟨rfl, Nat.le_refl _⟩)
    (fun j u hm hj => hw j u (by simp [hm]) hj) (fun u hm => hcalls u (by simp [hm])) (fun r hm => horder r (by simp [hm])) hno hx
  refine ⟨q2, q1, ?_⟩
  intro r hl
  have hl : .ret i r ∈ es3 := by simpa using hl
  have g := q3 r hl
  cases r with
  | val v =>
    cases v with
    | none => exact Or.inl ⟨rfl, fun v hv => g (List.mem_map.mpr ⟨_, hv, rfl⟩)⟩
    | some v => exact Or.inr ⟨v, rfl, g⟩
  | _ => exact g.elim

end Verif.WeakFree
