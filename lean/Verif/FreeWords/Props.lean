import Verif.FreeWords.Sim
import Verif.MapFree.More
import Mathlib.Data.List.FinRange
/-
  Property C189: the map without any lock, with values of several words.
-/
set_option linter.unusedVariables false
set_option linter.unusedSimpArgs false

namespace Verif.FreeWords

open Verif.ShmPool Verif.ShmMap Verif.MapSys Verif.MapTorn
open Verif.MapFree (FAct FEvent FSys callsOf retsOf completed inProgress OneWriter)

variable {W : Type} {n : Nat} {N H : Nat}

/-! ## The finite map, word by word -/

def pB (j : Fin n) (l : ShmMap.Spec.Bindings (Val n W)) : ShmMap.Spec.Bindings W := l.map (fun q => (q.1, q.2 j))

theorem pB_keys (j : Fin n) (l : ShmMap.Spec.Bindings (Val n W)) : (pB j l).map (·.1) = l.map (·.1) := by simp [pB]

theorem pB_has (j : Fin n) (l : ShmMap.Spec.Bindings (Val n W)) (k : UInt64) : ShmMap.Spec.has (pB j l) k ↔ ShmMap.Spec.has l k := by
  unfold ShmMap.Spec.has; rw [pB_keys]

theorem pB_lookup (j : Fin n) (l : ShmMap.Spec.Bindings (Val n W)) (k : UInt64) : ShmMap.Spec.lookup (pB j l) k = (ShmMap.Spec.lookup l k).map (· j) := by
  unfold ShmMap.Spec.lookup pB
  rw [List.find?_map]
  simp only [Option.map_map]
  rfl

theorem pB_bind (j : Fin n) (l : ShmMap.Spec.Bindings (Val n W)) (k : UInt64) (v : Val n W) : ShmMap.Spec.bind (pB j l) k (v j) = pB j (ShmMap.Spec.bind l k v) := by
  unfold ShmMap.Spec.bind
  simp only [pB_has]
  split
  · simp only [pB, List.map_map]
    congr 1
    funext q
    simp only [Function.comp]
    split <;> rfl
  · rfl

theorem pB_unbind (j : Fin n) (l : ShmMap.Spec.Bindings (Val n W)) (k : UInt64) : ShmMap.Spec.unbind (pB j l) k = pB j (ShmMap.Spec.unbind l k) := by
  unfold ShmMap.Spec.unbind pB
  rw [List.filter_map]
  rfl

theorem spec_step (j : Fin n) (l : ShmMap.Spec.Bindings (Val n W)) (o : Op (Val n W)) :
    ShmMap.Spec.step N (pB j l) (pOp j o) = (pB j (ShmMap.Spec.step N l o).1, pRet j (ShmMap.Spec.step N l o).2) := by
  cases o with
  | read k => simp only [ShmMap.Spec.step, pOp, pRet, pB_lookup]
  | insert k v =>
    simp only [ShmMap.Spec.step, pOp, pB_has, pB_bind]
    have : (pB j l).length = l.length := by simp [pB]
    rw [this]
    split <;> rfl
  | erase k =>
    simp only [ShmMap.Spec.step, pOp, pRet, pB_unbind, Prod.mk.injEq, Ret.bool.injEq, true_and]
    exact decide_eq_decide.mpr (pB_has j l k)
  | clear => rfl
  | size => simp [ShmMap.Spec.step, pOp, pRet, pB]

theorem spec_run (j : Fin n) : ∀ (ops : List (Op (Val n W))) (l : ShmMap.Spec.Bindings (Val n W)),
    ShmMap.Spec.run N (pB j l) (ops.map (pOp j)) = (pB j (ShmMap.Spec.run N l ops).1, (ShmMap.Spec.run N l ops).2.map (pRet j)) := by
  intro ops
  induction ops with
  | nil => intro l; rfl
  | cons o ops ih =>
    intro l
    simp only [List.map_cons, ShmMap.Spec.run, spec_step, ih]

theorem p_calls (j : Fin n) (w : Nat) (es : List (FEvent (Val n W))) : callsOf w (es.map (pEv j)) = (callsOf w es).map (pOp j) := by
  induction es with
  | nil => rfl
  | cons e es ih =>
    cases e with
    | call i u => simp only [List.map_cons, pEv, callsOf]; split <;> simp [ih, pUn_op]
    | ret i r => simp only [List.map_cons, pEv, callsOf]; exact ih

theorem p_rets (j : Fin n) (w : Nat) (es : List (FEvent (Val n W))) : retsOf w (es.map (pEv j)) = (retsOf w es).map (pRet j) := by
  induction es with
  | nil => rfl
  | cons e es ih =>
    cases e with
    | ret i u => simp only [List.map_cons, pEv, retsOf]; split <;> simp [ih]
    | call i r => simp only [List.map_cons, pEv, retsOf]; exact ih

theorem p_completed (j : Fin n) (w : Nat) (es : List (FEvent (Val n W))) : completed w (es.map (pEv j)) = (completed w es).map (pOp j) := by
  unfold completed; rw [p_calls, p_rets, List.length_map, List.map_take]

theorem p_inProgress (j : Fin n) (w : Nat) (es : List (FEvent (Val n W))) : inProgress w (es.map (pEv j)) = (inProgress w es).map (pOp j) := by
  unfold inProgress; rw [p_calls, p_rets, List.length_map, List.map_drop]

theorem pRet_inj (hn : 0 < n) {a b : Ret (Val n W)} (h : ∀ j, pRet j a = pRet j b) : a = b := by
  have h0 := h ⟨0, hn⟩
  cases a with
  | val v =>
    cases b with
    | val v' =>
      cases v with
      | none => cases v' with | none => rfl | some x => simp [pRet] at h0
      | some x =>
        cases v' with
        | none => simp [pRet] at h0
        | some y =>
          have : x = y := by
            funext j
            have := h j
            simpa [pRet] using this
          rw [this]
    | _ => simp [pRet] at h0
  | bool c => cases b <;> simp_all [pRet]
  | num c => cases b <;> simp_all [pRet]
  | unit => cases b <;> simp_all [pRet]

theorem pRets_inj (hn : 0 < n) : ∀ {a b : List (Ret (Val n W))}, (∀ j, a.map (pRet j) = b.map (pRet j)) → a = b := by
  intro a
  induction a with
  | nil => intro b h; have := h ⟨0, hn⟩; cases b with | nil => rfl | cons x b => simp at this
  | cons x a ih =>
    intro b h
    cases b with
    | nil => have := h ⟨0, hn⟩; simp at this
    | cons y b =>
      simp only [List.map_cons, List.cons.injEq] at h
      rw [pRet_inj hn (fun j => (h j).1), ih (fun j => (h j).2)]

theorem word_pos {ord : List (Fin n)} (ho : Once ord) (j : Fin n) : ∃ p : Nat, ord[p]? = some j := List.mem_iff_getElem?.mp (ho.2 j)

theorem words {ord : List (Fin n)} (ho : Once ord) : ord.length = n := by
  have := ((List.perm_ext_iff_of_nodup ho.1 (List.nodup_finRange n)).mpr fun j => ⟨fun _ => List.mem_finRange j, fun _ => ho.2 j⟩).length_eq
  rwa [List.length_finRange] at this

theorem oneWriter_word {j : Fin n} {w : Nat} {xs : List (FAct (Val n W))} {ys : List (FAct W)} (h : OneWriter w xs) (hc : ∀ i u, .call i u ∈ ys ↔ ∃ u', .call i u' ∈ xs ∧ u = pUn j u') :
    OneWriter w ys := by
  intro i u hm hi
  obtain ⟨u', h1, rfl⟩ := (hc i u).mp hm
  obtain ⟨k, rfl⟩ := h i u' h1 hi
  exact ⟨k, rfl⟩

theorem pCur_ub {j : Fin n} {p : Nat} {c : Cur n W} (h : c.pc = .ub) : pCur j p c = .ub := by
  unfold pCur; rw [h]; rfl

/-! ## The theorems -/

/-- **C189, the process that stores.** Values consist of any number of words, which are read and written one by one in any order.  One process inserts, erases and reads without any lock, all
others only read without the lock, in every interleaving of the accesses to the words.  Then the calls of this process return exactly the results of a finite map with whole values, and
it never accesses memory outside of the segment.  Missing: a second process that inserts or erases (`C186_refuted`, `C186_refuted_value`). -/
theorem C189_writer_partial (hn : 0 < n) (hN : N < 2 ^ 31) (hH : 0 < H) {ord : List (Fin n)} (ho : Once ord) (b : Val n W) (w : Nat) (s s' : FSysW n W) (h : Start H s)
    (xs : List (FAct (Val n W))) (hw : OneWriter w xs) (es : List (FEvent (Val n W))) (he : exec N H ord b s xs = some (s', es)) :
    retsOf w es = (ShmMap.Spec.run N [] (completed w es)).2 ∧ ∀ c, s'.pc w = some c → c.pc ≠ .ub := by
  refine ⟨pRets_inj hn fun j => ?_, fun c hc hub => ?_⟩
  · obtain ⟨p, hp⟩ := word_pos ho j
    obtain ⟨R, hs⟩ := rel_start (N := N) (j := j) (p := p) (L := ord.length) h
    obtain ⟨ys, t', h1, _, h3, _⟩ := exec_sim ho.1 hp xs R he
    have := (MapFree.C186_writer_partial hN hH w _ _ hs ys (oneWriter_word hw h3) _ h1).1
    rw [p_rets, p_completed, show ([] : ShmMap.Spec.Bindings W) = pB j [] from rfl, spec_run] at this
    exact this
  · obtain ⟨p, hp⟩ := word_pos ho ⟨0, hn⟩
    obtain ⟨R, hs⟩ := rel_start (N := N) (j := ⟨0, hn⟩) (p := p) (L := ord.length) h
    obtain ⟨ys, t', h1, R', h3, _⟩ := exec_sim ho.1 hp xs R he
    have := (MapFree.C186_writer_partial hN hH w _ _ hs ys (oneWriter_word hw h3) _ h1).2
    exact this (by rw [R'.pc w, hc, Option.map_some, pCur_ub hub])

/-- **C189, no access outside of the segment.** As in `C189_writer_partial`, whatever is inserted and erased; the segment was zeroed by the system before it was initialised. -/
theorem C189_bounds_partial (hn : 0 < n) (hN : 0 < N) (hN2 : N < 2 ^ 31) (hH : 0 < H) {ord : List (Fin n)} (ho : Once ord) (b : Val n W) (w : Nat) (s s' : FSysW n W) (h : Start H s)
    (hz : MapPeek.Zeroed s.mem) (xs : List (FAct (Val n W))) (hw : OneWriter w xs) (es : List (FEvent (Val n W))) (he : exec N H ord b s xs = some (s', es)) :
    (∀ i c, s'.pc i = some c → c.pc ≠ .ub) ∧ ∀ i r, i ≠ w → .ret i r ∈ es → ∃ v, r = .val v := by
  obtain ⟨p, hp⟩ := word_pos ho ⟨0, hn⟩
  obtain ⟨R, hs⟩ := rel_start (N := N) (j := ⟨0, hn⟩) (p := p) (L := ord.length) h
  obtain ⟨ys, t', h1, R', h3, _⟩ := exec_sim ho.1 hp xs R he
  obtain ⟨g1, g2⟩ := MapFree.C186_bounds_partial hN hN2 hH w _ _ hs ⟨hz.1, hz.2⟩ ys (oneWriter_word hw h3) _ h1
  refine ⟨fun i c hc hub => g1 i (by rw [R'.pc i, hc, Option.map_some, pCur_ub hub]), fun i r hi hm => ?_⟩
  obtain ⟨v, hv⟩ := g2 i (pRet ⟨0, hn⟩ r) hi (List.mem_map.mpr ⟨_, hm, rfl⟩)
  cases r with
  | val v => exact ⟨v, rfl⟩
  | _ => cases hv

/-- **C189, the others.** Values consist of any number of words, which are read and written one by one in any order.  One process `w` inserts, erases and reads without any lock, all others
only read without the lock.  Process `i` calls `unprotected_read(k, out)`; the call of `w` in progress at this instant, if any, and its later calls are no `unprotected_erase`.  `l0` is what
the finite map contains after the calls of `w` that had returned by then.  Then the read stays in the segment, returns after at most `2 * capacity + 3 + words` steps of its own, returns
false only if the key is not in `l0`; and if it returns true then each word of the value is that word of the value of the key in `l0` or of one that `w` inserts under the key in the call in
progress or later.  Missing: the whole value, if it is replaced (`C189_refuted`), and erasing during the read (`C186_refuted_erase`). -/
theorem C189_readers_partial (hn : 0 < n) (hN : N < 2 ^ 31) (hH : 0 < H) {ord : List (Fin n)} (ho : Once ord) (b : Val n W) (w i : Nat) (hiw : i ≠ w) (s0 s s' : FSysW n W) (h : Start H s0)
    (xs ys : List (FAct (Val n W))) (hw : OneWriter w (xs ++ ys)) (es0 es : List (FEvent (Val n W))) (he0 : exec N H ord b s0 xs = some (s, es0)) (k : UInt64)
    (he : exec N H ord b s (.call i (.read k) :: ys) = some (s', es)) (hno : ∀ u, .call i u ∉ ys) (hpend : ∀ k', .erase k' ∉ inProgress w es0) (hcall : ∀ k', .call w (.erase k') ∉ ys) :
    (∀ c, s'.pc i = some c → c.pc ≠ .ub) ∧ ys.countP (MapFree.FAct.goOf i) ≤ 2 * N + 3 + n ∧
    ∀ r, .ret i r ∈ es → (r = .val none ∧ ∀ v, (k, v) ∉ (ShmMap.Spec.run N [] (completed w es0)).1) ∨
      ∃ v, r = .val (some v) ∧ ∀ j, ∃ v', v' j = v j ∧ ((k, v') ∈ (ShmMap.Spec.run N [] (completed w es0)).1 ∨ .insert k v' ∈ inProgress w es0 ∨ .call w (.insert k v') ∈ ys) := by
  have word : ∀ j : Fin n, (∀ c, s'.pc i = some c → c.pc ≠ .ub) ∧ ys.countP (MapFree.FAct.goOf i) ≤ 2 * N + 3 + n ∧
      ∀ r, .ret i r ∈ es → (r = .val none ∧ ∀ v, (k, v) ∉ (ShmMap.Spec.run N [] (completed w es0)).1) ∨
        ∃ v, r = .val (some v) ∧ ∃ v', v' j = v j ∧ ((k, v') ∈ (ShmMap.Spec.run N [] (completed w es0)).1 ∨ .insert k v' ∈ inProgress w es0 ∨ .call w (.insert k v') ∈ ys) := by
    intro j
    obtain ⟨p, hp⟩ := word_pos ho j
    obtain ⟨R, hs⟩ := rel_start (N := N) (j := j) (p := p) (L := ord.length) h
    obtain ⟨xs', t, h1, R1, c1, _⟩ := exec_sim ho.1 hp xs R he0
    obtain ⟨s1, es1, es2, hst, hx, rfl⟩ := exec_cons he
    obtain ⟨hnone, rfl, rfl⟩ := call_step hst
    have ht : t.pc i = none := by rw [R1.pc i, hnone]; rfl
    have R2 : Rel N ord.length j p (s.set i (some ⟨start (Unprot.read k).op, 0, b⟩)) (t.set i (some (start (Unprot.read k : Unprot W).op))) := by
      refine rel_set R1 s.mem i _ (by rintro c' h; cases h; exact ⟨Nat.zero_le _, Or.inl rfl⟩) R1.mem ?_ (fun i' hi' => MapFree.set_other _ _ hi')
      rw [MapFree.set_self, Option.map_some, pCur_zero, pPc_start]; rfl
    obtain ⟨ys', t', h2, R3, c2, k2⟩ := exec_sim ho.1 hp ys R2 hx
    have hex : MapFree.exec N H t (.call i (.read k) :: ys') = some (t', [.call i (.read k)] ++ es2.map (pEv j)) := by
      simp only [MapFree.exec, MapFree.step, ht, h2]
    obtain ⟨g1, g2, g3⟩ := MapFree.C186_readers_partial hN hH w i hiw _ t t' hs xs' ys'
      (by
        intro i' u hm hi'
        rcases List.mem_append.mp hm with hm | hm
        · exact oneWriter_word (fun i u hm hi => hw i u (List.mem_append_left _ hm) hi) c1 i' u hm hi'
        · exact oneWriter_word (fun i u hm hi => hw i u (List.mem_append_right _ hm) hi) c2 i' u hm hi')
      _ _ h1 k hex (by intro u hm; obtain ⟨u', hm', _⟩ := (c2 i u).mp hm; exact hno u' hm')
      (by
        intro k' hm
        rw [p_inProgress] at hm
        obtain ⟨o, ho', e⟩ := List.mem_map.mp hm
        cases o with
        | erase k'' => exact hpend k'' ho'
        | _ => cases e)
      (by
        intro k' hm
        obtain ⟨u', hm', e⟩ := (c2 w _).mp hm
        cases u' with
        | erase k'' => exact hcall k'' hm'
        | _ => cases e)
    refine ⟨fun c hc hub => g1 (by rw [R3.pc i, hc, Option.map_some, pCur_ub hub]), ?_, ?_⟩
    · have := k2 i hno
      have e0 : extraOf ord.length p (s.set i (some ⟨start (Unprot.read k).op, 0, b⟩)) i = ord.length := by simp only [extraOf, set_self]; rfl
      rw [words ho] at e0 this
      omega
    · intro r hr
      have hr' : FEvent.ret i r ∈ es2 := by simpa using hr
      rw [p_completed, show ([] : ShmMap.Spec.Bindings W) = pB j [] from rfl, spec_run, p_inProgress] at g3
      rcases g3 (pRet j r) (List.mem_append_right _ (List.mem_map.mpr ⟨_, hr', rfl⟩)) with ⟨e, hv⟩ | ⟨x, e, hv⟩
      · refine Or.inl ⟨?_, ?_⟩
        · cases r with
          | val v => cases v with | none => rfl | some v => simp [pRet] at e
          | _ => cases e
        · intro v hm
          exact hv (v j) (List.mem_map.mpr ⟨_, hm, rfl⟩)
      · cases r with
        | val v =>
          cases v with
          | none => simp [pRet] at e
          | some v =>
            simp only [pRet, Option.map_some, Ret.val.injEq, Option.some.injEq] at e
            subst e
            refine Or.inr ⟨v, rfl, ?_⟩
            rcases hv with hv | hv | hv
            · obtain ⟨⟨k', v'⟩, hm, e⟩ := List.mem_map.mp hv
              simp only [Prod.mk.injEq] at e
              obtain ⟨rfl, e⟩ := e
              exact ⟨v', e, Or.inl hm⟩
            · obtain ⟨o, hm, e⟩ := List.mem_map.mp hv
              cases o with
              | insert k' v' =>
                simp only [pOp, Op.insert.injEq] at e
                obtain ⟨rfl, e⟩ := e
                exact ⟨v', e, Or.inr (Or.inl hm)⟩
              | _ => cases e
            · obtain ⟨u', hm, e⟩ := (c2 w _).mp hv
              cases u' with
              | insert k' v' =>
                simp only [pUn, Unprot.insert.injEq] at e
                obtain ⟨rfl, e⟩ := e
                exact ⟨v', e.symm, Or.inr (Or.inr hm)⟩
              | _ => cases e
        | _ => cases e
  obtain ⟨w1, w2, w3⟩ := word ⟨0, hn⟩
  refine ⟨w1, w2, fun r hr => ?_⟩
  rcases w3 r hr with g | ⟨v, rfl, _⟩
  · exact Or.inl g
  · refine Or.inr ⟨v, rfl, fun j => ?_⟩
    obtain ⟨_, _, w4⟩ := word j
    rcases w4 _ hr with ⟨g, _⟩ | ⟨v2, g, hv⟩
    · cases g
    · cases g; exact hv

/-- **C189, whole values.** In the situation of `C189_readers_partial`, if there is only one value that the key can have during the read (it is in `l0` and `w` does not insert it again, or it
is not in `l0` and `w` inserts it with this value only), then a read that returns true delivers this value. -/
theorem C189_whole_partial (hn : 0 < n) (hN : N < 2 ^ 31) (hH : 0 < H) {ord : List (Fin n)} (ho : Once ord) (b : Val n W) (w i : Nat) (hiw : i ≠ w) (s0 s s' : FSysW n W) (h : Start H s0)
    (xs ys : List (FAct (Val n W))) (hw : OneWriter w (xs ++ ys)) (es0 es : List (FEvent (Val n W))) (he0 : exec N H ord b s0 xs = some (s, es0)) (k : UInt64)
    (he : exec N H ord b s (.call i (.read k) :: ys) = some (s', es)) (hno : ∀ u, .call i u ∉ ys) (hpend : ∀ k', .erase k' ∉ inProgress w es0) (hcall : ∀ k', .call w (.erase k') ∉ ys)
    (v0 : Val n W) (hone : ∀ v, (k, v) ∈ (ShmMap.Spec.run N [] (completed w es0)).1 ∨ .insert k v ∈ inProgress w es0 ∨ .call w (.insert k v) ∈ ys → v = v0) :
    ∀ r, .ret i r ∈ es → (r = .val none ∧ ∀ v, (k, v) ∉ (ShmMap.Spec.run N [] (completed w es0)).1) ∨ r = .val (some v0) := by
  intro r hr
  rcases (C189_readers_partial hn hN hH ho b w i hiw s0 s s' h xs ys hw es0 es he0 k he hno hpend hcall).2.2 r hr with g | ⟨v, rfl, hv⟩
  · exact Or.inl g
  · have : v = v0 := by
      funext j
      obtain ⟨v', e, hm⟩ := hv j
      rw [← e, hone v' hm]
    rw [this]
    exact Or.inr rfl

/-- **C189, the process that stores is never held up.** As in `C189_writer_partial`; every call of `w` returns after at most `2 * capacity + buckets + 14 + words` steps of its own, whatever the
others do in between and wherever they stop; and as long as it has not returned its next step is possible. -/
theorem C189_waitfree_partial (hn : 0 < n) (hN : N < 2 ^ 31) (hH : 0 < H) {ord : List (Fin n)} (ho : Once ord) (b : Val n W) (w : Nat) (s0 s s' : FSysW n W) (h : Start H s0)
    (xs ys : List (FAct (Val n W))) (hw : OneWriter w (xs ++ ys)) (es0 es : List (FEvent (Val n W))) (he0 : exec N H ord b s0 xs = some (s, es0)) (u : Unprot (Val n W))
    (he : exec N H ord b s (.call w u :: ys) = some (s', es)) (hno : ∀ u, .call w u ∉ ys) :
    ys.countP (MapFree.FAct.goOf w) ≤ 2 * N + H + 14 + n ∧ (s'.pc w ≠ none → ∃ s'' es'', step N H ord b s' (.go w) = some (s'', es'')) := by
  constructor
  · obtain ⟨p, hp⟩ := word_pos ho ⟨0, hn⟩
    obtain ⟨R, hs⟩ := rel_start (N := N) (j := ⟨0, hn⟩) (p := p) (L := ord.length) h
    obtain ⟨xs', t, h1, R1, c1, _⟩ := exec_sim ho.1 hp xs R he0
    obtain ⟨s1, es1, es2, hst, hx, rfl⟩ := exec_cons he
    obtain ⟨hnone, rfl, rfl⟩ := call_step hst
    have ht : t.pc w = none := by rw [R1.pc w, hnone]; rfl
    have R2 : Rel N ord.length ⟨0, hn⟩ p (s.set w (some ⟨start u.op, 0, b⟩)) (t.set w (some (start (pUn ⟨0, hn⟩ u).op))) := by
      refine rel_set R1 s.mem w _ (by rintro c' h; cases h; exact ⟨Nat.zero_le _, Or.inl rfl⟩) R1.mem ?_ (fun i' hi' => MapFree.set_other _ _ hi')
      rw [MapFree.set_self, Option.map_some, pCur_zero, pPc_start, pUn_op]
    obtain ⟨ys', t', h2, R3, c2, k2⟩ := exec_sim ho.1 hp ys R2 hx
    have hex : MapFree.exec N H t (.call w (pUn ⟨0, hn⟩ u) :: ys') = some (t', [.call w (pUn ⟨0, hn⟩ u)] ++ es2.map (pEv ⟨0, hn⟩)) := by
      simp only [MapFree.exec, MapFree.step, ht, h2]
    have g := (MapFree.C186_waitfree_partial hN hH w _ t t' hs xs' ys'
      (by
        intro i' u hm hi'
        rcases List.mem_append.mp hm with hm | hm
        · exact oneWriter_word (fun i u hm hi => hw i u (List.mem_append_left _ hm) hi) c1 i' u hm hi'
        · exact oneWriter_word (fun i u hm hi => hw i u (List.mem_append_right _ hm) hi) c2 i' u hm hi')
      _ _ h1 _ hex (by intro u hm; obtain ⟨u', hm', _⟩ := (c2 w u).mp hm; exact hno u' hm')).1
    have := k2 w hno
    have e0 : extraOf ord.length p (s.set w (some ⟨start u.op, 0, b⟩)) w ≤ ord.length := by
      simp only [extraOf, set_self]
      cases u <;> exact Nat.le_refl _
    rw [words ho] at e0 this
    omega
  · intro hne
    cases hp : s'.pc w with
    | none => exact absurd hp hne
    | some c =>
      obtain ⟨pc, g, buf⟩ := c
      simp only [step, hp]
      cases pc <;> exact ⟨_, _, rfl⟩

/-! ## The refutation, and executions the theorems are about -/

/-- A value of two words. -/
def two (x y : Nat) : Val 2 Nat := fun j => if j = 0 then x else y

/-- A fresh map, nobody in a call. -/
def m0 : Map (Val 2 Nat) := ⟨⟨0, ⟨ShmPool.NONE, fun _ => 0⟩⟩, fun _ => 0, fun _ => two 0 0, fun _ => 0, fun _ => ShmPool.NONE⟩

/-- A fresh map, nobody in a call. -/
def f0 : FSysW 2 Nat := ⟨m0, fun _ => none⟩

theorem f0_start : Start 2 f0 := ⟨⟨rfl, rfl, fun _ _ => rfl⟩, fun _ => rfl⟩

theorem f0_zeroed : MapPeek.Zeroed f0.mem := ⟨fun _ => rfl, fun _ => rfl⟩

def goes (k i : Nat) : List (FAct (Val 2 Nat)) := List.replicate k (.go i)

/-- Everything that returned, values as pairs of words. -/
def answers : List (FEvent (Val 2 Nat)) → List (Nat × Ret (Nat × Nat))
  | [] => []
  | .call _ _ :: es => answers es
  | .ret i (.val v) :: es => (i, .val (v.map fun v => (v 0, v 1))) :: answers es
  | .ret i (.bool c) :: es => (i, .bool c) :: answers es
  | .ret i (.num c) :: es => (i, .num c) :: answers es
  | .ret i .unit :: es => (i, .unit) :: answers es

/-- Process 0 inserts (40, 41) under key 4. -/
def ins : List (FAct (Val 2 Nat)) := .call 0 (.insert 4 (two 40 41)) :: goes 12 0

/-- Process 0 replaces it by (80, 81) and stops between the two words; process 1 reads the key. -/
def torn : List (FAct (Val 2 Nat)) := [.call 0 (.insert 4 (two 80 81))] ++ goes 3 0 ++ [.call 1 (.read 4)] ++ goes 6 1 ++ goes 3 0

theorem once_two : Once [(0 : Fin 2), 1] := by unfold Once; decide

/-- **C189 refuted for whole values.** Process 0 replaces the value (40, 41) by (80, 81), and a read without the lock by process 1 delivers (80, 41), which nobody ever inserted. -/
theorem C189_refuted : (exec 4 2 [0, 1] (two 0 0) f0 (ins ++ torn)).map (fun q => answers q.2) = some [(0, .bool true), (1, .val (some (80, 41))), (0, .bool true)] := by decide +kernel

theorem oneWriter_of {xs : List (FAct (Val 2 Nat))} {w : Nat} (h : xs.all (fun | .call j (.read _) => true | .call j _ => j == w | _ => true) = true) : OneWriter w xs := by
  intro j u hm hj
  have := List.all_eq_true.mp h _ hm
  cases u with
  | read k => exact ⟨k, rfl⟩
  | insert k v => simp at this; exact absurd this hj
  | erase k => simp at this; exact absurd this hj

theorem map_some' {α β : Type} {f : α → β} {o : Option α} {y : β} (h : o.map f = some y) : ∃ x, o = some x ∧ y = f x := by
  cases o with
  | none => cases h
  | some x => cases h; exact ⟨x, rfl, rfl⟩

/-- `C189_writer_partial` and `C189_bounds_partial` are about the execution of `C189_refuted`, among others: the results of process 0 are right all the same. -/
example : ∃ s' es, exec 4 2 [0, 1] (two 0 0) f0 (ins ++ torn) = some (s', es) ∧ Start 2 f0 ∧ MapPeek.Zeroed f0.mem ∧ OneWriter 0 (ins ++ torn) ∧ (completed 0 es).length = 2 := by
  have hy : (exec 4 2 [0, 1] (two 0 0) f0 (ins ++ torn)).map (fun q => (completed 0 q.2).length) = some 2 := by decide +kernel
  obtain ⟨⟨s', es⟩, e, hm⟩ := map_some' hy
  exact ⟨s', es, e, f0_start, f0_zeroed, oneWriter_of (by decide +kernel), hm.symm⟩

/-- Process 1 makes the first step of its read, process 0 inserts key 6 of the same bucket, process 1 goes on. -/
def beside : List (FAct (Val 2 Nat)) := [.go 1, .call 0 (.insert 6 (two 60 61))] ++ goes 14 0 ++ goes 5 1

/-- `C189_readers_partial`, `C189_whole_partial` and (for `w = 0`, with the insertion of key 6) `C189_waitfree_partial` apply: process 1 reads key 4 while process 0 inserts key 6. -/
example : ∃ s es0 s' es, exec 4 2 [0, 1] (two 0 0) f0 ins = some (s, es0) ∧ exec 4 2 [0, 1] (two 0 0) s (.call 1 (.read 4) :: beside) = some (s', es) ∧ OneWriter 0 (ins ++ beside) ∧
    (∀ u, .call 1 u ∉ beside) ∧ (∀ k', .erase k' ∉ inProgress 0 es0) ∧ (∀ k', .call 0 (.erase k') ∉ beside) ∧
    (∀ v, (4, v) ∈ (ShmMap.Spec.run 4 [] (completed 0 es0)).1 ∨ .insert 4 v ∈ inProgress 0 es0 ∨ .call 0 (.insert 4 v) ∈ beside → v = two 40 41) ∧
    answers es = [(0, .bool true), (1, .val (some (40, 41)))] := by
  have hy : (exec 4 2 [0, 1] (two 0 0) f0 ins).bind (fun q => (exec 4 2 [0, 1] (two 0 0) q.1 (.call 1 (.read 4) :: beside)).map (fun t =>
      decide (answers t.2 = [(0, .bool true), (1, .val (some (40, 41)))]))) = some true := by decide +kernel
  have h0 : (exec 4 2 [0, 1] (two 0 0) f0 ins).map (·.2) = some [.call 0 (.insert 4 (two 40 41)), .ret 0 (.bool true)] := by rfl
  cases h1 : exec 4 2 [0, 1] (two 0 0) f0 ins with
  | none => rw [h1] at hy; cases hy
  | some q =>
    obtain ⟨s, es0⟩ := q
    rw [h1] at hy h0
    simp only [Option.map_some, Option.some.injEq] at h0
    subst h0
    cases h2 : exec 4 2 [0, 1] (two 0 0) s (.call 1 (.read 4) :: beside) with
    | none => simp [h2] at hy
    | some z =>
      obtain ⟨s', es⟩ := z
      simp only [h2, Option.bind_some, Option.map_some, Option.some.injEq, decide_eq_true_eq] at hy
      have hb : ∀ a ∈ beside, a = .go 0 ∨ a = .go 1 ∨ a = .call 0 (.insert 6 (two 60 61)) := by
        intro a ha
        simp [beside, goes] at ha
        rcases ha with h | h | h | h
        · exact Or.inr (Or.inl h)
        · exact Or.inr (Or.inr h)
        · exact Or.inl h
        · exact Or.inr (Or.inl h)
      refine ⟨s, _, s', es, rfl, h2, oneWriter_of (by decide +kernel), ?_, ?_, ?_, ?_, hy⟩
      · intro u hu; rcases hb _ hu with h | h | h <;> cases h
      · intro k' hk; simp [inProgress, callsOf, retsOf] at hk
      · intro k' hu; rcases hb _ hu with h | h | h <;> cases h
      · rintro v (h | h | h)
        · simpa [completed, callsOf, retsOf, ShmMap.Spec.run, ShmMap.Spec.step, ShmMap.Spec.has, ShmMap.Spec.bind, Unprot.op] using h
        · simp [inProgress, callsOf, retsOf] at h
        · rcases hb _ h with h | h | h <;> simp at h

end Verif.FreeWords
