import Verif.MapFree.Spec
import Verif.MapPeek.Bounds
/-
  Property C186: the map without any lock.
-/
set_option linter.unusedVariables false
set_option linter.unusedSimpArgs false

namespace Verif.MapFree

open Verif.ShmPool Verif.ShmMap Verif.MapSys Verif.MapIter
open Verif.MapPeek (Place place_grow place_step Good Tidy Has WrOk tidy_apply has_step start_has Reading reading_step Zeroed)

variable {V : Type} {N H : Nat}

theorem callsOf_append (w : Nat) (a b : List (FEvent V)) : callsOf w (a ++ b) = callsOf w a ++ callsOf w b := by
  induction a with
  | nil => rfl
  | cons e es ih =>
    cases e with
    | call i u => simp only [List.cons_append, callsOf]; split <;> simp [ih]
    | ret i r => simp [callsOf, ih]

theorem callsOf_op {w : Nat} {o : Op V} : ∀ {es : List (FEvent V)}, o ∈ callsOf w es → ∃ u : Unprot V, o = u.op := by
  intro es
  induction es with
  | nil => intro hm; cases hm
  | cons e es ih =>
    intro hm
    cases e with
    | call j u =>
      simp only [callsOf] at hm
      split at hm
      · rcases List.mem_cons.mp hm with g | g
        · exact ⟨u, g⟩
        · exact ih g
      · exact ih hm
    | ret j r => exact ih hm

theorem inProgress_op {w : Nat} {o : Op V} {es : List (FEvent V)} (h : o ∈ inProgress w es) : ∃ u : Unprot V, o = u.op := callsOf_op (List.mem_of_mem_drop h)

theorem retsOf_append (w : Nat) (a b : List (FEvent V)) : retsOf w (a ++ b) = retsOf w a ++ retsOf w b := by
  induction a with
  | nil => rfl
  | cons e es ih =>
    cases e with
    | ret i u => simp only [List.cons_append, retsOf]; split <;> simp [ih]
    | call i r => simp [retsOf, ih]

theorem run_snoc (l : ShmMap.Spec.Bindings V) (ops : List (Op V)) (o : Op V) : ShmMap.Spec.run N l (ops ++ [o]) =
    ((ShmMap.Spec.step N (ShmMap.Spec.run N l ops).1 o).1, (ShmMap.Spec.run N l ops).2 ++ [(ShmMap.Spec.step N (ShmMap.Spec.run N l ops).1 o).2]) := by
  induction ops generalizing l with
  | nil => rfl
  | cons op ops ih => simp [ShmMap.Spec.run, ih]

theorem run_len (l : ShmMap.Spec.Bindings V) (ops : List (Op V)) : (ShmMap.Spec.run N l ops).2.length = ops.length := by
  induction ops generalizing l with
  | nil => rfl
  | cons op ops ih => simp [ShmMap.Spec.run, ih]

theorem stepL_zero (l : ShmMap.Spec.Bindings V) (o : Op V) : ShmMap.Spec.stepL N 0 l o = ((ShmMap.Spec.step N l o).1, 0, (ShmMap.Spec.step N l o).2) := by
  cases o <;> rfl

theorem call_step {s s' : FSys V} {i : Nat} {u : Unprot V} {es : List (FEvent V)} (h : step N H s (.call i u) = some (s', es)) :
    s.pc i = none ∧ s' = s.set i (some (start u.op)) ∧ es = [.call i u] := by
  simp only [step] at h
  split at h
  · cases h; exact ⟨by assumption, rfl, rfl⟩
  · cases h

theorem go_step {s s' : FSys V} {i : Nat} {es : List (FEvent V)} (h : step N H s (.go i) = some (s', es)) :
    ∃ pc, s.pc i = some pc ∧ ((∃ r, pc = .ret r ∧ s' = s.set i none ∧ es = [.ret i r]) ∨ ((∀ r, pc ≠ .ret r) ∧ s' = s.store N H i (pc.step N H s.mem) ∧ es = [])) := by
  simp only [step] at h
  split at h
  · cases h
  · rename_i r hr
    cases h
    exact ⟨.ret r, hr, Or.inl ⟨r, rfl, rfl, rfl⟩⟩
  · rename_i pc hpc hr
    cases h
    exact ⟨pc, hr, Or.inr ⟨fun r e => hpc r e, rfl, rfl⟩⟩

/-! ## The process that stores -/

/-- In the call of operation `o`, while the contents were `l` when it began. -/
structure Mid (N H n : Nat) (m : Map V) (pc : Pc V) (l : ShmMap.Spec.Bindings V) (o : Op V) (m0 m1 : Map V) (ws0 ws : List (Wr V)) : Prop where
  rep0 : ∃ f fr, Rep N H m0 f fr 0 l
  rep1 : ∃ f fr, Rep N H m1 f fr 0 (ShmMap.Spec.step N l o).1
  writes : ShmMap.writes N H m0 o = .ok (ws0 ++ ws)
  done : applyM N H m0 ws0 = .ok m
  rest : applyM N H m ws = .ok m1
  path : Path N H n m pc ws (ShmMap.Spec.step N l o).2

/-- The same, with the details hidden. -/
def Within (N H : Nat) (m : Map V) (pc : Pc V) (l : ShmMap.Spec.Bindings V) (o : Op V) : Prop := ∃ n m0 m1 ws0 ws, Mid N H n m pc l o m0 m1 ws0 ws

theorem within_start (hN : N < NONE) (hH : 0 < H) {m : Map V} {f : Nat → List Nat} {fr : List Nat} {l : ShmMap.Spec.Bindings V} (h : Rep N H m f fr 0 l) (o : Op V) :
    Within N H m (start o) l o := by
  obtain ⟨m', f', fr', h1, h2⟩ := step_spec hN hH h o
  rw [stepL_zero] at h1 h2
  obtain ⟨ws, hw, ha, hp⟩ := op_path h1
  exact ⟨_, m, m', [], ws, ⟨f, fr, h⟩, ⟨f', fr', h2⟩, hw, rfl, ha, hp⟩

theorem within_ub {m : Map V} {l : ShmMap.Spec.Bindings V} {o : Op V} (h : Within N H m .ub l o) : False := by
  obtain ⟨n, m0, m1, ws0, ws, h⟩ := h
  have hp := h.path
  cases hp with
  | rd hl => cases hl
  | wr hl => cases hl

theorem within_ret {m : Map V} {r : Ret V} {l : ShmMap.Spec.Bindings V} {o : Op V} (h : Within N H m (.ret r) l o) :
    r = (ShmMap.Spec.step N l o).2 ∧ ∃ f fr, Rep N H m f fr 0 (ShmMap.Spec.step N l o).1 := by
  obtain ⟨n, m0, m1, ws0, ws, h⟩ := h
  obtain ⟨f, fr, h1⟩ := h.rep1
  have hr := h.rest
  have hp := h.path
  generalize hq : (ShmMap.Spec.step N l o).2 = q at hp
  cases hp with
  | ret => cases hr; exact ⟨rfl, f, fr, h1⟩
  | rd hl => cases hl
  | wr hl => cases hl

/-- One step in the call: no store, or one inside the segment that, if the operation takes nothing out, leaves everything reachable. -/
theorem within_step (hN : N < NONE) (hH : 0 < H) {m : Map V} {pc : Pc V} {l : ShmMap.Spec.Bindings V} {o : Op V} (h : Within N H m pc l o) (hr : ∀ r, pc ≠ .ret r) :
    ((pc.step N H m).1 = none ∧ Within N H m (pc.step N H m).2 l o) ∨
    ∃ w m', (pc.step N H m).1 = some w ∧ w.apply N H m = .ok m' ∧ Within N H m' (pc.step N H m).2 l o ∧
      ∀ P, Adds P o → ∀ f, Shape N H m f → ∃ f', Grow N H P m m' f f' := by
  obtain ⟨n, m0, m1, ws0, ws, h⟩ := h
  have hwr := h.writes
  have hd := h.done
  have hre := h.rest
  have hp := h.path
  generalize hq : (ShmMap.Spec.step N l o).2 = q at hp
  cases hp with
  | ret => exact absurd rfl (hr _)
  | @rd n' _ _ _ _ _ hl hs hp' =>
    refine Or.inl ⟨by rw [hs], n', m0, m1, ws0, ws, h.rep0, h.rep1, hwr, hd, hre, ?_⟩
    rw [hs, hq]; exact hp'
  | @wr n' _ m' _ pc' w ws2 _ hl hs ha hp' =>
    refine Or.inr ⟨w, m', by rw [hs], ha, ⟨n', m0, m1, ws0 ++ [w], ws2, h.rep0, h.rep1, by rw [hwr]; simp, ?_, ?_, by rw [hs, hq]; exact hp'⟩, ?_⟩
    · rw [applyM_append, hd, Res.ok_bind]
      simp [applyM, ha, Res.ok_bind]
    · obtain ⟨m2, e1, e2⟩ := applyM_cons hre
      rw [ha] at e1; cases e1; exact e2
    · intro P hadd f hsh
      obtain ⟨f0, fr, h0⟩ := h.rep0
      cases o with
      | read k => simp [ShmMap.writes] at hwr
      | size => simp [ShmMap.writes] at hwr
      | erase k => exact hadd.elim
      | clear => exact hadd.elim
      | insert k v =>
        obtain ⟨g1, f', g2⟩ := insert_grow hN hH (P := P) h0 hadd hwr hd ha
        exact ⟨f', grow_congr g2 (fun b hb => shape_unique hN g1 hsh b hb)⟩

/-- In the middle of an operation that takes nothing out, the memory is a map: with the contents before or after. -/
theorem within_rep (hN : N < NONE) (hH : 0 < H) {P : UInt64 → V → Prop} {m : Map V} {pc : Pc V} {l : ShmMap.Spec.Bindings V} {o : Op V} (h : Within N H m pc l o) (ho : Adds P o) :
    ∃ f fr lk l', Rep N H m f fr lk l' ∧ More [o] l l' := by
  obtain ⟨n, m0, m1, ws0, ws, h⟩ := h
  obtain ⟨f, fr, h0⟩ := h.rep0
  obtain ⟨m', f', fr', lk', l', e, h', hl, _⟩ := kill_spec hN hH h0 o ws0.length (by rintro k rfl; exact ho.elim) (by rintro rfl; exact ho.elim)
  have hm : m' = m := by
    have hd := h.done
    simp only [kill, h.writes, Res.ok_bind, List.take_left'] at e
    rw [hd] at e
    cases e; rfl
  subst hm
  refine ⟨f', fr', lk', l', h', ?_⟩
  rcases hl with rfl | rfl
  · exact more_refl _ _
  · exact more_step ho N _ _

/-- The process that stores: its calls, what they returned, and the memory. -/
inductive Own (N H : Nat) (m : Map V) : Option (Pc V) → List (Op V) → List (Ret V) → Prop where
  | idle {ops f fr} : Rep N H m f fr 0 (ShmMap.Spec.run N [] ops).1 → Own N H m none ops (ShmMap.Spec.run N [] ops).2
  | busy {ops pc o} : Within N H m pc (ShmMap.Spec.run N [] ops).1 o → Own N H m (some pc) (ops ++ [o]) (ShmMap.Spec.run N [] ops).2

/-- The places of `unprotected_read`. -/
def Quiet : Pc V → Prop
  | .rdHash _ | .rdLoop _ _ | .rdVal _ | .rdNext _ _ | .ret _ | .ub => True
  | _ => False

theorem quiet_step {m : Map V} {pc : Pc V} (h : Quiet pc) : (pc.step N H m).1 = none ∧ Quiet (pc.step N H m).2 := by
  cases pc with
  | rdHash k => refine ⟨rfl, ?_⟩; simp only [Pc.step]; split <;> trivial
  | rdLoop k e => refine ⟨rfl, ?_⟩; simp only [Pc.step]; (repeat' split) <;> trivial
  | rdVal e => exact ⟨rfl, trivial⟩
  | rdNext k e => exact ⟨rfl, trivial⟩
  | ret r => exact ⟨rfl, trivial⟩
  | ub => exact ⟨rfl, trivial⟩
  | _ => exact h.elim

theorem store_none {s : FSys V} {i : Nat} {q : Option (Wr V) × Pc V} (h : q.1 = none) : s.store N H i q = s.set i (some q.2) := by
  obtain ⟨a, b⟩ := q
  cases h
  rfl

theorem store_ok {s : FSys V} {i : Nat} {q : Option (Wr V) × Pc V} {w : Wr V} {m : Map V} (h : q.1 = some w) (ha : w.apply N H s.mem = .ok m) :
    s.store N H i q = ({ s with mem := m } : FSys V).set i (some q.2) := by
  obtain ⟨a, b⟩ := q
  cases h
  simp only [FSys.store, ha]

theorem set_self (s : FSys V) (i : Nat) (t : Option (Pc V)) : (s.set i t).pc i = t := by simp [FSys.set]

theorem set_other (s : FSys V) {i j : Nat} (t : Option (Pc V)) (h : j ≠ i) : (s.set i t).pc j = s.pc j := by simp [FSys.set, h]

/-- What always holds when only process `w` stores. -/
structure FInv (N H w : Nat) (s : FSys V) (ops : List (Op V)) (rets : List (Ret V)) : Prop where
  quiet : ∀ j pc, j ≠ w → s.pc j = some pc → Quiet pc
  own : Own N H s.mem (s.pc w) ops rets

theorem own_ret {m : Map V} {r : Ret V} {ops : List (Op V)} {rets : List (Ret V)} (h : Own N H m (some (.ret r)) ops rets) : Own N H m none ops (rets ++ [r]) := by
  generalize hq : (some (Pc.ret r) : Option (Pc V)) = q at h
  cases h with
  | idle => cases hq
  | @busy ops pc o hw =>
    cases hq
    obtain ⟨rfl, f, fr, hr⟩ := within_ret hw
    have e := run_snoc (N := N) [] ops o
    have := @Own.idle V N H m (ops ++ [o]) f fr (by rw [e]; exact hr)
    rw [e] at this
    exact this

theorem own_step (hN : N < NONE) (hH : 0 < H) {m : Map V} {pc : Pc V} {ops : List (Op V)} {rets : List (Ret V)} (h : Own N H m (some pc) ops rets) (hr : ∀ r, pc ≠ .ret r) :
    ((pc.step N H m).1 = none ∧ Own N H m (some (pc.step N H m).2) ops rets) ∨
    ∃ w m', (pc.step N H m).1 = some w ∧ w.apply N H m = .ok m' ∧ Own N H m' (some (pc.step N H m).2) ops rets := by
  generalize hq : (some pc : Option (Pc V)) = q at h
  cases h with
  | idle => cases hq
  | @busy ops pc o hw =>
    cases hq
    rcases within_step hN hH hw hr with ⟨h1, h2⟩ | ⟨w, m', h1, h2, h3, _⟩
    · exact Or.inl ⟨h1, .busy h2⟩
    · exact Or.inr ⟨w, m', h1, h2, .busy h3⟩

theorem own_call (hN : N < NONE) (hH : 0 < H) {m : Map V} {ops : List (Op V)} {rets : List (Ret V)} (h : Own N H m none ops rets) (o : Op V) :
    Own N H m (some (start o)) (ops ++ [o]) rets := by
  generalize hq : (none : Option (Pc V)) = q at h
  cases h with
  | idle hr => exact .busy (within_start hN hH hr o)
  | busy => cases hq

theorem finv_step (hN : N < NONE) (hH : 0 < H) {w : Nat} {s s' : FSys V} {x : FAct V} {es : List (FEvent V)} {ops : List (Op V)} {rets : List (Ret V)} (h : FInv N H w s ops rets)
    (hc : ∀ j u, x = .call j u → j ≠ w → ∃ k, u = .read k) (hs : step N H s x = some (s', es)) : FInv N H w s' (ops ++ callsOf w es) (rets ++ retsOf w es) := by
  cases x with
  | call i u =>
    obtain ⟨hn, rfl, rfl⟩ := call_step hs
    by_cases hi : i = w
    · subst hi
      refine ⟨fun j pc hj hp => h.quiet j pc hj (by rw [set_other _ _ hj] at hp; exact hp), ?_⟩
      have ho := h.own
      rw [hn] at ho
      rw [set_self]
      simp only [callsOf, retsOf, if_true, List.append_nil]
      exact own_call hN hH ho _
    · obtain ⟨k, rfl⟩ := hc i u rfl hi
      refine ⟨?_, ?_⟩
      · intro j pc hj hp
        by_cases hji : j = i
        · subst hji
          rw [set_self] at hp; cases hp; trivial
        · rw [set_other _ _ hji] at hp
          exact h.quiet j pc hj hp
      · rw [set_other _ _ (fun e => hi e.symm)]
        simp only [callsOf, retsOf, if_neg hi, List.append_nil]
        exact h.own
  | go i =>
    obtain ⟨pc, hpc, ⟨r, rfl, rfl, rfl⟩ | ⟨hr, rfl, rfl⟩⟩ := go_step hs
    · by_cases hi : i = w
      · subst hi
        refine ⟨fun j pc hj hp => h.quiet j pc hj (by rw [set_other _ _ hj] at hp; exact hp), ?_⟩
        have ho := h.own
        rw [hpc] at ho
        rw [set_self]
        simp only [callsOf, retsOf, if_true, List.append_nil]
        exact own_ret ho
      · refine ⟨?_, ?_⟩
        · intro j pc hj hp
          by_cases hji : j = i
          · subst hji
            rw [set_self] at hp; cases hp
          · rw [set_other _ _ hji] at hp
            exact h.quiet j pc hj hp
        · rw [set_other _ _ (fun e => hi e.symm)]
          simp only [callsOf, retsOf, if_neg hi, List.append_nil]
          exact h.own
    · simp only [callsOf, retsOf, List.append_nil]
      by_cases hi : i = w
      · subst hi
        have ho := h.own
        rw [hpc] at ho
        rcases own_step hN hH ho hr with ⟨h1, h2⟩ | ⟨a, m', h1, h2, h3⟩
        · rw [store_none h1]
          exact ⟨fun j pc hj hp => h.quiet j pc hj (by rw [set_other _ _ hj] at hp; exact hp), by rw [set_self]; exact h2⟩
        · rw [store_ok h1 h2]
          exact ⟨fun j pc hj hp => h.quiet j pc hj (by rw [set_other _ _ hj] at hp; exact hp), by rw [set_self]; exact h3⟩
      · obtain ⟨g1, g2⟩ := quiet_step (N := N) (H := H) (m := s.mem) (h.quiet i pc hi hpc)
        rw [store_none g1]
        refine ⟨?_, ?_⟩
        · intro j pc hj hp
          by_cases hji : j = i
          · subst hji
            rw [set_self] at hp; cases hp; exact g2
          · rw [set_other _ _ hji] at hp
            exact h.quiet j pc hj hp
        · rw [set_other _ _ (fun e => hi e.symm)]
          exact h.own

theorem exec_cons {s s' : FSys V} {x : FAct V} {xs : List (FAct V)} {es : List (FEvent V)} (h : exec N H s (x :: xs) = some (s', es)) :
    ∃ s1 es1 es2, step N H s x = some (s1, es1) ∧ exec N H s1 xs = some (s', es2) ∧ es = es1 ++ es2 := by
  simp only [exec] at h
  cases hs : step N H s x with
  | none => rw [hs] at h; cases h
  | some q =>
    obtain ⟨s1, es1⟩ := q
    rw [hs] at h
    simp only at h
    cases hx : exec N H s1 xs with
    | none => rw [hx] at h; cases h
    | some q =>
      obtain ⟨s2, es2⟩ := q
      rw [hx] at h
      cases h
      exact ⟨s1, es1, es2, rfl, hx, rfl⟩

theorem finv_exec (hN : N < NONE) (hH : 0 < H) {w : Nat} : ∀ (xs : List (FAct V)) {s s' : FSys V} {es : List (FEvent V)} {ops : List (Op V)} {rets : List (Ret V)}, FInv N H w s ops rets →
    OneWriter w xs → exec N H s xs = some (s', es) → FInv N H w s' (ops ++ callsOf w es) (rets ++ retsOf w es) := by
  intro xs
  induction xs with
  | nil => intro s s' es ops rets h _ he; cases he; simpa [callsOf, retsOf] using h
  | cons x xs ih =>
    intro s s' es ops rets h hc he
    obtain ⟨s1, es1, es2, hs, hx, rfl⟩ := exec_cons he
    have h1 := finv_step hN hH h (fun j u e hj => hc j u (by rw [e]; simp) hj) hs
    have h2 := ih h1 (fun j u hm hj => hc j u (List.mem_cons_of_mem _ hm) hj) hx
    rw [callsOf_append, retsOf_append, ← List.append_assoc, ← List.append_assoc]
    exact h2

theorem finv_start {w : Nat} {s : FSys V} (h : Start H s) : FInv N H w s [] [] :=
  ⟨fun j pc _ hp => (by rw [h.2 j] at hp; cases hp), by rw [h.2 w]; exact @Own.idle V N H s.mem [] (fun _ => []) [] (rep_init _ h.1.1 h.1.2.1 h.1.2.2)⟩

theorem own_split {m : Map V} {q : Option (Pc V)} {w : Nat} {es : List (FEvent V)} (h : Own N H m q (callsOf w es) (retsOf w es)) :
    retsOf w es = (ShmMap.Spec.run N [] (completed w es)).2 ∧
    ((q = none ∧ inProgress w es = [] ∧ ∃ f fr, Rep N H m f fr 0 (ShmMap.Spec.run N [] (completed w es)).1) ∨
      ∃ pc o, q = some pc ∧ inProgress w es = [o] ∧ Within N H m pc (ShmMap.Spec.run N [] (completed w es)).1 o) := by
  unfold completed inProgress
  generalize callsOf w es = ops at h ⊢
  generalize retsOf w es = rets at h ⊢
  cases h with
  | @idle _ f fr hr => rw [run_len, List.take_length, List.drop_length]; exact ⟨rfl, Or.inl ⟨rfl, rfl, f, fr, hr⟩⟩
  | @busy ops pc o hw => rw [run_len, List.take_left, List.drop_left]; exact ⟨rfl, Or.inr ⟨pc, o, rfl, rfl, hw⟩⟩

/-- **C186.** One process inserts, erases and reads without any lock, all others only read without the lock, in every interleaving of the accesses to shared memory.  Then the calls of
this process return what they would return if it were alone: exactly the results of a finite map of the given capacity; and it never accesses memory outside of the segment.
Missing: a second process that inserts or erases (`C186_refuted`, `C186_refuted_value`). -/
theorem C186_writer_partial (hN : N < 2 ^ 31) (hH : 0 < H) (w : Nat) (s s' : FSys V) (h : Start H s) (xs : List (FAct V)) (hw : OneWriter w xs) (es : List (FEvent V))
    (he : exec N H s xs = some (s', es)) : retsOf w es = (ShmMap.Spec.run N [] (completed w es)).2 ∧ s'.pc w ≠ some .ub := by
  have hN' : N < NONE := by unfold NONE; omega
  have hf := (finv_exec hN' hH xs (finv_start h) hw he).own
  simp only [List.nil_append] at hf
  obtain ⟨h1, h2⟩ := own_split hf
  refine ⟨h1, ?_⟩
  intro e
  rcases h2 with ⟨g, _⟩ | ⟨pc, o, g, _, hwi⟩
  · rw [g] at e; cases e
  · rw [e] at g; cases g; exact within_ub hwi

/-! ## The others -/

/-- What holds during a read of process `i`, while process `w` takes nothing out. -/
structure RInv (N H : Nat) (P : UInt64 → V → Prop) (k : UInt64) (K : Prop) (w i n : Nat) (s : FSys V) : Prop where
  quiet : ∀ j pc, j ≠ w → s.pc j = some pc → Quiet pc
  own : (s.pc w = none ∧ ∃ f fr l, Rep N H s.mem f fr 0 l) ∨ ∃ pc l o, s.pc w = some pc ∧ Within N H s.mem pc l o ∧ Adds P o
  mem : ∃ f, Shape N H s.mem f ∧ (∀ x ∈ nodes H f, P (s.mem.key x) (s.mem.val x)) ∧ (K → ∃ x ∈ f (k.toNat % H), s.mem.key x = k) ∧
    ∀ pc, s.pc i = some pc → Place N H P s.mem f k K n pc

theorem good_place {P : UInt64 → V → Prop} {m : Map V} {f : Nat → List Nat} {k : UInt64} {K : Prop} {n : Nat} {r : Ret V} (h : Place N H P m f k K n (.ret r)) : Good P k K r ∧ 1 ≤ n := by
  cases r with
  | val v => cases v <;> exact h
  | _ => exact h.elim

theorem rinv_step (hN : N < NONE) (hH : 0 < H) {P : UInt64 → V → Prop} {k : UInt64} {K : Prop} {w i n : Nat} {s s' : FSys V} {x : FAct V} {es : List (FEvent V)} (hiw : i ≠ w)
    (h : RInv N H P k K w i n s) (hc : ∀ j u, x = .call j u → j ≠ w → ∃ k, u = .read k) (ha : ∀ u, x = .call w u → Adds P u.op) (hb : ∀ u, x ≠ .call i u)
    (hs : step N H s x = some (s', es)) :
    (∃ n', RInv N H P k K w i n' s' ∧ n' + (if FAct.goOf i x then 1 else 0) ≤ n) ∧ ∀ r, .ret i r ∈ es → Good P k K r := by
  obtain ⟨hq, hown, f, hsh, hP, hK, hit⟩ := h
  have hwi : w ≠ i := fun e => hiw e.symm
  cases x with
  | call j u =>
    obtain ⟨hn, rfl, rfl⟩ := call_step hs
    have hji : j ≠ i := by rintro rfl; exact hb u rfl
    have hij : i ≠ j := fun e => hji e.symm
    refine ⟨⟨n, ⟨?_, ?_, f, hsh, hP, hK, fun pc hp => hit pc (by rw [set_other _ _ hij] at hp; exact hp)⟩, by simp [FAct.goOf]⟩, by intro r hr; simp at hr⟩
    · intro j' pc hj' hp
      by_cases e : j' = j
      · subst e
        obtain ⟨k', rfl⟩ := hc j' u rfl hj'
        rw [set_self] at hp; cases hp; trivial
      · rw [set_other _ _ e] at hp
        exact hq j' pc hj' hp
    · by_cases e : w = j
      · subst e
        rcases hown with ⟨_, f', fr, l, hr⟩ | ⟨pc, l, o, hp, _⟩
        · exact Or.inr ⟨_, l, u.op, set_self _ _ _, within_start hN hH hr _, ha u rfl⟩
        · rw [hn] at hp; cases hp
      · rw [set_other _ _ e]; exact hown
  | go j =>
    obtain ⟨pc, hpc, ⟨r, rfl, rfl, rfl⟩ | ⟨hr, rfl, rfl⟩⟩ := go_step hs
    · have hquiet : ∀ j' pc', j' ≠ w → (s.set j none).pc j' = some pc' → Quiet pc' := by
        intro j' pc' hj' hp
        by_cases e : j' = j
        · subst e; rw [set_self] at hp; cases hp
        · rw [set_other _ _ e] at hp; exact hq j' pc' hj' hp
      by_cases hji : j = i
      · subst hji
        obtain ⟨hg, hn1⟩ := good_place (hit _ hpc)
        refine ⟨⟨n - 1, ⟨hquiet, by rw [set_other _ _ hwi]; exact hown, f, hsh, hP, hK, ?_⟩, by simp [FAct.goOf]; omega⟩, ?_⟩
        · intro pc' hp; rw [set_self] at hp; cases hp
        · intro r' hr'
          simp only [List.mem_singleton, FEvent.ret.injEq, true_and] at hr'
          rw [hr']; exact hg
      · have hij : i ≠ j := fun e => hji e.symm
        refine ⟨⟨n, ⟨hquiet, ?_, f, hsh, hP, hK, fun pc hp => hit pc (by rw [set_other _ _ hij] at hp; exact hp)⟩, by simp [FAct.goOf, hji]⟩, ?_⟩
        · by_cases e : w = j
          · subst e
            rcases hown with ⟨hp, _⟩ | ⟨pc, l, o, hp, hwi, _⟩
            · rw [hpc] at hp; cases hp
            · rw [hpc] at hp; cases hp
              obtain ⟨_, f', fr, hr'⟩ := within_ret hwi
              exact Or.inl ⟨set_self _ _ _, f', fr, _, hr'⟩
          · rw [set_other _ _ e]; exact hown
        · intro r' hr'
          simp only [List.mem_singleton, FEvent.ret.injEq] at hr'
          exact absurd hr'.1 hij
    · by_cases e : j = w
      · subst e
        rcases hown with ⟨hp, _⟩ | ⟨pc', l, o, hp, hwi', hadd⟩
        · rw [hpc] at hp; cases hp
        · rw [hpc] at hp; cases hp
          have hquiet : ∀ (m : Map V) t j' pc', j' ≠ j → (({ s with mem := m } : FSys V).set j t).pc j' = some pc' → Quiet pc' := by
            intro m t j' pc' hj' hp
            rw [set_other _ _ hj'] at hp
            exact hq j' pc' hj' hp
          rcases within_step hN hH hwi' hr with ⟨h1, h2⟩ | ⟨a, m', h1, h2, h3, h4⟩
          · rw [store_none h1]
            refine ⟨⟨n, ⟨hquiet s.mem _, Or.inr ⟨_, l, o, set_self _ _ _, h2, hadd⟩, f, hsh, hP, hK, fun pc hp => hit pc (by rw [set_other _ _ hiw] at hp; exact hp)⟩,
              by simp [FAct.goOf, hwi]⟩, by intro r hr; cases hr⟩
          · rw [store_ok h1 h2]
            obtain ⟨f', hg⟩ := h4 P hadd f hsh
            refine ⟨⟨n, ⟨hquiet m' _, Or.inr ⟨_, l, o, set_self _ _ _, h3, hadd⟩, f', hg.shape, ?_, ?_, ?_⟩, by simp [FAct.goOf, hwi]⟩, by intro r hr; cases hr⟩
            · intro x hx
              rcases hg.val x hx with ⟨g1, g2⟩ | g
              · show P (m'.key x) (m'.val x)
                rw [g2, hg.key x g1]; exact hP x g1
              · exact g
            · intro hk
              obtain ⟨x, hx, e⟩ := hK hk
              obtain ⟨r, hr⟩ := hg.ext _ (Nat.mod_lt k.toNat hH)
              exact ⟨x, by rw [hr]; exact List.mem_append_left _ hx, by show m'.key x = k; rw [hg.key x (mem_nodes.mpr ⟨_, Nat.mod_lt _ hH, hx⟩)]; exact e⟩
            · intro pc hp
              rw [set_other _ _ hiw] at hp
              exact place_grow hH hg (hit pc hp)
      · obtain ⟨g1, g2⟩ := quiet_step (N := N) (H := H) (m := s.mem) (hq j pc e hpc)
        rw [store_none g1]
        have hquiet : ∀ j' pc', j' ≠ w → (s.set j (some (pc.step N H s.mem).2)).pc j' = some pc' → Quiet pc' := by
          intro j' pc' hj' hp
          by_cases e : j' = j
          · subst e; rw [set_self] at hp; cases hp; exact g2
          · rw [set_other _ _ e] at hp; exact hq j' pc' hj' hp
        have hown' : ((s.set j (some (pc.step N H s.mem).2)).pc w = none ∧ ∃ f fr l, Rep N H s.mem f fr 0 l) ∨
            ∃ pc' l o, (s.set j (some (pc.step N H s.mem).2)).pc w = some pc' ∧ Within N H s.mem pc' l o ∧ Adds P o := by
          rw [set_other _ _ (fun h => e h.symm)]; exact hown
        by_cases hji : j = i
        · subst hji
          obtain ⟨p1, p2⟩ := place_step hN hH hsh hP hK (hit pc hpc) hr
          refine ⟨⟨n - 1, ⟨hquiet, hown', f, hsh, hP, hK, ?_⟩, by simp [FAct.goOf]; omega⟩, by intro r hr; cases hr⟩
          intro pc' hp
          rw [set_self] at hp; cases hp
          exact p2
        · have hij : i ≠ j := fun e => hji e.symm
          exact ⟨⟨n, ⟨hquiet, hown', f, hsh, hP, hK, fun pc hp => hit pc (by rw [set_other _ _ hij] at hp; exact hp)⟩, by simp [FAct.goOf, hji]⟩, by intro r hr; cases hr⟩

theorem rinv_exec (hN : N < NONE) (hH : 0 < H) {P : UInt64 → V → Prop} {k : UInt64} {K : Prop} {w i : Nat} (hiw : i ≠ w) : ∀ (xs : List (FAct V)) {n : Nat} {s s' : FSys V} {es : List (FEvent V)},
    RInv N H P k K w i n s → OneWriter w xs → (∀ u, .call w u ∈ xs → Adds P u.op) → (∀ u, .call i u ∉ xs) → exec N H s xs = some (s', es) →
    (∃ n', RInv N H P k K w i n' s' ∧ n' + xs.countP (FAct.goOf i) ≤ n) ∧ ∀ r, .ret i r ∈ es → Good P k K r := by
  intro xs
  induction xs with
  | nil => intro n s s' es h _ _ _ he; cases he; exact ⟨⟨n, h, by simp⟩, by intro l hl; cases hl⟩
  | cons x xs ih =>
    intro n s s' es h hc ha hb he
    obtain ⟨s1, es1, es2, hs, hx, rfl⟩ := exec_cons he
    obtain ⟨⟨n1, h1, hn1⟩, hl1⟩ := rinv_step hN hH hiw h (fun j u e hj => hc j u (by rw [e]; simp) hj) (fun u e => ha u (by rw [e]; simp)) (fun u e => hb u (by rw [e]; simp)) hs
    obtain ⟨⟨n2, h2, hn2⟩, hl2⟩ := ih h1 (fun j u hm hj => hc j u (List.mem_cons_of_mem _ hm) hj) (fun u hm => ha u (List.mem_cons_of_mem _ hm))
      (fun u hm => hb u (List.mem_cons_of_mem _ hm)) hx
    refine ⟨⟨n2, h2, ?_⟩, ?_⟩
    · rw [List.countP_cons]; omega
    · intro l hl
      rcases List.mem_append.mp hl with hl | hl
      · exact hl1 l hl
      · exact hl2 l hl

/-- **C186, the others.** One process `w` inserts, erases and reads without any lock, all others only read without the lock.  Process `i` calls `unprotected_read(k, out)`; the call of `w`
in progress at this instant, if any, and its later calls are no `unprotected_erase`.  `l0` is what the finite map contains after the calls of `w` that had returned by then.  Then, in every
interleaving, the read never leaves the segment, it returns after at most `2 * capacity + 3` steps of its own whatever the others do, it returns false only if the key is not in `l0`, and
if it returns true then the value is that of the key in `l0` or one that `w` inserts under the key in the call in progress or later.
Missing: erasing during the read (`C182_refuted`, `C182_refuted_value` apply here as well). -/
theorem C186_readers_partial (hN : N < 2 ^ 31) (hH : 0 < H) (w i : Nat) (hiw : i ≠ w) (s0 s s' : FSys V) (h : Start H s0) (xs ys : List (FAct V)) (hw : OneWriter w (xs ++ ys))
    (es0 es : List (FEvent V)) (he0 : exec N H s0 xs = some (s, es0)) (k : UInt64) (he : exec N H s (.call i (.read k) :: ys) = some (s', es)) (hno : ∀ u, .call i u ∉ ys)
    (hpend : ∀ k', .erase k' ∉ inProgress w es0) (hcall : ∀ k', .call w (.erase k') ∉ ys) :
    s'.pc i ≠ some .ub ∧ ys.countP (FAct.goOf i) ≤ 2 * N + 3 ∧
    ∀ r, .ret i r ∈ es → (r = .val none ∧ ∀ v, (k, v) ∉ (ShmMap.Spec.run N [] (completed w es0)).1) ∨
      ∃ v, r = .val (some v) ∧ ((k, v) ∈ (ShmMap.Spec.run N [] (completed w es0)).1 ∨ .insert k v ∈ inProgress w es0 ∨ .call w (.insert k v) ∈ ys) := by
  have hN' : N < NONE := by unfold NONE; omega
  have hfi := finv_exec hN' hH xs (finv_start h) (fun j u hm hj => hw j u (List.mem_append_left _ hm) hj) he0
  have hown := hfi.own
  simp only [List.nil_append] at hown
  obtain ⟨_, hcase⟩ := own_split hown
  generalize hl0 : (ShmMap.Spec.run N [] (completed w es0)).1 = l0 at hcase ⊢
  obtain ⟨s1, es1, es2, hs, hx, rfl⟩ := exec_cons he
  obtain ⟨hn, rfl, rfl⟩ := call_step hs
  let P : UInt64 → V → Prop := fun k v => (k, v) ∈ l0 ∨ .insert k v ∈ inProgress w es0 ∨ .call w (.insert k v) ∈ ys
  have hrep : ∃ f fr lk l, Rep N H s.mem f fr lk l ∧ (∃ pre, l.map (·.1) = pre ++ l0.map (·.1)) ∧ ∀ k v, (k, v) ∈ l → P k v := by
    rcases hcase with ⟨_, _, f, fr, hr⟩ | ⟨pc, o, _, hin, hwi⟩
    · exact ⟨f, fr, 0, l0, hr, ⟨[], by simp⟩, fun k v hk => Or.inl hk⟩
    · have hadd : Adds (fun _ _ => True) o := by
        obtain ⟨u, hu⟩ := inProgress_op (w := w) (es := es0) (o := o) (by rw [hin]; simp)
        subst hu
        cases u with
        | read k => trivial
        | insert k v => trivial
        | erase k' => exact absurd (show Op.erase k' ∈ inProgress w es0 by rw [hin]; simp [Unprot.op]) (hpend k')
      obtain ⟨f, fr, lk, l', hr, hm⟩ := within_rep hN' hH hwi hadd
      refine ⟨f, fr, lk, l', hr, hm.1, fun k v hk => ?_⟩
      rcases hm.2 k v hk with g | g
      · exact Or.inl g
      · exact Or.inr (Or.inl (by rw [hin]; exact g))
  obtain ⟨f, fr, lk, l, hr, ⟨pre, hpre⟩, hlP⟩ := hrep
  have hinv : RInv N H P k (k ∈ l0.map (·.1)) w i (2 * N + 3) (s.set i (some (start (Unprot.read k).op))) := by
    refine ⟨?_, ?_, f, shape_rep hr, ?_, ?_, ?_⟩
    · intro j pc hj hp
      by_cases e : j = i
      · subst e; rw [set_self] at hp; cases hp; trivial
      · rw [set_other _ _ e] at hp; exact hfi.quiet j pc hj hp
    · rw [set_other _ _ (fun e => hiw e.symm)]
      rcases hcase with ⟨h1, _, f, fr, hr⟩ | ⟨pc, o, h1, hin, hwi⟩
      · exact Or.inl ⟨h1, f, fr, l0, hr⟩
      · refine Or.inr ⟨pc, l0, o, h1, hwi, ?_⟩
        obtain ⟨u, rfl⟩ := inProgress_op (w := w) (es := es0) (o := o) (by rw [hin]; simp)
        cases u with
        | read k => trivial
        | insert k' v => exact Or.inr (Or.inl (by rw [hin]; simp [Unprot.op]))
        | erase k' => exact absurd (show Op.erase k' ∈ inProgress w es0 by rw [hin]; simp [Unprot.op]) (hpend k')
    · intro x hxn
      exact hlP _ _ (hr.abs.mem_iff.mpr (List.mem_map.mpr ⟨x, hxn, rfl⟩))
    · intro hk
      exact (hr.has_iff hH k).mp (by unfold ShmMap.Spec.has; rw [hpre]; exact List.mem_append_right _ hk)
    · intro pc hp
      rw [set_self] at hp; cases hp
      exact ⟨rfl, Nat.le_refl _⟩
  obtain ⟨⟨n', h1, h2⟩, h3⟩ := rinv_exec hN' hH hiw ys hinv (fun j u hm hj => hw j u (List.mem_append_right _ hm) hj)
    (by
      intro u hm
      cases u with
      | read k => trivial
      | insert k' v => exact Or.inr (Or.inr hm)
      | erase k' => exact absurd hm (hcall k')) hno hx
  refine ⟨?_, by omega, ?_⟩
  · intro hub
    obtain ⟨f', _, _, _, g⟩ := h1.mem
    exact (g _ hub).elim
  · intro r hl
    have hl : .ret i r ∈ es2 := by simpa using hl
    have g := h3 r hl
    cases r with
    | val v =>
      cases v with
      | none => exact Or.inl ⟨rfl, fun v hv => g (List.mem_map.mpr ⟨_, hv, rfl⟩)⟩
      | some v => exact Or.inr ⟨v, rfl, g⟩
    | _ => exact g.elim

/-! ## Nobody leaves the segment -/

/-- Every index that is stored anywhere is one of a node, or none. -/
structure SInv (N H w : Nat) (s : FSys V) : Prop where
  tidy : Tidy N H s.mem
  has : ∀ pc, s.pc w = some pc → Has N pc
  others : ∀ j pc, j ≠ w → s.pc j = some pc → Reading N pc

theorem reading_quiet {pc : Pc V} (h : Reading N pc) : Quiet pc := by
  cases pc with
  | rdHash k => trivial
  | rdLoop k e => trivial
  | rdVal e => trivial
  | rdNext k e => trivial
  | ret r => trivial
  | _ => exact h.elim

theorem sinv_step (hH : 0 < H) {w : Nat} {s s' : FSys V} {x : FAct V} {es : List (FEvent V)} (h : SInv N H w s) (hc : ∀ j u, x = .call j u → j ≠ w → ∃ k, u = .read k)
    (hs : step N H s x = some (s', es)) : SInv N H w s' ∧ ∀ j r, j ≠ w → .ret j r ∈ es → ∃ v, r = .val v := by
  have upd : ∀ (m : Map V) (j : Nat) (t : Option (Pc V)), Tidy N H m → (∀ pc, t = some pc → (j = w → Has N pc) ∧ (j ≠ w → Reading N pc)) → SInv N H w (({ s with mem := m } : FSys V).set j t) := by
    intro m j t hm ht
    refine ⟨hm, ?_, ?_⟩
    · intro pc hp
      by_cases e : w = j
      · subst e; rw [set_self] at hp; exact (ht pc hp).1 rfl
      · rw [set_other _ _ e] at hp; exact h.has pc hp
    · intro j' pc hj' hp
      by_cases e : j' = j
      · subst e; rw [set_self] at hp; exact (ht pc hp).2 hj'
      · rw [set_other _ _ e] at hp; exact h.others j' pc hj' hp
  cases x with
  | call j u =>
    obtain ⟨hn, rfl, rfl⟩ := call_step hs
    refine ⟨upd s.mem j _ h.tidy ?_, by intro j r _ hr; simp at hr⟩
    intro pc e
    cases e
    refine ⟨fun _ => start_has _, fun hj => ?_⟩
    obtain ⟨k, rfl⟩ := hc j u rfl hj
    trivial
  | go j =>
    obtain ⟨pc, hpc, ⟨r, rfl, rfl, rfl⟩ | ⟨hr, rfl, rfl⟩⟩ := go_step hs
    · refine ⟨upd s.mem j none h.tidy (fun pc e => (by cases e)), ?_⟩
      intro j' r' hj' hm
      simp only [List.mem_singleton, FEvent.ret.injEq] at hm
      obtain ⟨rfl, rfl⟩ := hm
      have := h.others j' _ hj' hpc
      cases r' with
      | val v => exact ⟨v, rfl⟩
      | _ => exact this.elim
    · refine ⟨?_, by intro j r _ hr; cases hr⟩
      by_cases e : j = w
      · subst e
        obtain ⟨g1, g2⟩ := has_step h.tidy (h.has pc hpc)
        cases hst : (pc.step N H s.mem).1 with
        | none =>
          rw [store_none hst]
          exact upd s.mem j _ h.tidy (fun pc' e' => (by cases e'; exact ⟨fun _ => g2, fun hj => absurd rfl hj⟩))
        | some a =>
          cases ha : a.apply N H s.mem with
          | ok m =>
            rw [store_ok hst ha]
            exact upd m j _ (tidy_apply h.tidy (g1 a hst) ha) (fun pc' e' => (by cases e'; exact ⟨fun _ => g2, fun hj => absurd rfl hj⟩))
          | ub =>
            have : s.store N H j (pc.step N H s.mem) = s.set j (some .ub) := by
              generalize pc.step N H s.mem = q at hst
              obtain ⟨a', b⟩ := q
              cases hst
              simp only [FSys.store, ha]
            rw [this]
            exact upd s.mem j _ h.tidy (fun pc' e' => (by cases e'; exact ⟨fun _ => trivial, fun hj => absurd rfl hj⟩))
      · have hrd := h.others j pc e hpc
        rw [store_none (quiet_step (reading_quiet hrd)).1]
        exact upd s.mem j _ h.tidy (fun pc' e' => (by cases e'; exact ⟨fun hj => absurd hj e, fun _ => reading_step hH h.tidy hrd⟩))

/-- **C186, no access outside of the segment.** One process inserts, erases and reads without any lock, all others only read without the lock; the segment was zeroed by the system before
it was initialised.  Then no call ever accesses memory outside of the segment, whatever is inserted and erased meanwhile, and a read that returns says true or false. -/
theorem C186_bounds_partial (hN : 0 < N) (hN2 : N < 2 ^ 31) (hH : 0 < H) (w : Nat) (s s' : FSys V) (h : Start H s) (hz : Zeroed s.mem) (xs : List (FAct V)) (hw : OneWriter w xs)
    (es : List (FEvent V)) (he : exec N H s xs = some (s', es)) : (∀ i, s'.pc i ≠ some .ub) ∧ ∀ j r, j ≠ w → .ret j r ∈ es → ∃ v, r = .val v := by
  have gen : ∀ (xs : List (FAct V)) (s s' : FSys V) (es : List (FEvent V)), OneWriter w xs → SInv N H w s → exec N H s xs = some (s', es) →
      SInv N H w s' ∧ ∀ j r, j ≠ w → .ret j r ∈ es → ∃ v, r = .val v := by
    intro xs
    induction xs with
    | nil => intro s s' es _ h he; cases he; exact ⟨h, by intro j r _ hr; cases hr⟩
    | cons x xs ih =>
      intro s s' es hw h he
      obtain ⟨s1, es1, es2, hs, hx, rfl⟩ := exec_cons he
      obtain ⟨h1, h2⟩ := sinv_step hH h (fun j u e hj => hw j u (by rw [e]; simp) hj) hs
      obtain ⟨h3, h4⟩ := ih s1 s' es2 (fun j u hm hj => hw j u (List.mem_cons_of_mem _ hm) hj) h1 hx
      refine ⟨h3, ?_⟩
      intro j r hj hr
      rcases List.mem_append.mp hr with g | g
      · exact h2 j r hj g
      · exact h4 j r hj g
  have h0 : SInv N H w s := by
    refine ⟨⟨fun b hb => Or.inl (h.1.2.2 b hb), fun e => Or.inr (by rw [hz.1]; exact hN), fun t => Or.inr (by rw [hz.2]; exact hN)⟩, ?_, ?_⟩
    · intro pc hp; rw [h.2 w] at hp; cases hp
    · intro j pc _ hp; rw [h.2 j] at hp; cases hp
  obtain ⟨h1, h2⟩ := gen xs s s' es hw h0 he
  refine ⟨?_, h2⟩
  intro i hi
  by_cases e : i = w
  · subst e
    exact (C186_writer_partial hN2 hH i s s' h xs hw es he).2 hi
  · exact (h1.others i _ e hi).elim

/-! ## Two processes that store -/

/-- A fresh map. -/
def f0 : FSys Nat := ⟨⟨⟨0, ⟨NONE, fun _ => 0⟩⟩, fun _ => 0, fun _ => 0, fun _ => 0, fun _ => NONE⟩, fun _ => none⟩

theorem f0_start (H : Nat) : Start H f0 := ⟨⟨rfl, rfl, fun _ _ => rfl⟩, fun _ => rfl⟩

theorem f0_zeroed : Zeroed f0.mem := ⟨fun _ => rfl, fun _ => rfl⟩

/-- `n` steps of process `i`. -/
def goes (n i : Nat) : List (FAct Nat) := List.replicate n (.go i)

/-- Everything that returned. -/
def answers : List (FEvent V) → List (Nat × Ret V)
  | [] => []
  | .call _ _ :: es => answers es
  | .ret i r :: es => (i, r) :: answers es

/-- Process 0 inserts key 4 and process 1 inserts key 6, of the same bucket; both have seen that the bucket is empty before one of them stores.  Then process 2 reads both keys. -/
def lose : List (FAct Nat) := [.call 0 (.insert 4 40), .go 0, .call 1 (.insert 6 60), .go 1] ++ goes 9 0 ++ goes 9 1 ++ [.call 2 (.read 4)] ++ goes 5 2 ++ [.call 2 (.read 6)] ++ goes 4 2

/-- **C186 is false with two processes that insert: an entry is lost.** Both calls return true and nobody erases anything, but key 4 is not in the map. -/
theorem C186_refuted : (exec 4 2 f0 lose).map (fun q => answers q.2) = some [(0, .bool true), (1, .bool true), (2, .val none), (2, .val (some 60))] := by decide +kernel

/-- Process 0 inserts key 4 and process 1 inserts key 7, of different buckets; both have read the counter of the pool before one of them increments it, so both get the same node.  The key
of process 1 is stored last, but the value of process 0. -/
def mixed : List (FAct Nat) :=
  [.call 0 (.insert 4 40), .call 1 (.insert 7 70)] ++ goes 3 0 ++ goes 3 1 ++ goes 3 0 ++ goes 4 1 ++ goes 4 0 ++ goes 3 1 ++ [.call 2 (.read 7)] ++ goes 4 2

/-- **C186 is false with two processes that insert: a value of another key.** Key 7 is read with the value 40, which nobody ever inserts under this key. -/
theorem C186_refuted_value : (exec 4 2 f0 mixed).map (fun q => answers q.2) = some [(0, .bool true), (1, .bool true), (2, .val (some 40))] := by decide +kernel

/-- Process 0 has inserted keys 4 and 6, of the same bucket; process 1 reads key 6 and has seen that the first entry has another key; then process 0 erases key 4. -/
def hide : List (FAct Nat) :=
  [.call 0 (.insert 4 40)] ++ goes 10 0 ++ [.call 0 (.insert 6 60)] ++ goes 12 0 ++ [.call 1 (.read 6)] ++ goes 2 1 ++ [.call 0 (.erase 4)] ++ goes 9 0 ++ goes 3 1

/-- **C186 is false for the others when the process erases.** Key 6 is inserted before the call of process 1 begins and never erased, and the call returns false. -/
theorem C186_refuted_erase : (exec 4 2 f0 hide).map (fun q => answers q.2) = some [(0, .bool true), (0, .bool true), (0, .bool true), (1, .val none)] := by decide +kernel

theorem oneWriter_of {xs : List (FAct Nat)} {w : Nat} (h : xs.all (fun | .call j (.read _) => true | .call j _ => j == w | _ => true) = true) : OneWriter w xs := by
  intro j u hm hj
  have := List.all_eq_true.mp h _ hm
  cases u with
  | read k => exact ⟨k, rfl⟩
  | insert k v => simp at this; exact absurd this hj
  | erase k => simp at this; exact absurd this hj

/-- `C186_writer_partial` and `C186_bounds_partial` are about this execution, among others: three calls have returned. -/
example : ∃ s' es, exec 4 2 f0 hide = some (s', es) ∧ Start 2 f0 ∧ Zeroed f0.mem ∧ OneWriter 0 hide ∧ completed 0 es = [.insert 4 40, .insert 6 60, .erase 4] := by
  have hy : (exec 4 2 f0 hide).map (fun q => decide (completed 0 q.2 = [.insert 4 40, .insert 6 60, .erase 4])) = some true := by decide +kernel
  obtain ⟨⟨s', es⟩, e, hm⟩ := map_some' hy
  exact ⟨s', es, e, f0_start 2, f0_zeroed, oneWriter_of (by decide +kernel), of_decide_eq_true hm.symm⟩

/-- Process 0 has inserted key 4 and is inserting key 8 of the same bucket. -/
def early : List (FAct Nat) := [.call 0 (.insert 4 40)] ++ goes 10 0 ++ [.call 0 (.insert 8 80)] ++ goes 4 0

/-- Process 1 reads while process 0 goes on. -/
def later (n k : Nat) : List (FAct Nat) := goes 2 1 ++ goes n 0 ++ goes k 1

/-- `C186_readers_partial` applies: a read of key 8 finds it, if the call in progress comes far enough, and the map had key 4 only. -/
example : ∃ s es0 s' es, exec 4 2 f0 early = some (s, es0) ∧ exec 4 2 s (.call 1 (.read 8) :: later 8 4) = some (s', es) ∧ OneWriter 0 (early ++ later 8 4) ∧
    (∀ u, .call 1 u ∉ later 8 4) ∧ completed 0 es0 = [.insert 4 40] ∧ inProgress 0 es0 = [.insert 8 80] ∧ answers es = [(0, .bool true), (1, .val (some 80))] := by
  have hy : (exec 4 2 f0 early).bind (fun q => (exec 4 2 q.1 (.call 1 (.read 8) :: later 8 4)).map (fun t => (completed 0 q.2, inProgress 0 q.2, answers t.2))) =
      some ([.insert 4 40], [.insert 8 80], [(0, .bool true), (1, .val (some 80))]) := by decide +kernel
  cases h1 : exec 4 2 f0 early with
  | none => rw [h1] at hy; cases hy
  | some q =>
    obtain ⟨s, es0⟩ := q
    rw [h1] at hy
    cases h2 : exec 4 2 s (.call 1 (.read 8) :: later 8 4) with
    | none => simp [h2] at hy
    | some t =>
      obtain ⟨s', es⟩ := t
      simp only [h2, Option.bind_some, Option.map_some, Option.some.injEq, Prod.mk.injEq] at hy
      refine ⟨s, es0, s', es, rfl, h2, oneWriter_of (by decide +kernel), ?_, hy.1, hy.2.1, hy.2.2⟩
      intro u hu
      have : (later 8 4).all (fun | .go _ => true | _ => false) = true := by decide +kernel
      have := List.all_eq_true.mp this _ hu
      cases this

end Verif.MapFree
