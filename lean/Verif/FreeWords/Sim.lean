import Verif.FreeWords.Lemmas
/-
  Every execution of Verif.FreeWords is, for each word, an execution of Verif.MapFree.
-/
set_option linter.unusedVariables false
set_option linter.unusedSimpArgs false

namespace Verif.FreeWords

open Verif.ShmPool Verif.ShmMap Verif.MapSys Verif.MapTorn
open Verif.MapFree (FAct FEvent FSys callsOf retsOf completed inProgress)
open Verif.MapWords (target source)

variable {W : Type} {n : Nat} {N H : Nat}

theorem call_step {ord : List (Fin n)} {b : Val n W} {s s' : FSysW n W} {i : Nat} {u : Unprot (Val n W)} {es : List (FEvent (Val n W))} (h : step N H ord b s (.call i u) = some (s', es)) :
    s.pc i = none ∧ s' = s.set i (some ⟨start u.op, 0, b⟩) ∧ es = [.call i u] := by
  simp only [step] at h
  split at h
  · cases h; exact ⟨by assumption, rfl, rfl⟩
  · cases h

theorem go_step {ord : List (Fin n)} {b : Val n W} {s s' : FSysW n W} {i : Nat} {es : List (FEvent (Val n W))} (h : step N H ord b s (.go i) = some (s', es)) :
    ∃ c, s.pc i = some c ∧ ((∃ r, c.pc = .ret r ∧ s' = s.set i none ∧ es = [.ret i r]) ∨ ((∀ r, c.pc ≠ .ret r) ∧ s' = s.go N H ord i c ∧ es = [])) := by
  simp only [step] at h
  split at h
  · cases h
  · rename_i r g bf hr
    cases h
    exact ⟨⟨.ret r, g, bf⟩, hr, Or.inl ⟨r, rfl, rfl, rfl⟩⟩
  · rename_i c hpc hr
    cases h
    exact ⟨c, hr, Or.inr ⟨fun r e => hpc r c.g c.buf (by rw [← e]), rfl, rfl⟩⟩

theorem pCur_ret {j : Fin n} {p : Nat} {c : Cur n W} {r : Ret (Val n W)} (h : c.pc = .ret r) : pCur j p c = .ret (pRet j r) := by
  unfold pCur; rw [h]; rfl

/-- A step of a process that is in a call: a step of word `j`, or none. -/
def Sim (N H : Nat) (j : Fin n) (p L i : Nat) (s s' : FSysW n W) (t : FSys W) : Prop :=
  (Rel N L j p s' t ∧ extraOf L p s' i + 1 ≤ extraOf L p s i) ∨
  ∃ t', MapFree.step N H t (.go i) = some (t', []) ∧ Rel N L j p s' t' ∧ extraOf L p s' i ≤ extraOf L p s i

theorem free_go {t : FSys W} {i : Nat} {pc : Pc W} (h : t.pc i = some pc) (hr : ∀ r, pc ≠ .ret r) : MapFree.step N H t (.go i) = some (t.store N H i (pc.step N H t.mem), []) := by
  cases pc with
  | ret r => exact absurd rfl (hr r)
  | _ => simp only [MapFree.step, h]

theorem plain_sim {j : Fin n} {p L i : Nat} {s : FSysW n W} {t : FSys W} (R : Rel N L j p s t) {c : Cur n W} (hc : s.pc i = some c) (h1 : target c.pc = none) (h2 : source c.pc = none)
    (hr : ∀ r, c.pc ≠ .ret r) : Sim N H j p L i s (s.store N H i c (c.pc.step N H s.mem)) t := by
  have ht : t.pc i = some (pPc j c.pc) := by rw [R.pc i, hc, Option.map_some, pCur_plain h1 h2]
  have hr' : ∀ r, pPc j c.pc ≠ .ret r := by
    intro r e
    have : ∃ r', c.pc = .ret r' := by
      generalize c.pc = pc at e
      cases pc with
      | ret r' => exact ⟨r', rfl⟩
      | _ => cases e
    obtain ⟨r', e'⟩ := this
    exact hr r' e'
  have hex : ∀ pc', pc' = (c.pc.step N H s.mem).2 ∨ pc' = .ub → extra L p ⟨pc', 0, c.buf⟩ ≤ extra L p c := by
    rintro pc' (rfl | rfl)
    · exact extra_plain h1 h2 hr
    · exact Nat.zero_le _
  refine Or.inr ⟨_, free_go ht hr', ?_⟩
  rw [R.mem, pPc_step]
  have he := hex _ (Or.inl rfl)
  have heu := hex _ (Or.inr rfl)
  generalize c.pc.step N H s.mem = q at he ⊢
  obtain ⟨w, pc'⟩ := q
  have fin : ∀ (m : Map (Val n W)) (pc' : Pc (Val n W)) (t' : FSys W), extra L p ⟨pc', 0, c.buf⟩ ≤ extra L p c → t'.mem = pMap j m → t'.pc i = some (pPc j pc') → (∀ i', i' ≠ i → t'.pc i' = t.pc i') →
      Rel N L j p (({ s with mem := m } : FSysW n W).set i (some { c with pc := pc', g := 0 })) t' ∧
      extraOf L p (({ s with mem := m } : FSysW n W).set i (some { c with pc := pc', g := 0 })) i ≤ extraOf L p s i := by
    intro m pc' t' he hm hi ho
    refine ⟨rel_set R m i _ (by rintro c' e; cases e; exact ⟨Nat.zero_le _, Or.inl rfl⟩) hm ?_ ho, ?_⟩
    · rw [hi, Option.map_some, pCur_zero]
    · simp only [extraOf, set_self, hc]; exact he
  cases w with
  | none => exact fin s.mem pc' _ he R.mem (MapFree.set_self _ _ _) (fun i' hi' => MapFree.set_other _ _ hi')
  | some w =>
    simp only [Option.map_some]
    cases hw : w.apply N H s.mem with
    | ok m =>
      have := pWr_ok (j := j) hw
      simp only [FSys.store, FSysW.store, hw, R.mem, this, MapFree.FSys.store]
      exact fin m pc' _ he rfl (MapFree.set_self _ _ _) (fun i' hi' => MapFree.set_other _ _ hi')
    | ub =>
      have := pWr_ub (j := j) hw
      simp only [FSys.store, FSysW.store, hw, R.mem, this, MapFree.FSys.store]
      exact fin s.mem .ub _ heu R.mem (MapFree.set_self _ _ _) (fun i' hi' => MapFree.set_other _ _ hi')

theorem out_sim {j : Fin n} {p i : Nat} {ord : List (Fin n)} (hn : ord.Nodup) (hp : ord[p]? = some j) {s : FSysW n W} {t : FSys W} (R : Rel N ord.length j p s t) {c : Cur n W} {e : Nat}
    (hc : s.pc i = some c) (he : c.pc = .rdVal e) : Sim N H j p ord.length i s (s.copyOut ord i c e) t := by
  have hpl : p < ord.length := (List.getElem?_eq_some_iff.mp hp).1
  have hti : t.pc i = some (pCur j p c) := by rw [R.pc i, hc, Option.map_some]
  unfold FSysW.copyOut
  split
  · rename_i j' hj'
    have hgl : c.g < ord.length := (List.getElem?_eq_some_iff.mp hj').1
    by_cases hg : c.g = p
    · have hjj : j' = j := by rw [hg, hp] at hj'; cases hj'; rfl
      subst hjj
      have ht : t.pc i = some (.rdVal e) := by rw [hti, pCur, he]; simp [hg]
      refine Or.inr ⟨_, free_go ht (fun r h => by cases h), ?_, ?_⟩
      · refine rel_set R s.mem i _ (by rintro c' h; cases h; exact ⟨by show c.g + 1 ≤ _; omega, Or.inr (by rw [he]; trivial)⟩) R.mem ?_ (fun i' hi' => MapFree.set_other _ _ hi')
        rw [Option.map_some]
        simp only [Pc.step, MapFree.FSys.store, MapFree.set_self, pCur, he, setWord, R.mem, pMap]
        rw [if_neg (by omega)]; simp
      · simp only [extraOf, set_self, hc, extra, he]
        rw [if_neg (by omega), if_pos (by omega)]; omega
    · refine Or.inl ⟨?_, ?_⟩
      · refine rel_set R s.mem i _ (by rintro c' h; cases h; exact ⟨by show c.g + 1 ≤ _; omega, Or.inr (by rw [he]; trivial)⟩) R.mem ?_ (fun i' hi' => rfl)
        rw [hti, Option.map_some]
        congr 1
        simp only [pCur, he]
        have hne : j ≠ j' := by
          rintro rfl
          exact hg ((List.getElem?_inj hgl hn).mp (by rw [hj', hp]))
        by_cases hlt : c.g ≤ p
        · rw [if_pos hlt, if_pos (by omega)]
        · rw [if_neg hlt, if_neg (by omega)]
          simp only [setWord, if_neg hne]
      · simp only [extraOf, set_self, hc, extra, he]
        by_cases hlt : c.g ≤ p
        · rw [if_pos hlt, if_pos (by omega)]; omega
        · rw [if_neg hlt, if_neg (by omega)]; omega
  · rename_i hnone
    have hgl : ord.length ≤ c.g := List.getElem?_eq_none_iff.mp hnone
    have hgt : ¬ c.g ≤ p := by omega
    have hge := (R.ok i c hc).1
    · refine Or.inl ⟨?_, ?_⟩
      · refine rel_set R s.mem i _ (by rintro c' h; cases h; exact ⟨Nat.zero_le _, Or.inl rfl⟩) R.mem ?_ (fun i' hi' => rfl)
        rw [hti, Option.map_some]
        congr 1
        simp only [pCur, he, pPc, pRet, if_neg hgt, Option.map_some]
      · simp only [extraOf, set_self, hc, extra, he, if_neg hgt]; omega

theorem target_facts {pc : Pc (Val n W)} {e : Nat} {v : Val n W} (h : target pc = some (e, v)) (j : Fin n) (N H L p : Nat) :
    ∃ nx, (∀ m, pc.step N H m = (some (.val e v), nx)) ∧ (∀ g b, pCur j p ⟨pc, g, b⟩ = if g ≤ p then pPc j pc else pPc j nx) ∧ (∀ b, extra L p ⟨nx, 0, b⟩ = 0) ∧
      (∀ g b, extra L p ⟨pc, g, b⟩ = if g ≤ p then L - g else L + 1 - g) ∧ (∀ g b, CurOk N L ⟨pc, g, b⟩ ↔ g ≤ L ∧ (g = 0 ∨ e < N)) ∧ ∀ r, pPc j pc ≠ .ret r := by
  cases pc with
  | inVal v' e' => cases h; exact ⟨.ret (.bool true), fun _ => rfl, fun _ _ => rfl, fun _ => rfl, fun _ _ => rfl, fun _ _ => Iff.rfl, fun r h => by cases h⟩
  | nVal v' l x => cases h; exact ⟨.nNext l e, fun _ => rfl, fun _ _ => rfl, fun _ => rfl, fun _ _ => rfl, fun _ _ => Iff.rfl, fun r h => by cases h⟩
  | _ => cases h

theorem in_sim {j : Fin n} {p i : Nat} {ord : List (Fin n)} (hn : ord.Nodup) (hp : ord[p]? = some j) {s : FSysW n W} {t : FSys W} (R : Rel N ord.length j p s t) {c : Cur n W} {e : Nat}
    {v : Val n W} (hc : s.pc i = some c) (he : target c.pc = some (e, v)) : Sim N H j p ord.length i s (s.copyIn N H ord i c e v) t := by
  have hpl : p < ord.length := (List.getElem?_eq_some_iff.mp hp).1
  have hti : t.pc i = some (pCur j p c) := by rw [R.pc i, hc, Option.map_some]
  obtain ⟨pc, g, b⟩ := c
  obtain ⟨nx, f1, f2, f3, f4, f5, f6⟩ := target_facts he j N H ord.length p
  obtain ⟨hgL, hg0⟩ := (f5 g b).mp (R.ok i _ hc)
  rw [f2] at hti
  unfold FSysW.copyIn
  dsimp only
  split
  · rename_i heN
    split
    · rename_i j' hj'
      have hgl : g < ord.length := (List.getElem?_eq_some_iff.mp hj').1
      by_cases hg : g = p
      · have hjj : j' = j := by rw [hg, hp] at hj'; cases hj'; rfl
        subst hjj
        rw [if_pos (by omega)] at hti
        have hst : (pPc j' pc).step N H t.mem = (some (.val e (v j')), pPc j' nx) := by rw [R.mem, pPc_step, f1]; rfl
        refine Or.inr ⟨_, free_go hti f6, ?_, ?_⟩
        · rw [hst]
          simp only [MapFree.FSys.store, Wr.apply, if_pos heN]
          refine rel_set R _ i _ (by rintro c' h; cases h; exact (f5 _ _).mpr ⟨by omega, Or.inr heN⟩) ?_ ?_ (fun i' hi' => MapFree.set_other _ _ hi')
          · show ({ t.mem with val := put t.mem.val e (v j') } : Map W) = _
            rw [R.mem]
            simp only [pMap]
            congr 1
            funext x
            simp only [put, setWord]
            split
            · simp [setWord]
            · rfl
          · rw [MapFree.set_self, Option.map_some, f2, if_neg (by omega)]
        · simp only [extraOf, set_self, hc, f4]
          rw [if_neg (by omega), if_pos (by omega)]; omega
      · have hne : j ≠ j' := by
          rintro rfl
          exact hg ((List.getElem?_inj hgl hn).mp (by rw [hj', hp]))
        refine Or.inl ⟨?_, ?_⟩
        · refine rel_set R _ i _ (by rintro c' h; cases h; exact (f5 _ _).mpr ⟨by omega, Or.inr heN⟩) ?_ ?_ (fun i' hi' => rfl)
          · rw [R.mem]
            simp only [pMap]
            congr 1
            funext x
            simp only [put]
            split
            · rename_i hx; rw [hx]; simp only [setWord, if_neg hne]
            · rfl
          · rw [hti, Option.map_some, f2]
            by_cases hlt : g ≤ p
            · rw [if_pos hlt, if_pos (by omega)]
            · rw [if_neg hlt, if_neg (by omega)]
        · simp only [extraOf, set_self, hc, f4]
          by_cases hlt : g ≤ p
          · rw [if_pos hlt, if_pos (by omega)]; omega
          · rw [if_neg hlt, if_neg (by omega)]; omega
    · rename_i hnone
      have hgl : ord.length ≤ g := List.getElem?_eq_none_iff.mp hnone
      have hgt : ¬ g ≤ p := by omega
      refine Or.inl ⟨?_, ?_⟩
      · refine rel_set R s.mem i _ (by rintro c' h; cases h; exact ⟨Nat.zero_le _, Or.inl rfl⟩) R.mem ?_ (fun i' hi' => rfl)
        rw [hti, Option.map_some, pCur_zero, if_neg hgt, f1]
      · simp only [extraOf, set_self, hc, f4, f1, f3, if_neg hgt]; omega
  · rename_i heN
    have hg : g = 0 := by
      rcases hg0 with h | h
      · exact h
      · exact absurd h heN
    rw [if_pos (by omega)] at hti
    have hst : (pPc j pc).step N H t.mem = (some (.val e (v j)), pPc j nx) := by rw [R.mem, pPc_step, f1]; rfl
    refine Or.inr ⟨_, free_go hti f6, ?_, ?_⟩
    · rw [hst]
      simp only [MapFree.FSys.store, Wr.apply, if_neg heN]
      refine rel_set R s.mem i _ (by rintro c' h; cases h; exact ⟨Nat.zero_le _, Or.inl rfl⟩) R.mem ?_ (fun i' hi' => MapFree.set_other _ _ hi')
      rw [MapFree.set_self, Option.map_some, pCur_zero]; rfl
    · simp only [extraOf, set_self, extra]; omega

theorem go_sim {j : Fin n} {p i : Nat} {ord : List (Fin n)} (hn : ord.Nodup) (hp : ord[p]? = some j) {s : FSysW n W} {t : FSys W} (R : Rel N ord.length j p s t) {c : Cur n W}
    (hc : s.pc i = some c) (hr : ∀ r, c.pc ≠ .ret r) : Sim N H j p ord.length i s (s.go N H ord i c) t := by
  unfold FSysW.go
  split
  · rename_i e v he; exact in_sim hn hp R hc he
  · rename_i e h1 h2
    refine out_sim hn hp R hc ?_
    generalize c.pc = pc at h2
    cases pc with
    | rdVal e' => cases h2; rfl
    | _ => cases h2
  · rename_i h1 h2; exact plain_sim R hc h1 h2 hr

theorem go_other {ord : List (Fin n)} {s : FSysW n W} {i i' : Nat} {c : Cur n W} (h : i' ≠ i) : (s.go N H ord i c).pc i' = s.pc i' := by
  unfold FSysW.go FSysW.copyIn FSysW.copyOut
  split
  · split
    · split <;> exact set_other _ _ h
    · exact set_other _ _ h
  · split <;> exact set_other _ _ h
  · generalize c.pc.step N H s.mem = q
    obtain ⟨w, pc⟩ := q
    cases w with
    | none => exact set_other _ _ h
    | some w =>
      simp only [FSysW.store]
      split <;> exact set_other _ _ h

/-- What happens, for word `j`. -/
theorem step_sim {j : Fin n} {p : Nat} {ord : List (Fin n)} (hn : ord.Nodup) (hp : ord[p]? = some j) {b : Val n W} {s s' : FSysW n W} {t : FSys W} {x : FAct (Val n W)}
    {es : List (FEvent (Val n W))} (R : Rel N ord.length j p s t) (hs : step N H ord b s x = some (s', es)) :
    ∃ ys t', MapFree.exec N H t ys = some (t', es.map (pEv j)) ∧ Rel N ord.length j p s' t' ∧ (∀ i u, .call i u ∈ ys ↔ ∃ u', x = .call i u' ∧ u = pUn j u') ∧
      ∀ i, (∀ u, x ≠ .call i u) → (if FAct.goOf i x then 1 else 0) + extraOf ord.length p s' i ≤ ys.countP (MapFree.FAct.goOf i) + extraOf ord.length p s i := by
  cases x with
  | call i u =>
    obtain ⟨h1, rfl, rfl⟩ := call_step hs
    have ht : t.pc i = none := by rw [R.pc i, h1]; rfl
    refine ⟨[.call i (pUn j u)], t.set i (some (start (pUn j u).op)), ?_, ?_, ?_, ?_⟩
    · simp only [MapFree.exec, MapFree.step, ht]; rfl
    · refine rel_set R s.mem i _ (by rintro c' h; cases h; exact ⟨Nat.zero_le _, Or.inl rfl⟩) R.mem ?_ (fun i' hi' => MapFree.set_other _ _ hi')
      rw [MapFree.set_self, Option.map_some, pCur_zero, pPc_start]
    · intro i' u'
      constructor
      · intro hm; simp only [List.mem_singleton, FAct.call.injEq] at hm; obtain ⟨rfl, rfl⟩ := hm; exact ⟨u, rfl, rfl⟩
      · rintro ⟨u'', h, rfl⟩; cases h; simp
    · intro i' hi'
      have : i' ≠ i := by rintro rfl; exact hi' u rfl
      simp only [extraOf, set_other _ _ this, MapFree.FAct.goOf]; simp
  | go i =>
    obtain ⟨c, hc, ⟨r, hr, rfl, rfl⟩ | ⟨hr, rfl, rfl⟩⟩ := go_step hs
    · have ht : t.pc i = some (.ret (pRet j r)) := by rw [R.pc i, hc, Option.map_some, pCur_ret hr]
      refine ⟨[.go i], t.set i none, ?_, ?_, ?_, ?_⟩
      · simp only [MapFree.exec, MapFree.step, ht]; rfl
      · refine rel_set R s.mem i _ (by rintro c' h; cases h) R.mem ?_ (fun i' hi' => MapFree.set_other _ _ hi')
        rw [MapFree.set_self]; rfl
      · intro i' u'
        constructor
        · intro hm; simp at hm
        · rintro ⟨u'', h, rfl⟩; cases h
      · intro i' _
        by_cases e : i' = i
        · subst e; simp [extraOf, set_self, MapFree.FAct.goOf]
        · have e' : ¬ i = i' := fun h => e h.symm
          simp [extraOf, set_other _ _ e, MapFree.FAct.goOf, e']
    · have hoth : ∀ i', i' ≠ i → extraOf ord.length p (s.go N H ord i c) i' = extraOf ord.length p s i' := by
        intro i' hi'; simp only [extraOf, go_other hi']
      rcases go_sim (H := H) hn hp R hc hr with ⟨R', hx⟩ | ⟨t', h1, R', hx⟩
      · refine ⟨[], t, rfl, R', ?_, ?_⟩
        · intro i' u'
          constructor
          · intro hm; cases hm
          · rintro ⟨u'', h, rfl⟩; cases h
        · intro i' _
          by_cases e : i' = i
          · subst e; simp [MapFree.FAct.goOf]; omega
          · have e' : ¬ i = i' := fun h => e h.symm
            simp [MapFree.FAct.goOf, e', hoth i' e]
      · refine ⟨[.go i], t', ?_, R', ?_, ?_⟩
        · simp only [MapFree.exec, h1]; rfl
        · intro i' u'
          constructor
          · intro hm; simp at hm
          · rintro ⟨u'', h, rfl⟩; cases h
        · intro i' _
          by_cases e : i' = i
          · subst e; simp [MapFree.FAct.goOf]; omega
          · have e' : ¬ i = i' := fun h => e h.symm
            simp [MapFree.FAct.goOf, e', hoth i' e]

theorem free_append {V : Type} : ∀ (xs ys : List (FAct V)) {s t u : FSys V} {es es' : List (FEvent V)}, MapFree.exec N H s xs = some (t, es) → MapFree.exec N H t ys = some (u, es') →
    MapFree.exec N H s (xs ++ ys) = some (u, es ++ es') := by
  intro xs
  induction xs with
  | nil => intro ys s t u es es' h1 h2; cases h1; exact h2
  | cons x xs ih =>
    intro ys s t u es es' h1 h2
    obtain ⟨s1, e1, e2, hs, hx, rfl⟩ := MapFree.exec_cons h1
    simp only [List.cons_append, MapFree.exec, hs, ih ys hx h2, List.append_assoc]

theorem exec_cons {ord : List (Fin n)} {b : Val n W} {s s' : FSysW n W} {x : FAct (Val n W)} {xs : List (FAct (Val n W))} {es : List (FEvent (Val n W))} (h : exec N H ord b s (x :: xs) = some (s', es)) :
    ∃ s1 es1 es2, step N H ord b s x = some (s1, es1) ∧ exec N H ord b s1 xs = some (s', es2) ∧ es = es1 ++ es2 := by
  simp only [exec] at h
  cases hs : step N H ord b s x with
  | none => rw [hs] at h; cases h
  | some q =>
    obtain ⟨s1, es1⟩ := q
    rw [hs] at h
    simp only at h
    cases hx : exec N H ord b s1 xs with
    | none => rw [hx] at h; cases h
    | some q =>
      obtain ⟨s2, es2⟩ := q
      rw [hx] at h
      cases h
      exact ⟨s1, es1, es2, rfl, hx, rfl⟩

/-- The execution of word `j`. -/
theorem exec_sim {j : Fin n} {p : Nat} {ord : List (Fin n)} (hn : ord.Nodup) (hp : ord[p]? = some j) {b : Val n W} : ∀ (xs : List (FAct (Val n W))) {s s' : FSysW n W} {t : FSys W}
    {es : List (FEvent (Val n W))}, Rel N ord.length j p s t → exec N H ord b s xs = some (s', es) →
    ∃ ys t', MapFree.exec N H t ys = some (t', es.map (pEv j)) ∧ Rel N ord.length j p s' t' ∧ (∀ i u, .call i u ∈ ys ↔ ∃ u', .call i u' ∈ xs ∧ u = pUn j u') ∧
      ∀ i, (∀ u, .call i u ∉ xs) → xs.countP (MapFree.FAct.goOf i) + extraOf ord.length p s' i ≤ ys.countP (MapFree.FAct.goOf i) + extraOf ord.length p s i := by
  intro xs
  induction xs with
  | nil =>
    intro s s' t es R he
    cases he
    refine ⟨[], t, rfl, R, fun i u => ⟨fun h => (by cases h), fun ⟨_, h, _⟩ => (by cases h)⟩, fun i _ => by simp⟩
  | cons x xs ih =>
    intro s s' t es R he
    obtain ⟨s1, es1, es2, hs, hx, rfl⟩ := exec_cons he
    obtain ⟨y1, t1, h1, R1, c1, k1⟩ := step_sim hn hp R hs
    obtain ⟨y2, t2, h2, R2, c2, k2⟩ := ih R1 hx
    refine ⟨y1 ++ y2, t2, by rw [List.map_append]; exact free_append _ _ h1 h2, R2, ?_, ?_⟩
    · intro i u
      rw [List.mem_append, c1, c2]
      constructor
      · rintro (⟨u', h, e⟩ | ⟨u', h, e⟩)
        · exact ⟨u', by rw [h]; simp, e⟩
        · exact ⟨u', List.mem_cons_of_mem _ h, e⟩
      · rintro ⟨u', h, e⟩
        rcases List.mem_cons.mp h with h | h
        · exact Or.inl ⟨u', h.symm, e⟩
        · exact Or.inr ⟨u', h, e⟩
    · intro i hi
      have a1 := k1 i (fun u e => hi u (by rw [e]; simp))
      have a2 := k2 i (fun u hm => hi u (List.mem_cons_of_mem _ hm))
      rw [List.countP_cons, List.countP_append]
      omega

theorem rel_start {j : Fin n} {p L : Nat} {s : FSysW n W} (h : Start H s) : Rel N L j p s ⟨pMap j s.mem, fun _ => none⟩ ∧ MapFree.Start H (⟨pMap j s.mem, fun _ => none⟩ : FSys W) :=
  ⟨⟨rfl, fun i => by rw [h.2 i]; rfl, fun i c hc => by rw [h.2 i] at hc; cases hc⟩, ⟨h.1.1, h.1.2.1, h.1.2.2⟩, fun _ => rfl⟩

end Verif.FreeWords
