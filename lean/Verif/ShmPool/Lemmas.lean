import Verif.ShmPool.Spec

set_option linter.unusedSimpArgs false
set_option linter.unusedVariables false

namespace Verif.ShmPool

/-- the stack holds `l`, top first -/
structure SRep {T} (N : Nat) (s : Stk T) (l : List T) : Prop where
  used : used s = l.length
  le : l.length ≤ N
  top : l ≠ [] → s.top = l.length - 1
  data : ∀ i, i < l.length → l.reverse[i]? = some (s.data i)

variable {T : Type} {N : Nat}

theorem NONE_eq : NONE = 4294967295 := rfl

theorem used_le {s : Stk T} {n : Nat} (h : s.top = n) (hn : n < NONE) : used s = n + 1 := by
  unfold used
  rw [if_neg (by omega)]
  omega

theorem srep_clear (s : Stk T) (h : s.top = NONE) : SRep N s [] := by
  refine ⟨by simp [used, h], by simp, by simp, by simp⟩

theorem push_spec (hN : N ≤ NONE) {s : Stk T} {l : List T} (hr : SRep N s l) (x : T) (hl : l.length < N) :
    push N s x = (true, [.top l.length, .data l.length x]) ∧
    ∃ s', applyS N s [.top l.length, .data l.length x] = .ok s' ∧ SRep N s' (x :: l) := by
  refine ⟨?_, ⟨⟨l.length, fun j => if j = l.length then x else s.data j⟩, ?_, ?_⟩⟩
  · unfold push
    rw [if_neg (by rw [hr.used]; omega), hr.used]
  · simp only [applyS, SWr.apply, Res.ok_bind]
    rw [if_pos hl]
    rfl
  · constructor
    · rw [used_le (n := l.length) rfl (by omega)]; simp
    · simp; omega
    · intro _; simp
    · intro i hi
      simp only [List.length_cons] at hi
      rw [List.reverse_cons]
      by_cases h : i = l.length
      · subst h; simp
      · rw [List.getElem?_append_left (by simp; omega)]
        simp only [h, if_false]
        exact hr.data i (by omega)

theorem push_full {s : Stk T} {l : List T} (hr : SRep N s l) (x : T) (hl : ¬ l.length < N) :
    push N s x = (false, []) := by
  unfold push
  rw [if_pos (by rw [hr.used]; omega)]

theorem pop_spec (hN : N ≤ NONE) {s : Stk T} {l : List T} {x : T} (hr : SRep N s (x :: l)) :
    ∃ n, pop N s = .ok (x, [.top n]) ∧ ∃ s', applyS N s [.top n] = .ok s' ∧ SRep N s' l := by
  have ht := hr.top (by simp)
  have hle := hr.le
  simp only [List.length_cons] at ht hle
  have hx := hr.data l.length (by simp)
  rw [List.reverse_cons] at hx
  simp at hx
  refine ⟨if s.top = 0 then NONE else s.top - 1, ?_, ⟨if s.top = 0 then NONE else s.top - 1, s.data⟩, rfl, ?_⟩
  · unfold pop
    rw [if_pos (by omega), ht]
    simp [hx]
  · constructor
    · by_cases h : s.top = 0
      · simp [h, used]; have : l = [] := List.eq_nil_of_length_eq_zero (by omega)
        rw [this]; rfl
      · rw [used_le (n := s.top - 1) (by simp [h]) (by omega)]; omega
    · omega
    · intro hne
      have : 0 < l.length := List.length_pos_iff.mpr hne
      show (if s.top = 0 then NONE else s.top - 1) = _
      rw [if_neg (by omega)]; omega
    · intro i hi
      have := hr.data i (by simp; omega)
      rw [List.reverse_cons, List.getElem?_append_left (by simpa using hi)] at this
      exact this

theorem sstep_spec (hN : N ≤ NONE) {s : Stk T} {l : List T} (hr : SRep N s l) (op : SOp T) {l' : List T} {r : SRet T}
    (h : Spec.step N l op = some (l', r)) : ∃ s', sstep N s op = .ok (s', r) ∧ SRep N s' l' := by
  cases op with
  | push x =>
    simp only [Spec.step] at h
    by_cases hl : l.length < N
    · rw [if_pos hl] at h
      simp only [Option.some.injEq, Prod.mk.injEq] at h
      obtain ⟨rfl, rfl⟩ := h
      obtain ⟨e, s', e', r'⟩ := push_spec hN hr x hl
      refine ⟨s', ?_, r'⟩
      simp only [sstep, e]
      rw [e']
      rfl
    · rw [if_neg hl] at h
      simp only [Option.some.injEq, Prod.mk.injEq] at h
      obtain ⟨rfl, rfl⟩ := h
      refine ⟨s, ?_, hr⟩
      simp only [sstep, push_full hr x hl, applyS, Res.ok_bind]
  | pop =>
    cases l with
    | nil => simp [Spec.step] at h
    | cons x l =>
      simp only [Spec.step, Option.some.injEq, Prod.mk.injEq] at h
      obtain ⟨rfl, rfl⟩ := h
      obtain ⟨n, e, s', e', r'⟩ := pop_spec hN hr
      refine ⟨s', ?_, r'⟩
      simp only [sstep, e, Res.ok_bind, e']
  | clear =>
    simp only [Spec.step, Option.some.injEq, Prod.mk.injEq] at h
    obtain ⟨rfl, rfl⟩ := h
    exact ⟨{ s with top := NONE }, rfl, srep_clear _ rfl⟩
  | used =>
    simp only [Spec.step, Option.some.injEq, Prod.mk.injEq] at h
    obtain ⟨rfl, rfl⟩ := h
    exact ⟨s, by rw [sstep, hr.used], hr⟩
  | empty =>
    simp only [Spec.step, Option.some.injEq, Prod.mk.injEq] at h
    obtain ⟨rfl, rfl⟩ := h
    refine ⟨s, ?_, hr⟩
    rw [sstep, empty, hr.used]
    cases l <;> rfl

/-! ### pool -/

theorem applyP_stk (p : Pool) : ∀ (ws : List (SWr Nat)) (s' : Stk Nat), applyS N p.free ws = .ok s' →
    applyP N p (ws.map .stk) = .ok { p with free := s' } := by
  intro ws
  induction ws generalizing p with
  | nil => intro s' h; simp [applyS] at h; subst h; rfl
  | cons w ws ih =>
    intro s' h
    rw [applyS] at h
    cases hw : w.apply N p.free with
    | ub => rw [hw] at h; simp at h
    | ok s1 =>
      rw [hw, Res.ok_bind] at h
      rw [List.map_cons, applyP, PWr.apply, hw]
      exact ih { p with free := s1 } s' h

/-- `al` are the allocated objects, `fr` the freed ones (top first), `lk` objects are neither. -/
structure PRep (N : Nat) (p : Pool) (al fr : List Nat) (lk : Nat) : Prop where
  free : SRep N p.free fr
  cur : p.cur ≤ N
  nodup : (al ++ fr).Nodup
  bound : ∀ i ∈ al ++ fr, i < p.cur
  count : (al ++ fr).length + lk = p.cur

theorem prep_clear (p : Pool) (h : p.free.top = NONE) (hc : p.cur = 0) : PRep N p [] [] 0 :=
  ⟨srep_clear _ h, by omega, by simp, by simp, by simp [hc]⟩

/-- what `allocate` does -/
theorem allocate_spec (hN : N < NONE) {p : Pool} {al fr : List Nat} {lk : Nat} (hr : PRep N p al fr lk) :
    (fr = [] ∧ p.cur = N ∧ allocate N p = .ok (NONE, [])) ∨
    (∃ i w p', allocate N p = .ok (i, [w]) ∧ applyP N p [w] = .ok p' ∧ i < N ∧ i ∉ al ∧
      ((fr = [] ∧ i = p.cur ∧ PRep N p' (i :: al) [] lk) ∨ (∃ fr', fr = i :: fr' ∧ p'.cur = p.cur ∧ PRep N p' (i :: al) fr' lk))) := by
  cases fr with
  | nil =>
    have he : empty p.free = true := by rw [empty, hr.free.used]; rfl
    by_cases hc : p.cur ≥ N
    · left
      exact ⟨rfl, by have := hr.cur; omega, by rw [allocate, if_pos he, if_pos hc]⟩
    · right
      refine ⟨p.cur, .cur (p.cur + 1), { p with cur := p.cur + 1 }, ?_, rfl, by omega, ?_, Or.inl ⟨rfl, rfl, ?_⟩⟩
      · rw [allocate, if_pos he, if_neg hc, if_neg (by omega)]
      · intro h; have := hr.bound _ (List.mem_append.mpr (Or.inl h)); omega
      · refine ⟨hr.free, by show p.cur + 1 ≤ N; omega, ?_, ?_, ?_⟩
        · have := hr.nodup
          rw [List.cons_append, List.nodup_cons]
          refine ⟨fun h => ?_, this⟩
          have := hr.bound _ h; omega
        · intro i hi
          show i < p.cur + 1
          rw [List.cons_append] at hi
          rcases List.mem_cons.mp hi with rfl | hi
          · omega
          · have := hr.bound i hi; omega
        · have := hr.count
          show _ = p.cur + 1
          simp only [List.length_append, List.length_cons, List.length_nil] at this ⊢; omega
  | cons x fr =>
    right
    have he : empty p.free = false := by rw [empty, hr.free.used]; rfl
    obtain ⟨n, e, s', e', r'⟩ := pop_spec (by omega) hr.free
    have hb := hr.bound x (by simp)
    have hnd := hr.nodup
    refine ⟨x, .stk (.top n), { p with free := s' }, ?_, ?_, by have := hr.cur; omega, ?_, Or.inr ⟨fr, rfl, rfl, ?_⟩⟩
    · rw [allocate, he]
      simp only [Bool.false_eq_true, if_false, e, Res.ok_bind]
      rfl
    · exact applyP_stk p [.top n] s' e'
    · intro h
      rw [List.nodup_append] at hnd
      exact hnd.2.2 x h x (by simp) rfl
    · have hp : (al ++ x :: fr).Perm (x :: al ++ fr) := by
        rw [List.cons_append]; exact List.perm_middle
      refine ⟨r', hr.cur, hp.nodup_iff.mp hnd, ?_, ?_⟩
      · intro i hi; exact hr.bound i (hp.mem_iff.mpr hi)
      · rw [← hp.length_eq]; exact hr.count

theorem count_le {p : Pool} {al fr : List Nat} {lk : Nat} (hr : PRep N p al fr lk) : al.length + fr.length + lk ≤ N := by
  have := hr.count; have := hr.cur
  simp only [List.length_append] at *
  omega

theorem free_spec (hN : N < NONE) {p : Pool} {al1 al2 fr : List Nat} {i lk : Nat} (hr : PRep N p (al1 ++ i :: al2) fr lk) :
    pfree N p i = (true, [.stk (.top fr.length), .stk (.data fr.length i)]) ∧
    ∃ p', applyP N p [.stk (.top fr.length), .stk (.data fr.length i)] = .ok p' ∧ p'.cur = p.cur ∧
      PRep N p' (al1 ++ al2) (i :: fr) lk := by
  have hc := count_le hr
  simp only [List.length_append, List.length_cons] at hc
  obtain ⟨e, s', e', r'⟩ := push_spec (by omega) hr.free i (by omega)
  refine ⟨by rw [pfree, e]; rfl, { p with free := s' }, ?_, rfl, ?_⟩
  · exact applyP_stk p [.top fr.length, .data fr.length i] s' e'
  · have hp : (al1 ++ i :: al2 ++ fr).Perm (al1 ++ al2 ++ i :: fr) := by
      rw [List.append_assoc, List.cons_append, List.append_assoc]
      refine List.Perm.append_left _ ?_
      exact List.perm_middle.symm
    refine ⟨r', hr.cur, hp.nodup_iff.mp hr.nodup, ?_, ?_⟩
    · intro j hj; exact hr.bound j (hp.mem_iff.mpr hj)
    · rw [← hp.length_eq]; exact hr.count

theorem allocated_spec (hN : N < NONE) {p : Pool} {al fr : List Nat} {lk : Nat} (hr : PRep N p al fr lk) :
    allocated_objects p = al.length + lk := by
  have := hr.count
  simp only [List.length_append] at this
  unfold allocated_objects
  rw [hr.free.used, if_pos (by omega)]
  omega

end Verif.ShmPool
