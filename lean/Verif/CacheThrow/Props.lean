import Verif.CacheThrow.Lemmas

/-
  C133 of `coda_cache`: a `set` that throws leaves the cache as it was.  False; what holds is in the theorems with the suffix `_partial`.
-/
set_option linter.unusedSectionVars false

namespace Verif.CacheThrow

open Cache

variable {K V : Type} [DecidableEq K] [Inhabited V]

/-- **C133, part 1.** Any history in which `set`s throw, at the insertion into the table or (for keys that are not there) at the assignment of the value: no bad pointer is followed, the
list and the table agree and the accounted size is the sum of the sizes; the entries are those of the history in which each throwing assignment has made an entry of size 0 that holds
whatever the assignment left. -/
theorem C133_new_partial (cap : V → UInt64) (size_max time_max : UInt64) (h : List (OpT K V))
    (hf : Spec.FitsT (fun v => (cap v).toNat) time_max.toNat (h.map evT))
    (hn : Spec.NewKeys (fun v => (cap v).toNat) size_max.toNat time_max.toNat [] (h.map evT)) :
    ∃ s, runT cap (init size_max time_max) h = .ok s ∧
      Lists s ((h.map evT).foldl (Spec.actual (fun v => (cap v).toNat) size_max.toNat time_max.toNat) []) := by
  obtain ⟨s, l, e, r, _, _, hl⟩ := runT_ref cap h (init size_max time_max) [] (rep_init _ _) hn (by simpa [Cache.Spec.total] using hf.1) (by simp) hf.2
  refine ⟨s, e, ?_⟩
  have := r.lists
  rw [hl] at this
  exact this

/-- If no assignment throws (only insertions do), the history has the effect a client expects. -/
theorem C133_insert_partial (cap : V → UInt64) (size_max time_max : UInt64) (h : List (OpT K V))
    (hf : Spec.FitsT (fun v => (cap v).toNat) time_max.toNat (h.map evT))
    (hn : ∀ o ∈ h, ∀ k w now, o ≠ .noAssign k w now) :
    ∃ s, runT cap (init size_max time_max) h = .ok s ∧
      Lists s ((h.map evT).foldl (Spec.expected (fun v => (cap v).toNat) size_max.toNat time_max.toNat) []) := by
  have hg : ∀ (h : List (OpT K V)) (l : List (Cache.Spec.Entry K V)), (∀ o ∈ h, ∀ k w now, o ≠ .noAssign k w now) →
      Spec.NewKeys (fun v => (cap v).toNat) size_max.toNat time_max.toNat l (h.map evT) ∧
      (h.map evT).foldl (Spec.expected (fun v => (cap v).toNat) size_max.toNat time_max.toNat) l =
        (h.map evT).foldl (Spec.actual (fun v => (cap v).toNat) size_max.toNat time_max.toNat) l := by
    intro h
    induction h with
    | nil => intro l _; exact ⟨trivial, rfl⟩
    | cons o h ih =>
      intro l hn
      cases o with
      | op o =>
        have := ih (Cache.Spec.after (fun v => (cap v).toNat) size_max.toNat time_max.toNat l (evOf o)) (fun o ho => hn o (by simp [ho]))
        exact ⟨⟨trivial, this.1⟩, this.2⟩
      | noInsert k =>
        have := ih l (fun o ho => hn o (by simp [ho]))
        exact ⟨⟨trivial, this.1⟩, this.2⟩
      | noAssign k w now => exact absurd rfl (hn _ (by simp) k w now)
  obtain ⟨s, e, hl⟩ := C133_new_partial cap size_max time_max h hf (hg h [] hn).1
  exact ⟨s, e, by rw [(hg h [] hn).2]; exact hl⟩

/-- **C133, part 2.** After such a history, a `set` of a key that is there whose assignment throws: no bad pointer is followed, and the entry has moved to the end of the list with the
value the assignment left and its old time; list and table agree, but the accounted size is less than the sum of the sizes by the size of that entry. -/
theorem C133_old_partial (cap : V → UInt64) (size_max time_max : UInt64) (h : List (OpT K V))
    (hf : Spec.FitsT (fun v => (cap v).toNat) time_max.toNat (h.map evT))
    (hn : Spec.NewKeys (fun v => (cap v).toNat) size_max.toNat time_max.toNat [] (h.map evT))
    (k : K) (left : V) (now : UInt64) (es : List (Cache.Spec.Entry K V)) (e : Cache.Spec.Entry K V)
    (hes : es = (h.map evT).foldl (Spec.actual (fun v => (cap v).toNat) size_max.toNat time_max.toNat) [])
    (he : Cache.Spec.lookup es k = some e) :
    ∃ s, runT cap (init size_max time_max) (h ++ [.noAssign k left now]) = .ok s ∧
      Lists { s with size_cur := s.size_cur + UInt64.ofNat e.size } (Cache.Spec.remove es k ++ [⟨k, left, e.size, e.time⟩]) := by
  obtain ⟨s, l, e1, r, m, t, hl⟩ := runT_ref cap h (init size_max time_max) [] (rep_init _ _) hn (by simpa [Cache.Spec.total] using hf.1) (by simp) hf.2
  have hl' : l.map toEntry = es := hl.trans hes.symm
  cases hd : s.data k with
  | none =>
    rw [← hl', lookup_none (data_none r hd)] at he
    simp at he
  | some a =>
    obtain ⟨xs, f, ys, rfl, rfl⟩ := data_some r hd
    have hks := keys_split r.keys
    rw [← hl', lookup_split hks] at he
    injection he with he
    subst he
    obtain ⟨s', e2, r', _⟩ := throw_old r left now
    refine ⟨s', ?_, ?_⟩
    · have happ : ∀ (h : List (OpT K V)) (c c' : Cache K V), runT cap c h = .ok c' → ∀ o, runT cap c (h ++ [o]) = (stepT cap c' o).bind fun c => .ok c := by
        intro h
        induction h with
        | nil => intro c c' e o; injection e with e; subst e; rfl
        | cons a h ih =>
          intro c c' e o
          show Res.bind _ _ = _
          have e' : (stepT cap c a).bind (fun c => runT cap c h) = .ok c' := e
          cases hs : stepT cap c a with
          | ub => rw [hs] at e'; exact absurd e' (by simp [Res.bind])
          | ok c1 => rw [hs] at e'; exact ih c1 c' e' o
      rw [happ h _ s e1]
      show (setThrow s f.key left now).bind _ = _
      rw [e2]; rfl
    · have := r'.lists
      rw [← hl', remove_split hks]
      simp only [toEntry, UInt64.ofNat_toNat]
      rw [List.map_append] at this
      exact this

/-- A sample: key 2 is not there when its assignment throws; later it is set, then an assignment to key 1 throws. -/
def sample : List (OpT Nat Nat) := [.op (.set 1 10 true 5), .noAssign 2 0 6, .noInsert 3, .op (.get 2 7), .op (.set 2 20 true 8), .op (.erase 3)]

example : Spec.FitsT (fun v => (sampleCap v).toNat) (1000 : UInt64).toNat (sample.map evT) ∧
    Spec.NewKeys (fun v => (sampleCap v).toNat) (100 : UInt64).toNat (1000 : UInt64).toNat [] (sample.map evT) := by
  refine ⟨⟨by decide +kernel, by decide +kernel⟩, ?_⟩
  simp only [sample, List.map_cons, List.map_nil, evT, Spec.NewKeys, true_and, and_true]
  decide +kernel

example : (match runT sampleCap (init 100 1000) (sample ++ [.noAssign 1 10 9]) with
    | .ok s => decide (s.size_cur = 20 ∧ s.begp = some 1 ∧ s.endp = some 0)
    | .ub => false) = true := by decide +kernel

/-- The memory stays consistent, but a value that was never set can be got: after any history of operations, a `set` of a key that is not there whose assignment throws
makes `get` return what the failed assignment left (for a type whose assignment has no effect when it throws: the default value), although the key is not there for a client. -/
theorem C133_refuted_value (cap : V → UInt64) (size_max : UInt64) (h : List (Op K V)) (s : Cache K V) (hs : run cap (init size_max 0) h = .ok s)
    (k : K) (hk : s.data k = none) (left : V) (now now' : UInt64) :
    get s k now' = .ok (s, none) ∧ ∃ s', setThrow s k left now = .ok s' ∧ get s' k now' = .ok (s', some left) := by
  obtain ⟨s0, l, e, r, m, t⟩ := run_rep cap h _ _ (rep_init (K := K) (V := V) size_max 0)
  rw [hs] at e; injection e with e; subst e
  refine ⟨by unfold Cache.get; rw [hk], ?_⟩
  obtain ⟨s', e', r', _, t'⟩ := throw_new r k left now hk
  refine ⟨s', e', ?_⟩
  have ht : s'.time_max = 0 := t'.trans t
  have hd : s'.data k = some s.fresh := (r'.tbl k s.fresh).mpr ⟨⟨k, left, 0, now⟩, by simp, rfl⟩
  rcases get_spec r' k now' with ⟨hd', _⟩ | ⟨xs, a, e, ys, hl, hek, hd', h⟩
  · rw [hd'] at hd; simp at hd
  · have ha : a = s.fresh := by rw [hd'] at hd; injection hd
    subst ha
    have hv : e.val = left := by
      have hmem : (s.fresh, e) ∈ l ++ [(s.fresh, ⟨k, left, 0, now⟩)] := by rw [hl]; simp
      rcases List.mem_append.mp hmem with hm | hm
      · exact absurd (r.bound _ hm) (by simp)
      · rw [List.mem_singleton] at hm; injection hm with _ hm; rw [hm]
    rcases h with ⟨_, h⟩ | ⟨⟨hc, _⟩, _⟩
    · rw [h, hv]
    · exact absurd ht hc

/-- And it can crash: set a value, let the assignment of the next value to the same key throw, erase the key, set a smaller value: the cache drops that entry too and then follows the
NULL pointer at the start of its empty list.  For all keys, all values and limits (of less than 2^64 bytes together). -/
theorem C133_refuted_crash (cap : V → UInt64) (size_max time_max : UInt64) (k k' : K) (v v' left : V) (u u' : Bool) (t t' t'' : UInt64)
    (hfit : (cap v).toNat ≤ size_max.toNat) (hless : (cap v').toNat < (cap v).toNat) (hbig : size_max.toNat + (cap v).toNat < 2 ^ 64) :
    runT cap (init size_max time_max) [.op (.set k v u t), .noAssign k left t', .op (.erase k), .op (.set k' v' u' t'')] = .ub := by
  have h1 : ¬ cap v > size_max := by rw [gt_iff_lt, UInt64.lt_iff_toNat_lt]; omega
  obtain ⟨s1, e1, hd1, hh1, hc1, hm1, hf1⟩ : ∃ s1, Cache.set cap (init size_max time_max) k v u t = .ok s1 ∧ s1.data = (fun x => if x = k then some 0 else none) ∧
      s1.heap 0 = some ⟨k, v, none, none, cap v, t⟩ ∧ s1.size_cur = cap v ∧ s1.size_max = size_max ∧ s1.fresh = 1 := by
    unfold Cache.set
    simp only [init, setPrev, deref, upd, if_true, Res.ok_bind, linkEnd]
    rw [drop_max _ (by simpa using h1)]
    exact ⟨_, rfl, rfl, by simp [upd], by simp, rfl, rfl⟩
  have hdk : s1.data k = some 0 := by rw [hd1]; simp
  have e2 := throw_one hdk hh1 left t'
  have e3 := erase_one (s := { s1 with size_cur := s1.size_cur - cap v, heap := upd s1.heap 0 (some ⟨k, left, none, none, cap v, t⟩) })
    (k := k) (a := 0) (x := left) (sz := cap v) (tm := t) hdk (by simp [upd])
  show (Cache.set cap (init size_max time_max) k v u t).bind _ = _
  rw [e1]
  show (setThrow s1 k left t').bind _ = _
  rw [e2]
  simp only [Res.bind]
  show (stepT cap _ (.op (.erase k))).bind _ = _
  simp only [stepT, step]
  rw [e3]
  simp only [Res.ok_bind, Res.bind]
  show (Cache.set cap _ k' v' u' t'').bind _ = _
  rw [set_empty cap v' u' t'' (by simp only [hd1]; split <;> simp_all) rfl rfl ?_ ?_ (by show 0 < s1.fresh; omega)]
  · rfl
  · show s1.size_cur - cap v - cap v + cap v' > s1.size_max
    rw [hc1, hm1, gt_iff_lt, UInt64.lt_iff_toNat_lt]
    simp only [UInt64.toNat_add, UInt64.toNat_sub]
    have := (cap v).toNat_lt
    omega
  · show s1.size_cur - cap v - cap v > s1.size_max
    rw [hc1, hm1, gt_iff_lt, UInt64.lt_iff_toNat_lt]
    simp only [UInt64.toNat_sub]
    have := (cap v).toNat_lt
    omega

example : ((sampleCap 10).toNat ≤ (100 : UInt64).toNat) ∧ (sampleCap 5).toNat < (sampleCap 10).toNat ∧ (100 : UInt64).toNat + (sampleCap 10).toNat < 2 ^ 64 := by decide +kernel

example : (match runT sampleCap (init 100 0) [.op (.set (1 : Nat) 10 true 5), .noAssign 1 10 6, .op (.erase 1), .op (.set 1 5 true 7)] with
    | .ok _ => false
    | .ub => true) = true := by decide +kernel

end Verif.CacheThrow
