import Verif.Cache.Lemmas

/-
  Properties C40–C44 of `coda_cache`.  A history is a list of `Op`s (get / set / erase with the clock reading of each call);
  `evOf` translates it to the events of the specification (`Spec.contents`).  `.ub` is the outcome of following a dangling
  or NULL pointer.
-/
set_option linter.unusedSectionVars false

namespace Verif.Cache

variable {K V : Type} [DecidableEq K] [Inhabited V]

/-- The doubly linked list of `s` runs exactly through the addresses `as`, each once: forward over `next` from `begp`,
backward over `prev` from `endp`; the hash table maps precisely the keys of these nodes to them; no other node is allocated; the accounted size is
the sum of their sizes (in `size_t` arithmetic). -/
structure Threaded (s : Cache K V) (as : List Nat) : Prop where
  begp : s.begp = as.head?
  endp : s.endp = as.getLast?
  once : as.Nodup
  node : ∀ i a, as[i]? = some a → ∃ n, s.heap a = some n ∧ n.next = as[i + 1]? ∧
    n.prev = (if i = 0 then none else as[i - 1]?) ∧ s.data n.key = some a
  table : ∀ k a, s.data k = some a → a ∈ as ∧ ∃ n, s.heap a = some n ∧ n.key = k
  leak : ∀ a, s.heap a ≠ none → a ∈ as
  size : s.size_cur = (as.map (fun a => match s.heap a with | some n => n.size | none => 0)).sum

/-- `es` are the entries of `s` in the order of the list. -/
def Lists (s : Cache K V) (es : List (Spec.Entry K V)) : Prop :=
  ∃ as, Threaded s as ∧
    es = (as.filterMap s.heap).map (fun n => ⟨n.key, n.elem, n.size.toNat, n.time.toNat⟩)

theorem Dl_get {h : Heap K V} : ∀ {l : List (Nat × Ent K V)} {p q} {i : Nat} {x : Nat × Ent K V}, Dl h p l q → l[i]? = some x →
    h x.1 = some ⟨x.2.key, x.2.val, (if i = 0 then p else l[i - 1]?.map (·.1)), (l[i + 1]?.map (·.1)).or q, x.2.size, x.2.time⟩ := by
  intro l
  induction l with
  | nil => intro p q i x _ h; simp at h
  | cons y l ih =>
    intro p q i x hd hx
    obtain ⟨a, e⟩ := y
    cases i with
    | zero =>
      simp at hx; subst hx
      rw [hd.1]
      cases l <;> simp
    | succ i =>
      simp at hx
      have := ih hd.2 hx
      rw [this]
      cases i <;> simp

theorem sum_sumU {h : Heap K V} : ∀ {l : List (Nat × Ent K V)} {p q}, Dl h p l q →
    ((l.map (·.1)).map (fun a => match h a with | some n => n.size | none => 0)).sum = sumU l := by
  intro l
  induction l with
  | nil => intro p q _; rfl
  | cons x l ih =>
    intro p q hd
    obtain ⟨a, e⟩ := x
    rw [List.map_cons, List.map_cons, List.sum_cons, ih hd.2, sumU_cons, hd.1]

theorem filterMap_Dl {h : Heap K V} : ∀ {l : List (Nat × Ent K V)} {p q}, Dl h p l q →
    (((l.map (·.1)).filterMap h).map (fun n => (⟨n.key, n.elem, n.size.toNat, n.time.toNat⟩ : Spec.Entry K V))) = l.map toEntry := by
  intro l
  induction l with
  | nil => intro p q _; rfl
  | cons x l ih =>
    intro p q hd
    obtain ⟨a, e⟩ := x
    have i1 := ih hd.2
    have h1 := hd.1
    rw [List.map_cons, List.filterMap_cons, h1]
    dsimp only
    rw [List.map_cons, i1]
    rfl

theorem Rep.threaded {s : Cache K V} {l : List (Nat × Ent K V)} (hr : Rep s l) : Threaded s (l.map (·.1)) := by
  constructor
  · rw [hr.beg]; simp [headA]
  · rw [hr.fin]; simp [lastA]
  · exact hr.addr
  · intro i a h
    rw [List.getElem?_map] at h
    cases hx : l[i]? with
    | none => rw [hx] at h; simp at h
    | some x =>
      rw [hx] at h; simp at h; subst h
      refine ⟨_, Dl_get hr.dl hx, ?_, ?_, ?_⟩
      · simp
      · simp
      · exact (hr.tbl _ _).mpr ⟨x.2, List.mem_of_getElem? hx, rfl⟩
  · intro k a h
    obtain ⟨e, he, hk⟩ := (hr.tbl k a).mp h
    refine ⟨List.mem_map.mpr ⟨_, he, rfl⟩, ?_⟩
    obtain ⟨i, hi⟩ := List.mem_iff_getElem?.mp he
    exact ⟨_, Dl_get hr.dl hi, hk⟩
  · intro a ha
    exact hr.alive a (Option.isSome_iff_ne_none.mpr ha)
  · rw [hr.size, sum_sumU hr.dl]

theorem Rep.lists {s : Cache K V} {l : List (Nat × Ent K V)} (hr : Rep s l) : Lists s (l.map toEntry) :=
  ⟨_, hr.threaded, (filterMap_Dl hr.dl).symm⟩

/-! ## C44: the structure is never corrupted -/

/-- **C44.** For every history of operations, whatever the sizes, limits and clock readings (overflow included), no operation
follows a dangling or NULL pointer, and afterwards the doubly linked list threads exactly the entries of the hash table, each
once, and the accounted size is the sum of their sizes. -/
theorem C44_structure_intact (cap : V → UInt64) (size_max time_max : UInt64) (h : List (Op K V)) :
    ∃ s, run cap (init size_max time_max) h = .ok s ∧ ∃ as, Threaded s as := by
  obtain ⟨s, l, e, r, _⟩ := run_rep cap h _ _ (rep_init size_max time_max)
  exact ⟨s, e, _, r.threaded⟩

/-- Also no `get` of either flavour and no `erase` after any history follows a bad pointer, and `erase` returns whether the key was present. -/
theorem C44_queries_safe (cap : V → UInt64) (size_max time_max : UInt64) (h : List (Op K V)) (s : Cache K V)
    (hs : run cap (init size_max time_max) h = .ok s) (k : K) (val : V) (now : UInt64) :
    (∃ r, get s k now = .ok r) ∧ (∃ r, getInto s k val now = .ok r) ∧
    (∃ s', erase s k = .ok (s', (s.data k).isSome) ∧ s'.data k = none) := by
  obtain ⟨s0, l, e, r, _⟩ := run_rep cap h _ _ (rep_init (K := K) (V := V) size_max time_max)
  rw [hs] at e; injection e with e; subst e
  have hg := get_spec r k now
  refine ⟨?_, ?_, ?_⟩
  · rcases hg with ⟨_, h⟩ | ⟨xs, a, e, ys, _, _, _, ⟨_, h⟩ | ⟨_, s', h, _⟩⟩
    · exact ⟨_, h⟩
    · exact ⟨_, h⟩
    · exact ⟨_, h⟩
  · unfold getInto
    cases hd : s.data k with
    | none => exact ⟨_, rfl⟩
    | some a =>
      obtain ⟨xs, e, ys, rfl, hk⟩ := data_some r hd
      dsimp only
      rw [Dl_deref (Dl_append.mp r.dl).2, Res.ok_bind]
      dsimp only
      obtain ⟨s', e1, _⟩ := eraseAt_spec r
      rw [e1]
      split
      · exact ⟨_, rfl⟩
      · exact ⟨_, rfl⟩
  · rcases erase_spec r k with ⟨hd, h⟩ | ⟨xs, a, e, ys, rfl, rfl, hd, s', h, r', _⟩
    · exact ⟨s, by rw [h, hd]; rfl, hd⟩
    · refine ⟨s', by rw [h, hd]; rfl, ?_⟩
      cases hd' : s'.data e.key with
      | none => rfl
      | some b =>
        obtain ⟨e', he', hk'⟩ := (r'.tbl _ _).mp hd'
        exact absurd hk' (keys_split r.keys _ he')

/-- A history that inserts, moves, evicts and erases. -/
def sampleH : List (Op Nat Nat) :=
  [.set 1 10 true 5, .set 2 20 true 6, .set 3 30 true 7, .set 1 40 false 8, .get 2 9, .set 4 50 true 9, .erase 3]

/-- 64-bit capacity of a value in the samples. -/
def sampleCap : Nat → UInt64 := fun v => UInt64.ofNat v

example : (match run sampleCap (init 100 1000) sampleH with
    | .ok s => decide (s.data 1 = some 0 ∧ s.data 2 = none ∧ s.data 3 = none ∧ s.data 4 = some 3 ∧ s.begp = some 0 ∧ s.endp = some 3 ∧
        s.size_cur = 90)
    | .ub => false) = true := by decide +kernel

/-! ## the contents are those of the specification -/

/-- For every history whose sizes and times do not overflow `size_t`, the entries of the cache, in list order, are exactly the
contents the specification prescribes. -/
theorem C40_contents (cap : V → UInt64) (size_max time_max : UInt64) (h : List (Op K V))
    (hf : Spec.Fits (fun v => (cap v).toNat) time_max.toNat (h.map evOf)) :
    ∃ s, run cap (init size_max time_max) h = .ok s ∧
      Lists s (Spec.contents (fun v => (cap v).toNat) size_max.toNat time_max.toNat (h.map evOf)) := by
  obtain ⟨s, l, e, r, _, _, hl⟩ := run_ref cap size_max time_max h hf
  refine ⟨s, e, ?_⟩
  have := r.lists
  rw [hl] at this
  exact this

/-! ## C40: get returns the last value set -/

theorem lastSet_snoc (h : List (Spec.Event K V)) (ev : Spec.Event K V) (k : K) :
    Spec.lastSet (h ++ [ev]) k = (match ev with
      | .set k' v _ _ => if k' = k then some v else Spec.lastSet h k
      | .erase k' => if k' = k then none else Spec.lastSet h k
      | .get _ _ => Spec.lastSet h k) := by
  cases ev <;> simp [Spec.lastSet]

/-- the invariant behind C40: every listed entry holds the last value set -/
theorem run_last (cap : V → UInt64) (max tmax : UInt64) (h : List (Op K V)) :
    ∃ s l, run cap (init max tmax) h = .ok s ∧ Rep s l ∧ ∀ x ∈ l, Spec.lastSet (h.map evOf) x.2.key = some x.2.val := by
  induction h using List.reverseRecOn with
  | nil => exact ⟨_, [], rfl, rep_init max tmax, by simp⟩
  | append_singleton h op ih =>
    obtain ⟨s, l, e, r, hl⟩ := ih
    have key : ∃ s' l', step cap s op = .ok s' ∧ Rep s' l' ∧
        ∀ x ∈ l', Spec.lastSet (h.map evOf ++ [evOf op]) x.2.key = some x.2.val := by
      cases op with
      | get k now =>
        simp only [evOf, lastSet_snoc]
        simp only [step]
        rcases get_spec r k now with ⟨_, h⟩ | ⟨xs, a, e, ys, rfl, _, _, ⟨_, h⟩ | ⟨_, s', h, r', _⟩⟩
        · exact ⟨s, l, by rw [h]; rfl, r, hl⟩
        · exact ⟨s, _, by rw [h]; rfl, r, hl⟩
        · refine ⟨s', _, by rw [h]; rfl, r', fun x hx => hl x ?_⟩
          rcases List.mem_append.mp hx with h | h <;> simp [h]
      | set k v u now =>
        simp only [evOf, lastSet_snoc]
        simp only [step]
        cases hd : s.data k with
        | none =>
          obtain ⟨s', e1, r1, _⟩ := set_new cap r k v u now hd
          refine ⟨s', _, e1, r1, ?_⟩
          have hmem : ∀ (m : UInt64) (l : List (Nat × Ent K V)) x, x ∈ evictU m l → x ∈ l := by
            intro m l
            induction l with
            | nil => intro x hx; exact hx
            | cons y l ih =>
              intro x hx
              rw [evictU] at hx
              split at hx
              · exact List.mem_cons_of_mem _ (ih x hx)
              · exact hx
          intro x hx
          rcases List.mem_append.mp (hmem _ _ _ hx) with hx | hx
          · rw [if_neg (fun h => data_none r hd x hx h.symm)]; exact hl x hx
          · rw [List.mem_singleton] at hx; subst hx; simp
        | some a =>
          obtain ⟨xs, e1, ys, rfl, rfl⟩ := data_some r hd
          obtain ⟨s', e2, r2, _⟩ := set_existing cap r v u now
          refine ⟨s', _, e2, r2, ?_⟩
          intro x hx
          rcases List.mem_append.mp hx with hx | hx
          · rw [if_neg (fun h => keys_split r.keys x hx h.symm)]
            apply hl
            rcases List.mem_append.mp hx with h | h <;> simp [h]
          · rw [List.mem_singleton] at hx; subst hx; simp
      | erase k =>
        simp only [evOf, lastSet_snoc]
        simp only [step]
        rcases erase_spec r k with ⟨hd, h⟩ | ⟨xs, a, e1, ys, rfl, rfl, hd, s', h, r', _⟩
        · refine ⟨s, l, by rw [h]; rfl, r, ?_⟩
          intro x hx
          rw [if_neg (fun h => data_none r hd x hx h.symm)]; exact hl x hx
        · refine ⟨s', _, by rw [h]; rfl, r', ?_⟩
          intro x hx
          rw [if_neg (fun h => keys_split r.keys x hx h.symm)]
          apply hl
          rcases List.mem_append.mp hx with h | h <;> simp [h]
    obtain ⟨s', l', e', r', hl'⟩ := key
    refine ⟨s', l', ?_, r', ?_⟩
    · rw [run_append, e]
      show run cap s [op] = _
      rw [run, e']; rfl
    · rw [List.map_append]; exact hl'

/-- **C40, value.** After every history, with any sizes, limits and clock readings, a value `get` returns is the value of the
most recent set of that key that no erase of the key followed. -/
theorem C40_get_last_set (cap : V → UInt64) (size_max time_max : UInt64) (h : List (Op K V)) (s s' : Cache K V) (k : K) (now : UInt64)
    (v : V) (hs : run cap (init size_max time_max) h = .ok s) (hg : get s k now = .ok (s', some v)) :
    Spec.lastSet (h.map evOf) k = some v := by
  obtain ⟨s0, l, e, r, hl⟩ := run_last cap size_max time_max h
  rw [hs] at e; injection e with e; subst e
  rcases get_spec r k now with ⟨_, h⟩ | ⟨xs, a, e, ys, rfl, rfl, _, ⟨_, h⟩ | ⟨_, s', h, r', _⟩⟩
  · rw [h] at hg; simp at hg
  · rw [h] at hg; simp only [Res.ok.injEq, Prod.mk.injEq, Option.some.injEq] at hg
    rw [← hg.2]
    exact hl (a, e) (by simp)
  · rw [h] at hg; simp at hg

/-- The two-argument `get` stores exactly what the one-argument `get` finds, and leaves the argument alone if that finds nothing. -/
theorem C40_getInto_agrees (s : Cache K V) (k : K) (val : V) (now : UInt64) :
    getInto s k val now = (do let (s', r) ← get s k now; .ok (s', r.getD val)) := by
  unfold getInto get
  cases s.data k with
  | none => rfl
  | some a =>
    dsimp only
    cases deref s.heap a with
    | ub => rfl
    | ok n =>
      simp only [Res.ok_bind]
      split
      · cases eraseAt s a <;> rfl
      · rfl

/-- **C40, absence.** After every history that does not overflow, `get` finds nothing exactly if the key is not among the
contents or its entry has outlived `time_max`; otherwise it finds the entry's value. -/
theorem C40_get_finds (cap : V → UInt64) (size_max time_max : UInt64) (h : List (Op K V)) (s : Cache K V) (k : K) (now : UInt64)
    (hf : Spec.Fits (fun v => (cap v).toNat) time_max.toNat (h.map evOf))
    (hs : run cap (init size_max time_max) h = .ok s) :
    ∃ s', get s k now = .ok (s',
      match Spec.lookup (Spec.contents (fun v => (cap v).toNat) size_max.toNat time_max.toNat (h.map evOf)) k with
      | none => none
      | some e => if Spec.Expired time_max.toNat now.toNat e then none else some e.val) := by
  obtain ⟨s0, l, e, r, m, t, hl⟩ := run_ref cap size_max time_max h hf
  rw [hs] at e; injection e with e; subst e
  have hc : Spec.contents (fun v => (cap v).toNat) size_max.toNat time_max.toNat (h.map evOf) = l.map toEntry := hl.symm
  have htm := Fits_times (max := size_max.toNat) hf
  rw [hc] at htm ⊢
  rcases get_spec r k now with ⟨hd, h⟩ | ⟨xs, a, e, ys, rfl, rfl, hd, h⟩
  · rw [lookup_none (data_none r hd)]; exact ⟨s, h⟩
  · have hex := expired_iff e a time_max now (htm (toEntry (a, e)) (by simp))
    rw [lookup_split (keys_split r.keys)]
    rw [t] at h
    dsimp only
    rcases h with ⟨hc, h⟩ | ⟨hc, s', h, _⟩
    · rw [if_neg (by rw [← hex]; exact hc)]; exact ⟨s, h⟩
    · rw [if_pos (hex.mp hc)]; exact ⟨s', h⟩

theorem lookup_remove_ne (l : List (Spec.Entry K V)) {k k' : K} (hk : k ≠ k') : Spec.lookup (Spec.remove l k') k = Spec.lookup l k := by
  induction l with
  | nil => rfl
  | cons e l ih =>
    unfold Spec.lookup Spec.remove at *
    rw [List.filter_cons, List.find?_cons]
    by_cases h1 : e.key = k'
    · have h2 : e.key ≠ k := by rw [h1]; exact fun h => hk h.symm
      simp only [h1, ne_eq, not_true_eq_false, decide_false, if_false, Bool.false_eq_true]
      rw [← h1] at hk ⊢
      simp only [h2, decide_false]
      rw [h1]; exact ih
    · simp only [ne_eq, h1, not_false_eq_true, decide_true, if_true, List.find?_cons, ih]

theorem lookup_append_some (l l' : List (Spec.Entry K V)) (k : K) :
    Spec.lookup (l ++ l') k = (Spec.lookup l k).or (Spec.lookup l' k) := by
  unfold Spec.lookup; rw [List.find?_append]

/-- **C40, why an entry can be missing.** If a key was set and not erased since, but is not among the contents, then at some point
of the history its entry was present and was removed either by a `get` of the key that found it outdated, or by the insertion
of another key that overflowed `size_max`; or the value itself is larger than `size_max`, so that its insertion removed it at once. -/
theorem C40_missing_reason (cap : V → Nat) (max tmax : Nat) (h : List (Spec.Event K V)) (k : K) (v : V)
    (hset : Spec.lastSet h k = some v) (habs : Spec.lookup (Spec.contents cap max tmax h) k = none) :
    ∃ h1 ev h2, h = h1 ++ ev :: h2 ∧
      ((∃ now e, ev = .get k now ∧ Spec.lookup (Spec.contents cap max tmax h1) k = some e ∧ Spec.Expired tmax now e) ∨
       (∃ k' w u now e, ev = .set k' w u now ∧ k' ≠ k ∧ Spec.lookup (Spec.contents cap max tmax h1) k = some e ∧
          Spec.lookup (Spec.contents cap max tmax h1) k' = none ∧
          max < Spec.total (Spec.contents cap max tmax h1) + cap w) ∨
       (∃ w u now, ev = .set k w u now ∧ max < cap w)) := by
  induction h using List.reverseRecOn with
  | nil => simp [Spec.lastSet] at hset
  | append_singleton h ev ih =>
    rw [contents_snoc] at habs
    rw [lastSet_snoc] at hset
    have ext : Spec.lastSet h k = some v → Spec.lookup (Spec.contents cap max tmax h) k = none →
      _ := fun h1 h2 => ih h1 h2
    have lift : (∃ h1 ev' h2, h = h1 ++ ev' :: h2 ∧
      ((∃ now e, ev' = .get k now ∧ Spec.lookup (Spec.contents cap max tmax h1) k = some e ∧ Spec.Expired tmax now e) ∨
       (∃ k' w u now e, ev' = .set k' w u now ∧ k' ≠ k ∧ Spec.lookup (Spec.contents cap max tmax h1) k = some e ∧
          Spec.lookup (Spec.contents cap max tmax h1) k' = none ∧
          max < Spec.total (Spec.contents cap max tmax h1) + cap w) ∨
       (∃ w u now, ev' = .set k w u now ∧ max < cap w))) →
      ∃ h1 ev' h2, h ++ [ev] = h1 ++ ev' :: h2 ∧
      ((∃ now e, ev' = .get k now ∧ Spec.lookup (Spec.contents cap max tmax h1) k = some e ∧ Spec.Expired tmax now e) ∨
       (∃ k' w u now e, ev' = .set k' w u now ∧ k' ≠ k ∧ Spec.lookup (Spec.contents cap max tmax h1) k = some e ∧
          Spec.lookup (Spec.contents cap max tmax h1) k' = none ∧
          max < Spec.total (Spec.contents cap max tmax h1) + cap w) ∨
       (∃ w u now, ev' = .set k w u now ∧ max < cap w)) := by
      rintro ⟨h1, ev', h2, rfl, hh⟩
      exact ⟨h1, ev', h2 ++ [ev], by simp, hh⟩
    cases ev with
    | get k' now =>
      simp only at hset
      simp only [Spec.after] at habs
      by_cases hl : Spec.lookup (Spec.contents cap max tmax h) k = none
      · exact lift (ext hset hl)
      · cases he : Spec.lookup (Spec.contents cap max tmax h) k' with
        | none => rw [he] at habs; exact absurd habs hl
        | some e =>
          rw [he] at habs
          dsimp only at habs
          by_cases hx : Spec.Expired tmax now e
          · rw [if_pos hx] at habs
            by_cases hk : k = k'
            · subst hk
              exact ⟨h, _, [], rfl, Or.inl ⟨now, e, rfl, he, hx⟩⟩
            · rw [lookup_remove_ne _ hk] at habs; exact absurd habs hl
          · rw [if_neg hx] at habs; exact absurd habs hl
    | erase k' =>
      simp only at hset
      simp only [Spec.after] at habs
      by_cases hk : k' = k
      · rw [if_pos hk] at hset; exact absurd hset (by simp)
      · rw [if_neg hk] at hset
        rw [lookup_remove_ne _ (fun h => hk h.symm)] at habs
        exact lift (ext hset habs)
    | set k' w u now =>
      simp only at hset
      simp only [Spec.after] at habs
      cases he : Spec.lookup (Spec.contents cap max tmax h) k' with
      | some e =>
        rw [he] at habs
        dsimp only at habs
        by_cases hk : k' = k
        · subst hk
          rw [lookup_append_some] at habs
          simp [Spec.lookup] at habs
        · rw [if_neg hk] at hset
          rw [lookup_append_some, lookup_remove_ne _ (fun h => hk h.symm)] at habs
          simp only [Option.or_eq_none_iff] at habs
          exact lift (ext hset habs.1)
      | none =>
        rw [he] at habs
        dsimp only at habs
        obtain ⟨d, hd, hmin⟩ := evict_suffix max (Spec.contents cap max tmax h ++ [⟨k', w, cap w, now⟩])
        have hlk : Spec.lookup (Spec.contents cap max tmax h ++ [⟨k', w, cap w, now⟩]) k = Spec.lookup d k := by
          rw [hd, lookup_append_some, habs]; simp
        have hover : d ≠ [] → max < Spec.total (Spec.contents cap max tmax h) + cap w := by
          intro hne
          have := hmin [] d rfl hne
          rw [← hd, total_append] at this
          simpa [Spec.total] using this
        by_cases hk : k' = k
        · subst hk
          rw [lookup_append_some, he] at hlk
          simp [Spec.lookup] at hlk
          -- the new entry itself is in the removed part
          have hlast : d = Spec.contents cap max tmax h ++ [⟨k', w, cap w, now⟩] := by
            rcases List.eq_nil_or_concat (Spec.evict max (Spec.contents cap max tmax h ++ [⟨k', w, cap w, now⟩])) with hn | ⟨z, y, hz⟩
            · rw [hn, List.append_nil] at hd; exact hd.symm
            · rw [List.concat_eq_append] at hz
              rw [hz, ← List.append_assoc] at hd
              have := List.append_inj_right' hd rfl
              injection this with this
              rw [hz, ← this, lookup_append_some] at habs
              simp [Spec.lookup] at habs
          have hev : Spec.evict max (Spec.contents cap max tmax h ++ [⟨k', w, cap w, now⟩]) = [] := by
            have := congrArg List.length hd
            rw [hlast] at this
            simp at this
            exact this
          have := hmin (Spec.contents cap max tmax h) [⟨k', w, cap w, now⟩] hlast (by simp)
          rw [hev] at this
          exact ⟨h, _, [], rfl, Or.inr (Or.inr ⟨w, u, now, rfl, by simpa [Spec.total] using this⟩)⟩
        · rw [if_neg hk] at hset
          cases hl : Spec.lookup (Spec.contents cap max tmax h) k with
          | none => exact lift (ext hset hl)
          | some e =>
            rw [lookup_append_some, hl] at hlk
            refine ⟨h, _, [], rfl, Or.inr (Or.inl ⟨k', w, u, now, e, rfl, hk, hl, he, hover ?_⟩)⟩
            rintro rfl
            simp [Spec.lookup] at hlk

example : Spec.Fits (fun v => (sampleCap v).toNat) 1000 (sampleH.map evOf) := by
  refine ⟨by decide +kernel, ?_⟩
  intro ev hev
  simp only [sampleH, List.map_cons, List.map_nil, evOf, List.mem_cons, List.mem_nil_iff, or_false] at hev
  rcases hev with rfl | rfl | rfl | rfl | rfl | rfl | rfl <;> decide

example : (match run sampleCap (init 100 1000) sampleH with
    | .ok s => (match get s 1 1005 with | .ok (_, r) => r | .ub => none)
    | .ub => none) = some 40 := by decide +kernel

/-! ## C41: the size limit -/

/-- **C41, refuted.** Replacing the value of a present key does not evict: after these two sets the cache of size 10 holds one
entry of size 100. -/
theorem C41_refuted : ∃ s es, run sampleCap (init 10 0) [.set (1 : Nat) 5 true 0, .set 1 100 true 0] = .ok s ∧ Lists s es ∧
    10 < Spec.total es := by
  obtain ⟨s, e, hl⟩ := C40_contents (K := Nat) (V := Nat) sampleCap 10 0 [.set (1 : Nat) 5 true 0, .set 1 100 true 0] (by
    refine ⟨by decide +kernel, ?_⟩
    intro ev hev
    simp only [List.map_cons, List.map_nil, evOf, List.mem_cons, List.mem_nil_iff, or_false] at hev
    rcases hev with rfl | rfl <;> decide)
  exact ⟨s, _, e, hl, by decide +kernel⟩

/-- **C41, refuted** after all histories: when a key is present, a `set` of it keeps all the other entries and the new value, however large they are together. -/
theorem C41_refuted_all (cap : V → UInt64) (size_max time_max : UInt64) (h : List (Op K V)) (k : K) (v : V) (u : Bool) (now : UInt64) (e : Spec.Entry K V)
    (hf : Spec.Fits (fun v => (cap v).toNat) time_max.toNat ((h ++ [Op.set k v u now]).map evOf))
    (hk : Spec.lookup (Spec.contents (fun v => (cap v).toNat) size_max.toNat time_max.toNat (h.map evOf)) k = some e)
    (hbig : size_max.toNat < Spec.total (Spec.remove (Spec.contents (fun v => (cap v).toNat) size_max.toNat time_max.toNat (h.map evOf)) k) + (cap v).toNat) :
    ∃ s es, run cap (init size_max time_max) (h ++ [Op.set k v u now]) = .ok s ∧ Lists s es ∧ size_max.toNat < Spec.total es := by
  obtain ⟨s, hr, hl⟩ := C40_contents cap size_max time_max (h ++ [Op.set k v u now]) hf
  refine ⟨s, _, hr, hl, ?_⟩
  rw [List.map_append, List.map_singleton, contents_snoc, evOf]
  simp only [Spec.after, hk]
  rw [total_append]
  simpa [Spec.total] using hbig

-- a cache of size 10 with an entry of size 5 that gets the size 100
example : Spec.lookup (Spec.contents (fun v => (sampleCap v).toNat) 10 0 ([Op.set (1 : Nat) 5 true 0].map evOf)) 1 = some ⟨1, 5, 5, 0⟩ := by rfl

/-- No `set` of the history replaces the value of a present key by a larger one. -/
def GrowFree (cap : V → Nat) (max tmax : Nat) (h : List (Spec.Event K V)) : Prop :=
  ∀ h1 k v u now h2, h = h1 ++ Spec.Event.set k v u now :: h2 →
    ∀ e, Spec.lookup (Spec.contents cap max tmax h1) k = some e → cap v ≤ e.size

theorem remove_lookup_total {l : List (Spec.Entry K V)} {k : K} {e} (h : Spec.lookup l k = some e) :
    Spec.total (Spec.remove l k) + e.size ≤ Spec.total l := by
  induction l with
  | nil => simp [Spec.lookup] at h
  | cons x l ih =>
    unfold Spec.lookup at h ih
    have hr := remove_total_le l k
    rw [List.find?_cons] at h
    by_cases hx : x.key = k
    · simp only [hx, decide_true] at h
      injection h with h; subst h
      have : Spec.remove (x :: l) k = Spec.remove l k := by
        unfold Spec.remove; rw [List.filter_cons]; simp [hx]
      rw [this, total_cons]; omega
    · simp only [hx, decide_false] at h
      have ih := ih h
      have : Spec.remove (x :: l) k = x :: Spec.remove l k := by
        unfold Spec.remove; rw [List.filter_cons]; simp [hx]
      rw [this, total_cons, total_cons]; omega

theorem contents_le (cap : V → Nat) (max tmax : Nat) (h : List (Spec.Event K V)) : GrowFree cap max tmax h →
    Spec.total (Spec.contents cap max tmax h) ≤ max := by
  induction h using List.reverseRecOn with
  | nil => intro _; simp [Spec.contents, Spec.total]
  | append_singleton h ev ih =>
    intro hg
    have ih := ih (fun h1 k v u now h2 e => hg h1 k v u now (h2 ++ [ev]) (by rw [e]; simp))
    rw [contents_snoc]
    cases ev with
    | get k now =>
      have := after_total cap max tmax (Spec.contents cap max tmax h) (.get k now)
      simp only [evSize] at this; omega
    | erase k =>
      have := after_total cap max tmax (Spec.contents cap max tmax h) (.erase k)
      simp only [evSize] at this; omega
    | set k v u now =>
      simp only [Spec.after]
      split
      · rename_i e he
        have h1 := hg h k v u now [] rfl e he
        have h2 := remove_lookup_total he
        rw [total_append]
        have : Spec.total [(⟨k, v, cap v, if u = true then now else e.time⟩ : Spec.Entry K V)] = cap v := by simp [Spec.total]
        omega
      · exact evict_le _ _

/-- **C41, partial** (the full claim is refuted above).  After every history in which no `set` replaces the value of a present
key by a larger one, the sizes of the cached entries add up to at most `size_max`. -/
theorem C41_size_limit_partial (cap : V → UInt64) (size_max time_max : UInt64) (h : List (Op K V))
    (hf : Spec.Fits (fun v => (cap v).toNat) time_max.toNat (h.map evOf))
    (hg : GrowFree (fun v => (cap v).toNat) size_max.toNat time_max.toNat (h.map evOf)) :
    ∃ s es, run cap (init size_max time_max) h = .ok s ∧ Lists s es ∧ Spec.total es ≤ size_max.toNat := by
  obtain ⟨s, e, hl⟩ := C40_contents cap size_max time_max h hf
  exact ⟨s, _, e, hl, contents_le _ _ _ _ hg⟩

/-- **C41, partial.** Whatever happened before: right after the insertion of a key that is not present, the accounted size is at
most `size_max`. -/
theorem C41_insert_fits_partial (cap : V → UInt64) (size_max time_max : UInt64) (h : List (Op K V)) (s : Cache K V) (k : K) (v : V) (u : Bool)
    (now : UInt64) (hs : run cap (init size_max time_max) h = .ok s) (hk : s.data k = none) :
    ∃ s', set cap s k v u now = .ok s' ∧ s'.size_cur ≤ size_max := by
  obtain ⟨s0, l, e, r, m, _⟩ := run_rep cap h _ _ (rep_init (K := K) (V := V) size_max time_max)
  rw [hs] at e; injection e with e; subst e
  obtain ⟨s', e, r', _⟩ := set_new cap r k v u now hk
  refine ⟨s', e, ?_⟩
  rw [r'.size, m]
  show _ ≤ size_max
  have hle : ∀ (mx : UInt64) (l : List (Nat × Ent K V)), sumU (evictU mx l) ≤ mx := by
    intro mx l
    induction l with
    | nil => simp [evictU, sumU]
    | cons x l ih =>
      rw [evictU]
      split
      · exact ih
      · rename_i hc; exact UInt64.not_lt.mp hc
  exact hle _ _

example : GrowFree (fun v => (sampleCap v).toNat) 10 0 ([Op.set (1 : Nat) 5 true 0, .set 1 4 true 0].map evOf) := by
  intro h1 k v u now h2 h e he
  cases h1 with
  | nil => simp [Spec.contents, Spec.lookup] at he
  | cons a h1 =>
    cases h1 with
    | nil =>
      simp only [List.map_cons, List.map_nil, evOf, List.cons_append, List.nil_append] at h
      injection h with ha h; injection h with h _; injection h with hk hv hu hn
      subst ha hk hv
      have : e = ⟨1, 5, 5, 0⟩ := by
        have he' : Spec.lookup (Spec.contents (fun v => (sampleCap v).toNat) 10 0 [Spec.Event.set 1 5 true (0 : UInt64).toNat]) 1
          = some (⟨1, 5, 5, 0⟩ : Spec.Entry Nat Nat) := by rfl
        rw [he'] at he; injection he with he; exact he.symm
      subst this; decide
    | cons b h1 =>
      simp only [List.map_cons, List.map_nil, List.cons_append, List.cons.injEq] at h
      exact absurd h.2.2 (by cases h1 <;> simp)

/-! ## C42: eviction order -/

/-- **C42.** When a key that is not present is set after a history that does not overflow, then, `es` being the entries in order
of their last set (the oldest first) with the new entry appended, the entries left are `es` without a first part `dropped`; they fit into
`size_max`; and with any shorter part dropped they would not fit. -/
theorem C42_evicts_oldest (cap : V → UInt64) (size_max time_max : UInt64) (h : List (Op K V)) (k : K) (v : V) (u : Bool) (now : UInt64)
    (hf : Spec.Fits (fun v => (cap v).toNat) time_max.toNat ((h ++ [Op.set k v u now]).map evOf)) (s : Cache K V)
    (hs : run cap (init size_max time_max) h = .ok s) (hk : s.data k = none) :
    ∃ s' es dropped left, Lists s es ∧ set cap s k v u now = .ok s' ∧ Lists s' left ∧
      es ++ [⟨k, v, (cap v).toNat, now.toNat⟩] = dropped ++ left ∧ Spec.total left ≤ size_max.toNat ∧
      ∀ d1 d2, dropped = d1 ++ d2 → d2 ≠ [] → size_max.toNat < Spec.total (d2 ++ left) := by
  rw [List.map_append] at hf
  obtain ⟨s0, l, e, r, m, t, hl⟩ := run_ref cap size_max time_max h (Fits_prefix hf)
  rw [hs] at e; injection e with e; subst e
  have hsz := hf.1
  rw [setSizes_append, List.map_cons, List.map_nil, setSizes_one] at hsz
  have htot := contents_total (capN cap) size_max.toNat time_max.toNat (h.map evOf)
  have hcap : Spec.setSizes (fun v => (cap v).toNat) (h.map evOf) = Spec.setSizes (capN cap) (h.map evOf) := rfl
  obtain ⟨s', l', e', r', m', t', hl'⟩ := step_ref cap r (.set k v u now) (by
      rw [hl]
      simp only [evSize, evOf, capN] at hsz ⊢
      rw [hcap] at hsz
      omega)
    (by rw [hl, t]; exact Fits_times (Fits_prefix hf))
  simp only [evOf, Spec.after] at hl'
  rw [lookup_none (data_none r hk)] at hl'
  dsimp only at hl'
  obtain ⟨d, h1, h2⟩ := evict_suffix size_max.toNat (l.map toEntry ++ [⟨k, v, (cap v).toNat, now.toNat⟩])
  have hll := r'.lists
  rw [hl', m] at hll
  exact ⟨s', _, d, _, r.lists, e', hll, h1, evict_le _ _, h2⟩

/-- **C42.** Setting a key moves its entry to the recent end, whether or not it was present; everything else keeps its order. -/
theorem C42_set_moves_to_end (cap : V → UInt64) (size_max time_max : UInt64) (h : List (Op K V)) (s : Cache K V) (k : K) (v : V)
    (u : Bool) (now : UInt64) (hs : run cap (init size_max time_max) h = .ok s) (hk : s.data k ≠ none) :
    ∃ s' es e, Lists s es ∧ Spec.lookup es k = some e ∧ set cap s k v u now = .ok s' ∧
      Lists s' (Spec.remove es k ++ [⟨k, v, (cap v).toNat, if u then now.toNat else e.time⟩]) := by
  obtain ⟨s0, l, e, r, m, _⟩ := run_rep cap h _ _ (rep_init (K := K) (V := V) size_max time_max)
  rw [hs] at e; injection e with e; subst e
  cases hd : s.data k with
  | none => exact absurd hd hk
  | some a =>
    obtain ⟨xs, e, ys, rfl, rfl⟩ := data_some r hd
    obtain ⟨s', e2, r2, _⟩ := set_existing cap r v u now
    have hks := keys_split r.keys
    refine ⟨s', _, _, r.lists, lookup_split hks, e2, ?_⟩
    have := r2.lists
    rw [List.map_append] at this
    rw [remove_split hks]
    have hx : List.map toEntry [(a, (⟨e.key, v, cap v, if u then now else e.time⟩ : Ent K V))]
        = [⟨e.key, v, (cap v).toNat, if u then now.toNat else (toEntry (a, e)).time⟩] := by
      cases u <;> rfl
    rw [hx] at this
    exact this

/-! ## C43: expiry -/

/-- **C43.** After any history that does not overflow, for a key with entry `e`: with `time_max = 0` a `get` returns its value at any
time; otherwise a `get` at most `time_max` seconds after the entry's time returns its value and one later than that returns nothing and removes it. -/
theorem C43_expiry (cap : V → UInt64) (size_max time_max : UInt64) (h : List (Op K V)) (s : Cache K V) (es : List (Spec.Entry K V))
    (k : K) (now : UInt64) (e : Spec.Entry K V)
    (hf : Spec.Fits (fun v => (cap v).toNat) time_max.toNat (h.map evOf))
    (hs : run cap (init size_max time_max) h = .ok s)
    (he : es = Spec.contents (fun v => (cap v).toNat) size_max.toNat time_max.toNat (h.map evOf))
    (hk : Spec.lookup es k = some e) :
    Lists s es ∧
    ((time_max = 0 ∨ now.toNat ≤ e.time + time_max.toNat) → get s k now = .ok (s, some e.val)) ∧
    ((time_max ≠ 0 ∧ e.time + time_max.toNat < now.toNat) →
      ∃ s', get s k now = .ok (s', none) ∧ Lists s' (Spec.remove es k) ∧ s'.data k = none) := by
  obtain ⟨s0, l, e0, r, m, t, hl⟩ := run_ref cap size_max time_max h hf
  rw [hs] at e0; injection e0 with e0; subst e0
  have hes : es = l.map toEntry := by rw [he]; exact hl.symm
  have htm := Fits_times (max := size_max.toNat) hf
  rw [← he, hes] at htm
  subst hes
  refine ⟨r.lists, ?_⟩
  rcases get_spec r k now with ⟨hd, h⟩ | ⟨xs, a, e', ys, rfl, rfl, hd, h⟩
  · rw [lookup_none (data_none r hd)] at hk; exact absurd hk (by simp)
  · have hks := keys_split r.keys
    rw [lookup_split hks] at hk
    injection hk with hk
    have hex := expired_iff e' a time_max now (htm (toEntry (a, e')) (by simp))
    rw [hk] at hex
    unfold Spec.Expired at hex
    have h0 : time_max ≠ 0 ↔ time_max.toNat ≠ 0 := by
      constructor
      · intro h h'; exact h (UInt64.toNat_inj.mp (by simpa using h'))
      · rintro h rfl; exact h rfl
    rw [t] at h
    refine ⟨?_, ?_⟩
    · intro hc
      rcases h with ⟨_, h⟩ | ⟨hc', _⟩
      · rw [h, ← hk]; rfl
      · have := hex.mp hc'
        rcases hc with hc | hc
        · subst hc; exact absurd rfl this.1
        · omega
    · intro hc
      have hc2 := hex.mpr ⟨h0.mp hc.1, hc.2⟩
      rcases h with ⟨hc', _⟩ | ⟨_, s', h, r', _⟩
      · exact absurd hc2 hc'
      · refine ⟨s', h, ?_, ?_⟩
        · rw [remove_split hks]; exact r'.lists
        · cases hd' : s'.data e'.key with
          | none => rfl
          | some b =>
            obtain ⟨e2, he2, hk2⟩ := (r'.tbl _ _).mp hd'
            exact absurd hk2 (hks _ he2)

/-- **C43, refuted beyond the no-overflow hypothesis.** With the largest lifetime limit an entry set at time 5 is outdated at time 5:
`time + time_max` wraps around. -/
theorem C43_overflow_refuted : (match run sampleCap (init 100 (UInt64.ofNat (2 ^ 64 - 1))) [Op.set (1 : Nat) 7 true 5] with
    | .ok s => (match get s 1 5 with | .ok (_, r) => r | .ub => some 0)
    | .ub => some 0) = none := by decide +kernel

/-- non-vacuity: the entry of key 1 keeps the time of its first set, because its second set did not update the time -/
example : (Spec.lookup (Spec.contents (fun v => (sampleCap v).toNat) 100 1000 (sampleH.map evOf)) 1).map (fun e => (e.val, e.time))
    = some (40, 5) := by decide +kernel

end Verif.Cache
