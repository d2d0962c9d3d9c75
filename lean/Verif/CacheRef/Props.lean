/-
  C137: the pointer that `get` returns.  C138: `dbg`.  C139: copies of a cache.  C140: `set` with a reference into the cache.
  The contents of a cache are those of Verif.Cache.Spec; `evOf` translates the operations into its events.
-/
import Verif.Cache.Props
import Verif.CacheRef.Lemmas
import Verif.CacheRef.Frame

set_option linter.unusedSectionVars false

namespace Verif.CacheRef
open Cache

variable {K V : Type} [DecidableEq K] [Inhabited V]

/-- The contents that the specification prescribes after a history. -/
def contents (cap : V → UInt64) (max tmax : UInt64) (h : List (Op K V)) : List (Spec.Entry K V) :=
  Spec.contents (fun v => (cap v).toNat) max.toNat tmax.toNat (h.map evOf)

def Fits (cap : V → UInt64) (tmax : UInt64) (h : List (Op K V)) : Prop := Spec.Fits (fun v => (cap v).toNat) tmax.toNat (h.map evOf)

/-- **C137.** `get` returns a pointer `p`.  Whatever is done to the cache afterwards, the pointer can be followed as long as the entry has been in the cache all the time, and
gives the current value of the entry; as soon as the entry has once left the cache (it was erased, dropped, or found to be outdated), following it is undefined. -/
theorem C137_pointer (cap : V → UInt64) (max tmax : UInt64) (h1 h2 : List (Op K V)) (k : K) (now : UInt64) (hf : Fits cap tmax (h1 ++ Op.get k now :: h2))
    (s1 s1' : Cache K V) (p : Nat) (e1 : run cap (init max tmax) h1 = .ok s1) (eg : getPtr s1 k now = .ok (s1', some p)) :
    ∃ s2, run cap s1' h2 = .ok s2 ∧
      ((∀ i, Spec.lookup (contents cap max tmax (h1 ++ Op.get k now :: h2.take i)) k ≠ none) →
        ∃ e, Spec.lookup (contents cap max tmax (h1 ++ Op.get k now :: h2)) k = some e ∧ readPtr s2 p = .ok e.val) ∧
      ((∃ i, Spec.lookup (contents cap max tmax (h1 ++ Op.get k now :: h2.take i)) k = none) → readPtr s2 p = .ub) := by
  have f1 : Spec.Fits (capN cap) tmax.toNat ((h1 ++ [Op.get k now]).map evOf) := by
    have e : h1 ++ Op.get k now :: h2 = (h1 ++ [Op.get k now]) ++ h2 := by simp
    unfold Fits at hf
    rw [e, List.map_append] at hf
    exact Fits_prefix hf
  have e : ∀ t : List (Op K V), h1 ++ Op.get k now :: t = (h1 ++ [Op.get k now]) ++ t := by simp
  obtain ⟨s, l, er, r, m, t, hl⟩ := run_ref cap max tmax (h1 ++ [Op.get k now]) f1
  have hp : s1' = s1 ∧ s1.data k = some p ∧ Cache.step cap s1 (.get k now) = .ok s1 := by
    unfold getPtr at eg
    cases hd : s1.data k with
    | none => rw [hd] at eg; cases eg
    | some a =>
      rw [hd] at eg
      simp only at eg
      cases hn : deref s1.heap a with
      | ub => rw [hn] at eg; cases eg
      | ok n =>
        rw [hn] at eg
        simp only [Res.ok_bind] at eg
        split at eg
        · cases he : eraseAt s1 a with
          | ub => rw [he] at eg; cases eg
          | ok s' => rw [he] at eg; cases eg
        · rename_i hc
          cases eg
          exact ⟨rfl, rfl, by simp only [Cache.step, Cache.get, hd, hn, Res.ok_bind, if_neg hc]⟩
  obtain ⟨rfl, hd, hs⟩ := hp
  have hss : s = s1' := by
    rw [run_append, e1] at er
    simp only [Res.bind, run, hs, Res.ok_bind, Res.ok.injEq] at er
    exact er.symm
  subst hss
  have hL : Live l p k := (r.tbl k p).1 hd
  obtain ⟨s2, l2, t2, r2, hl2, -, k2, d2⟩ := run_track cap max tmax p k h2 (h1 ++ [Op.get k now]) s l r m t hl (by rw [← e]; exact hf)
  refine ⟨s2, t2, fun hall => ?_, fun hex => ?_⟩
  · have := live_read r2 (k2 hL (fun i => by rw [← e]; exact hall i))
    rw [hl2, ← e] at this
    exact this
  · obtain ⟨i, hi⟩ := hex
    exact gone_read r2 (d2 hL ⟨i, by rw [← e]; exact hi⟩)

/-- Sizes of the values in the samples. -/
def sampleCap : Nat → UInt64 := fun v => UInt64.ofNat v

/-- The entry of 1 stays while 1 is set again, and 2 is set and erased; it is dropped when 3 is set. -/
example : (match run sampleCap (init 100 0) [.set (1 : Nat) 10 true 5] with
    | .ok s => match getPtr s 1 6 with
      | .ok (s, some p) => match run sampleCap s [.set 2 20 true 6, .set 1 30 true 7, .erase 2] with
        | .ok s' => match run sampleCap s' [.set 3 90 true 8] with
          | .ok s'' => (readPtr s p, readPtr s' p, readPtr s'' p)
          | .ub => (.ub, .ub, .ub)
        | .ub => (.ub, .ub, .ub)
      | _ => (.ub, .ub, .ub)
    | .ub => (.ub, .ub, .ub)) = (.ok 10, .ok 30, .ub) := by decide +kernel

example : (∀ i < 4, Spec.lookup (contents sampleCap 100 0 ([.set (1 : Nat) 10 true 5] ++ Op.get 1 6 :: [.set 2 20 true 6, .set 1 30 true 7, .erase 2].take i)) 1 ≠ none) ∧
    Spec.lookup (contents sampleCap 100 0 ([.set (1 : Nat) 10 true 5] ++ Op.get 1 6 :: [.set 2 20 true 6, .set 1 30 true 7, .erase 2, .set 3 90 true 8])) 1 = none := by
  decide +kernel

/-- **C138.** After every history, `dbg` ends without following a bad pointer, and prints the number of entries, their size, the size limit, and the entries in the order in
which they would be dropped, each once; the addresses it prints are those of the neighbours. -/
theorem C138_dbg (cap : V → UInt64) (max tmax : UInt64) (h : List (Op K V)) (hf : Fits cap tmax h) (now : UInt64) :
    ∃ s r, run cap (init max tmax) h = .ok s ∧ dbg s now true = .ok r ∧ dbg s now false = .ok { r with rows := [] } ∧
      r.nelt_cur = (contents cap max tmax h).length ∧ r.size_cur.toNat = Spec.total (contents cap max tmax h) ∧ r.size_max = max ∧ r.time_max = now - tmax ∧
      r.rows.map (fun x => (x.key, x.size.toNat, x.time.toNat)) = (contents cap max tmax h).map (fun e => (e.key, e.size, e.time)) ∧
      ∃ as : List Nat, as.Nodup ∧ as.length = r.rows.length ∧ (∀ i a x, as[i]? = some a → r.rows[i]? = some x → s.data x.key = some a ∧
        x.next = as[i + 1]? ∧ x.prev = if i = 0 then none else as[i - 1]?) := by
  obtain ⟨s, l, er, r, m, t, hl⟩ := run_ref cap max tmax h hf
  have hc : l.map toEntry = contents cap max tmax h := hl
  have htot : Spec.total (l.map toEntry) < 2 ^ 64 := by
    rw [hl]
    have := contents_total (capN cap) max.toNat tmax.toNat (h.map evOf)
    have := hf.1
    exact Nat.lt_of_le_of_lt (by assumption) this
  refine ⟨s, _, er, dbg_spec r now, by simp only [dbg, Bool.false_eq_true, if_false, Res.ok_bind, count_length r, r.size], ?_, ?_, m, by rw [t], ?_, l.map (·.1), r.addr, ?_, ?_⟩
  · rw [← hc, List.length_map]
  · rw [← hc, ← sumU_toNat l htot]
  · rw [← hc, rowsOf_map]
  · rw [rowsOf_length, List.length_map]
  · intro i a x ha hx
    obtain ⟨h1, h2, y, hy, hk⟩ := rowsOf_get l none i x hx
    refine ⟨?_, h1, h2⟩
    rw [List.getElem?_map, hy] at ha
    cases ha
    exact (r.tbl _ _).2 ⟨y.2, List.mem_of_getElem? hy, hk.symm⟩

example : Fits sampleCap 0 [.set (1 : Nat) 10 true 5, .set 2 20 true 6, .set 1 30 true 7] ∧
    (contents sampleCap 100 0 [.set (1 : Nat) 10 true 5, .set 2 20 true 6, .set 1 30 true 7]).map (fun e => (e.key, e.size, e.time)) = [(2, 20, 6), (1, 30, 7)] ∧
    (match run sampleCap (init 100 0) [.set (1 : Nat) 10 true 5, .set 2 20 true 6, .set 1 30 true 7] with
      | .ok s => dbg s 9 true
      | .ub => .ub) = .ok ⟨2, 50, 100, 9, [⟨2, 20, none, some 0, 6⟩, ⟨1, 30, some 1, none, 7⟩]⟩ := by
  refine ⟨⟨by decide, fun ev hev => ?_⟩, by decide +kernel, by decide +kernel⟩
  simp only [List.map_cons, List.map_nil, evOf, List.mem_cons, List.mem_nil_iff, or_false] at hev
  rcases hev with rfl | rfl | rfl <;> decide

/-- **C140.** A value that lies in the cache can be given to `set`, for another key or for its own, known or new, although the call may drop the entry in which it lies: if a
pointer that get returned can still be followed and gives `v`, then `set(k, *p)` does what the specification says of setting `k` to `v`. For all histories, keys, limits. -/
theorem C140_alias (cap : V → UInt64) (max tmax : UInt64) (h : List (Op K V)) (s : Cache K V) (er : run cap (init max tmax) h = .ok s) (p : Nat) (v : V)
    (hp : readPtr s p = .ok v) (k : K) (u : Bool) (now : UInt64) (hf : Fits cap tmax (h ++ [Op.set k v u now])) :
    ∃ s', setFrom cap s k p u now = .ok s' ∧ Lists s' (contents cap max tmax (h ++ [Op.set k v u now])) := by
  obtain ⟨s1, l, e1, r, -⟩ := run_rep cap h _ _ (rep_init (K := K) (V := V) max tmax)
  rw [er] at e1
  cases e1
  have hne : p ≠ s.fresh := by
    rintro rfl
    unfold readPtr deref at hp
    rw [rep_big r s.fresh (Nat.le_refl _)] at hp
    cases hp
  obtain ⟨s2, l2, e2, r2, -, -, hl⟩ := run_ref cap max tmax (h ++ [Op.set k v u now]) hf
  rw [run_append, er] at e2
  simp only [Res.bind, run, Cache.step] at e2
  rw [setFrom_eq cap s k p v u now hp hne]
  cases hs : Cache.set cap s k v u now with
  | ub => rw [hs] at e2; cases e2
  | ok s' =>
    rw [hs] at e2
    cases e2
    refine ⟨_, rfl, ?_⟩
    have := r2.lists
    rw [hl] at this
    exact this

/-- The entry of 1 is dropped by the very call that copies its value. -/
example : (match run sampleCap (init 100 0) [.set (1 : Nat) 60 true 5] with
    | .ok s => match getPtr s 1 6 with
      | .ok (s, some p) => match setFrom sampleCap s 2 p true 7 with
        | .ok s' => ((readPtr s p, readPtr s' p), (match Cache.get s' 2 8 with | .ok (_, v) => v | .ub => none))
        | .ub => ((.ub, .ub), none)
      | _ => ((.ub, .ub), none)
    | .ub => ((.ub, .ub), none)) = ((.ok 60, .ub), some 60) := by decide +kernel

/-- **C139, in part.** A copy that is only read, while none of the entries asked for is outdated, gives what the original contains; after it has been destroyed the original is
what it was: every further history has the contents that it has without the copy. Missing: copies that are changed, for which it is false. -/
theorem C139_read_partial (cap : V → UInt64) (max tmax : UInt64) (h h2 : List (Op K V)) (hf : Fits cap tmax (h ++ h2)) (ks : List (K × UInt64))
    (hx : ∀ q ∈ ks, ∀ e, Spec.lookup (contents cap max tmax h) q.1 = some e → ¬ Spec.Expired tmax.toNat q.2.toNat e) :
    ∃ s t s2, run cap (init max tmax) h = .ok s ∧
      (∀ q ∈ ks, Cache.get (asCache (copy s).two (copy s).heap (copy s).fresh) q.1 q.2 =
        .ok (asCache (copy s).two (copy s).heap (copy s).fresh, (Spec.lookup (contents cap max tmax h) q.1).map (·.val))) ∧
      run2 cap (copy s) ((ks.map fun q => .two (.get q.1 q.2)) ++ [.destroyTwo]) = .ok t ∧
      run cap (asCache t.one t.heap t.fresh) h2 = .ok s2 ∧ Lists s2 (contents cap max tmax (h ++ h2)) := by
  have f1 : Spec.Fits (capN cap) tmax.toNat (h.map evOf) := by
    unfold Fits at hf
    rw [List.map_append] at hf
    exact Fits_prefix hf
  obtain ⟨s, l, er, r, m, t, hl⟩ := run_ref cap max tmax h f1
  have hc : l.map toEntry = contents cap max tmax h := hl
  have htm : ∀ e ∈ l.map toEntry, e.time + s.time_max.toNat < 2 ^ 64 := by rw [hl, t]; exact Fits_times f1
  have hx' : ∀ q ∈ ks, ∀ e, Spec.lookup (l.map toEntry) q.1 = some e → ¬ Spec.Expired s.time_max.toNat q.2.toNat e := by rw [hc, t]; exact hx
  have r2 := rep_more r s.fresh
  by_cases hK : Nonempty K
  · obtain ⟨k0⟩ := hK
    obtain ⟨s2, l2, t2, r3, hl3, -⟩ := run_track cap max tmax 0 k0 h2 h _ l r2 m t hl hf
    refine ⟨s, _, s2, er, fun q hq => ?_, by rw [run2_append cap _ _ (gets_two cap r htm ks hx')]; rfl, ?_, ?_⟩
    · rw [get_copy r q.1 q.2 htm (hx' q hq), hc]
    · rw [destroy_two r]
      exact t2
    · have := r3.lists
      rw [hl3] at this
      exact this
  · have : ∀ o : Op K V, False := fun o => hK (match o with | .get k _ => ⟨k⟩ | .set k _ _ _ => ⟨k⟩ | .erase k => ⟨k⟩)
    have e2 : h2 = [] := by
      cases h2 with
      | nil => rfl
      | cons o _ => exact (this o).elim
    subst e2
    refine ⟨s, _, _, er, fun q hq => absurd ⟨q.1⟩ hK, by rw [run2_append cap _ _ (gets_two cap r htm ks hx')]; rfl, rfl, ?_⟩
    rw [destroy_two r, List.append_nil, ← hc]
    exact r2.lists

example : ∀ q ∈ [((1 : Nat), (6 : UInt64)), (2, 7)], ∀ e, Spec.lookup (contents sampleCap 100 10 [.set (1 : Nat) 10 true 5, .set 2 20 true 6]) q.1 = some e →
    ¬ Spec.Expired (10 : UInt64).toNat q.2.toNat e := by
  intro q hq e he
  simp only [List.mem_cons, List.mem_nil_iff, or_false] at hq
  rcases hq with rfl | rfl
  · cases he; decide
  · cases he; decide

/-- What is done to the one and to the other of two caches. -/
def onesOf : List (Op2 K V) → List (Op K V)
  | [] => []
  | .one o :: os => o :: onesOf os
  | _ :: os => onesOf os

def twosOf : List (Op2 K V) → List (Op K V)
  | [] => []
  | .two o :: os => o :: twosOf os
  | _ :: os => twosOf os

/-- What `get` returns if the contents are `es`. -/
def found (es : List (Spec.Entry K V)) (tmax : UInt64) (k : K) (now : UInt64) : Option V :=
  match Spec.lookup es k with
  | none => none
  | some e => if Spec.Expired tmax.toNat now.toNat e then none else some e.val

theorem apart_run (cap : V → UInt64) (max tmax : UInt64) : ∀ (os : List (Op2 K V)) (a1 a2 : List (Op K V)) (t : Two K V) (l1 l2 : List (Nat × Ent K V)) (h1 h2 : Heap K V),
    Apart t l1 l2 h1 h2 → l1.map toEntry = contents cap max tmax a1 → l2.map toEntry = contents cap max tmax a2 →
    t.one.size_max = max ∧ t.one.time_max = tmax ∧ t.two.size_max = max ∧ t.two.time_max = tmax →
    Fits cap tmax (a1 ++ onesOf os) → Fits cap tmax (a2 ++ twosOf os) → .destroyOne ∉ os → .destroyTwo ∉ os →
    ∃ t' l1' l2' h1' h2', run2 cap t os = .ok t' ∧ Apart t' l1' l2' h1' h2' ∧ l1'.map toEntry = contents cap max tmax (a1 ++ onesOf os) ∧
      l2'.map toEntry = contents cap max tmax (a2 ++ twosOf os) ∧ t'.one.size_max = max ∧ t'.one.time_max = tmax ∧ t'.two.size_max = max ∧ t'.two.time_max = tmax := by
  have need : ∀ (l : List (Nat × Ent K V)) (a : List (Op K V)) (o : Op K V) (r : List (Op K V)), l.map toEntry = contents cap max tmax a → Fits cap tmax (a ++ o :: r) →
      Spec.total (l.map toEntry) + evSize (capN cap) (evOf o) < 2 ^ 64 ∧ (∀ e ∈ l.map toEntry, e.time + tmax.toNat < 2 ^ 64) ∧ Fits cap tmax (a ++ [o] ++ r) ∧
      contents cap max tmax (a ++ [o]) = Spec.after (capN cap) max.toNat tmax.toNat (contents cap max tmax a) (evOf o) := by
    intro l a o r hl hf
    unfold Fits at hf
    have hf2 : Fits cap tmax (a ++ [o] ++ r) := by unfold Fits; rw [List.append_assoc]; exact hf
    have hf3 := hf2
    unfold Fits at hf3
    rw [List.map_append] at hf3
    have hf4 := Fits_prefix hf3
    rw [List.map_append] at hf4
    have hsz := hf4.1
    rw [setSizes_append, List.map_cons, List.map_nil, setSizes_one] at hsz
    have htot := contents_total (capN cap) max.toNat tmax.toNat (a.map evOf)
    refine ⟨?_, ?_, hf2, ?_⟩
    · rw [hl]; exact Nat.lt_of_le_of_lt (Nat.add_le_add_right htot _) hsz
    · rw [hl]; exact Fits_times (Fits_prefix hf4)
    · unfold contents
      rw [List.map_append, List.map_cons, List.map_nil, contents_snoc]
      rfl
  intro os
  induction os with
  | nil =>
    intro a1 a2 t l1 l2 h1 h2 ap e1 e2 hm _ _ _ _
    exact ⟨t, l1, l2, h1, h2, rfl, ap, by simpa [onesOf] using e1, by simpa [twosOf] using e2, hm⟩
  | cons o os ih =>
    intro a1 a2 t l1 l2 h1 h2 ap e1 e2 hm f1 f2 d1 d2
    have d1' : Op2.destroyOne ∉ os := fun h => d1 (List.mem_cons_of_mem _ h)
    have d2' : Op2.destroyTwo ∉ os := fun h => d2 (List.mem_cons_of_mem _ h)
    obtain ⟨m1, m2, m3, m4⟩ := hm
    cases o with
    | one o =>
      simp only [onesOf, twosOf] at f1 f2 ⊢
      obtain ⟨n1, n2, n3, n4⟩ := need l1 a1 o (onesOf os) e1 f1
      obtain ⟨t', l', h', es, ap', q1, q2, q3, q4⟩ := apart_step cap ap o n1 (by rw [m2]; exact n2)
      obtain ⟨u, k1, k2, g1, g2, r⟩ := ih (a1 ++ [o]) a2 t' l' l2 h' h2 ap' (by rw [q4, n4, e1, m1, m2]) e2 ⟨q2.trans m1, q3.trans m2, by rw [q1]; exact m3, by rw [q1]; exact m4⟩ n3 f2 d1' d2'
      refine ⟨u, k1, k2, g1, g2, ?_, r.2.1, ?_, r.2.2.2.1, r.2.2.2.2⟩
      · rw [run2, es]; exact r.1
      · rw [r.2.2.1, List.append_assoc]; rfl
    | two o =>
      simp only [onesOf, twosOf] at f1 f2 ⊢
      obtain ⟨n1, n2, n3, n4⟩ := need l2 a2 o (twosOf os) e2 f2
      obtain ⟨t', l', h', es, ap', q1, q2, q3, q4⟩ := apart_step_two cap ap o n1 (by rw [m4]; exact n2)
      obtain ⟨u, k1, k2, g1, g2, r⟩ := ih a1 (a2 ++ [o]) t' l1 l' h1 h' ap' e1 (by rw [q4, n4, e2, m3, m4]) ⟨by rw [q1]; exact m1, by rw [q1]; exact m2, q2.trans m3, q3.trans m4⟩ f1 n3 d1' d2'
      refine ⟨u, k1, k2, g1, g2, ?_, r.2.1, r.2.2.1, ?_, r.2.2.2.2⟩
      · rw [run2, es]; exact r.1
      · rw [r.2.2.2.1, List.append_assoc]; rfl
    | destroyOne => exact absurd (by simp) d1
    | destroyTwo => exact absurd (by simp) d2

theorem empty_rep (cap : V → UInt64) (max tmax : UInt64) (h : List (Op K V)) (hf : Fits cap tmax h) (he : contents cap max tmax h = []) :
    ∃ s, run cap (init max tmax) h = .ok s ∧ Rep s [] ∧ s.size_max = max ∧ s.time_max = tmax := by
  obtain ⟨s, l, er, r, m, tm, hl⟩ := run_ref cap max tmax h hf
  have : l = [] := by
    have : l.map toEntry = [] := hl.trans he
    simpa using this
  subst this
  exact ⟨s, er, r, m, tm⟩

/-- **C139, a copy of an empty cache** is a cache of its own: whatever is done to the two, in any order, each gives what it would give alone with the calls made to it; and when one of
them has been destroyed, the other goes on in the same way. For all histories that leave the cache empty. Missing: copies of caches with entries (`C139_read_partial`,
`C139_refuted_dangling`). -/
theorem C139_empty_partial (cap : V → UInt64) (max tmax : UInt64) (h : List (Op K V)) (he : contents cap max tmax h = []) (os : List (Op2 K V)) (h2 : List (Op K V))
    (hd : .destroyOne ∉ os ∧ .destroyTwo ∉ os) (f1 : Fits cap tmax (h ++ onesOf os ++ h2)) (f2 : Fits cap tmax (h ++ twosOf os ++ h2)) :
    ∃ s t, run cap (init max tmax) h = .ok s ∧ run2 cap (copy s) os = .ok t ∧
      (∀ k now, ∃ c, Cache.get (asCache t.one t.heap t.fresh) k now = .ok (c, found (contents cap max tmax (h ++ onesOf os)) tmax k now)) ∧
      (∀ k now, ∃ c, Cache.get (asCache t.two t.heap t.fresh) k now = .ok (c, found (contents cap max tmax (h ++ twosOf os)) tmax k now)) ∧
      (∃ u s2, run2 cap t [.destroyOne] = .ok u ∧ run cap (asCache u.two u.heap u.fresh) h2 = .ok s2 ∧ Lists s2 (contents cap max tmax (h ++ twosOf os ++ h2))) ∧
      (∃ u s2, run2 cap t [.destroyTwo] = .ok u ∧ run cap (asCache u.one u.heap u.fresh) h2 = .ok s2 ∧ Lists s2 (contents cap max tmax (h ++ onesOf os ++ h2))) := by
  have pre : ∀ {a b : List (Op K V)}, Fits cap tmax (a ++ b) → Fits cap tmax a := by
    intro a b hf
    unfold Fits at hf
    rw [List.map_append] at hf
    exact Fits_prefix hf
  obtain ⟨s, er, r, m, tm⟩ := empty_rep cap max tmax h (pre (pre f1)) he
  obtain ⟨t, l1, l2, h1, h2', e, ap, c1, c2, m1, m2, m3, m4⟩ := apart_run cap max tmax os h h (copy s) [] [] _ _ (apart_copy r) he.symm he.symm ⟨m, tm, m, tm⟩ (pre f1) (pre f2) hd.1 hd.2
  have go : ∀ (v : View K) (hp : Heap K V) (n : Nat) (l : List (Nat × Ent K V)) (a : List (Op K V)), Rep (asCache v hp n) l → v.size_max = max → v.time_max = tmax →
      l.map toEntry = contents cap max tmax a → Fits cap tmax (a ++ h2) → ∃ s2, run cap (asCache v hp n) h2 = .ok s2 ∧ Lists s2 (contents cap max tmax (a ++ h2)) := by
    intro v hp n l a hr hm ht hl hf
    by_cases hK : Nonempty K
    · obtain ⟨k0⟩ := hK
      obtain ⟨s2, l2, t2, r3, hl3, -⟩ := run_track cap max tmax 0 k0 h2 a _ l hr hm ht hl hf
      refine ⟨s2, t2, ?_⟩
      have := r3.lists
      rw [hl3] at this
      exact this
    · have e2 : h2 = [] := by
        cases h2 with
        | nil => rfl
        | cons o _ => exact (hK (match o with | .get k _ => ⟨k⟩ | .set k _ _ _ => ⟨k⟩ | .erase k => ⟨k⟩)).elim
      subst e2
      refine ⟨_, rfl, ?_⟩
      rw [List.append_nil, ← hl]
      exact hr.lists
  refine ⟨s, t, er, e, fun k now => ?_, fun k now => ?_, ?_, ?_⟩
  · have := apart_get ap k now (by rw [c1, m2]; exact Fits_times (pre f1))
    rw [c1, m2] at this
    exact this
  · have := apart_get ap.swap k now (by rw [c2]; simp only [m4]; exact Fits_times (pre f2))
    rw [c2] at this
    simp only [m4] at this
    exact this
  · obtain ⟨s2, g1, g2⟩ := go t.two h2' t.fresh l2 _ ap.two m3 m4 c2 f2
    refine ⟨{ t with heap := destroy t.heap t.one }, s2, rfl, ?_, g2⟩
    rw [apart_destroy ap]
    exact g1
  · obtain ⟨s2, g1, g2⟩ := go t.one h1 t.fresh l1 _ ap.one m1 m2 c1 f1
    refine ⟨{ t with heap := destroy t.heap t.two }, s2, rfl, ?_, g2⟩
    have hd := apart_destroy ap.swap
    simp only at hd
    rw [hd]
    exact g1

/-- A cache that is empty again, and calls to it and its copy. -/
example : contents sampleCap 100 0 [.set (1 : Nat) 10 true 5, .erase 1] = [] := by rfl

example : (match run sampleCap (init 100 0) [.set (1 : Nat) 10 true 5, .erase 1] with
    | .ok s => match run2 sampleCap (copy s) [.one (.set 1 60 true 5), .two (.set 1 70 true 6), .one (.set 2 50 true 7), .two (.set 2 20 true 7)] with
      | .ok t => ((match Cache.get (asCache t.one t.heap t.fresh) 1 8 with | .ok (_, v) => v | .ub => none), (match Cache.get (asCache t.two t.heap t.fresh) 1 8 with | .ok (_, v) => v | .ub => none))
      | .ub => (none, none)
    | .ub => (none, none)) = (none, some 70) := by decide +kernel

/-- A copy of a cache with entries, when the original is gone: the first new key dereferences a pointer into the original. For all histories, keys and values. -/
theorem C139_refuted_dangling (cap : V → UInt64) (max tmax : UInt64) (h : List (Op K V)) (s : Cache K V) (er : run cap (init max tmax) h = .ok s) (hn : s.endp ≠ none) (k : K)
    (hk : s.data k = none) (v : V) (u : Bool) (now : UInt64) : run2 cap (copy s) [.destroyOne, .two (.set k v u now)] = .ub := by
  obtain ⟨s0, l, e, r, -⟩ := run_rep cap h _ _ (rep_init (K := K) (V := V) max tmax)
  rw [er] at e
  cases e
  refine copy_dangling cap r ?_ k v u now hk
  rintro rfl
  exact hn r.fin

example : (match run sampleCap (init 100 0) [.set (1 : Nat) 10 true 5] with
    | .ok s => decide (s.endp = some 0 ∧ s.data 2 = none)
    | .ub => false) = true := by decide +kernel

/-- And while both live: the copy erases an entry of its own, and the original, which still finds its entry, has lost it from its list: it is not printed and would never be
dropped. -/
theorem C139_refuted_shared : (match run sampleCap (init 100 0) [.set (1 : Nat) 10 true 5, .set 2 20 true 6] with
    | .ok s => match run2 sampleCap (copy s) [.two (.erase 2)] with
      | .ok t => ((match Cache.get (asCache t.one t.heap t.fresh) 2 7 with | .ok (_, v) => v | .ub => none), (walk s.heap s.fresh s.begp).map (·.map (·.key)),
          (walk t.heap t.fresh t.one.begp).map (·.map (·.key)))
      | .ub => (none, .ub, .ub)
    | .ub => (none, .ub, .ub)) = (some 20, .ok [1, 2], .ok [1]) := by decide +kernel

end Verif.CacheRef
