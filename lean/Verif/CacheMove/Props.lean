/-
  C169: caches that are moved and swapped.  C170: assignment of one cache to another.
-/
import Verif.CacheMove.Lemmas

set_option linter.unusedSectionVars false

namespace Verif.CacheMove
open Cache CacheRef

variable {K V : Type} [DecidableEq K] [Inhabited V]

/-- **C139, in part, for any number of caches; C169 and C170 follow.** Take a program with any number of caches all of whose statements are allowed: calls on the caches, moves, assignments from moved caches, std::swap, copies
and assignments of empty caches, copies and assignments of others which are then only read (also after the original has been changed, moved or destroyed), reuse by assignment and
destruction of all of them. It follows no bad pointer; each cache answers `get` as a cache does to which the calls of its value, and no others, have been made; it goes on like that; and
the nodes of a cache are freed with it: when no cache is alive, no node is. -/
theorem C139_value_partial (cap : V → UInt64) (as : List (Act K V)) (σ : Store K V) (h : VRun cap (fun _ => none) as σ) :
    ∃ s, run cap .init as = .ok s ∧
      (∀ x w, σ x = some w → ∃ v, s.obj x = some v ∧ ∀ k now, MayGet cap k now w → ∃ c, Cache.get (asCache v s.heap s.fresh) k now = .ok (c, answer cap k now w)) ∧
      (∀ x, σ x = none → s.obj x = none) ∧ ((∀ x, σ x = none) → ∀ a, s.heap a = none) := by
  obtain ⟨s, own, e, i⟩ := run_inv (inv_init cap) h
  refine ⟨s, e, fun x w hx => ?_, fun x hx => (inv_none i hx).1, fun hn a => ?_⟩
  · obtain ⟨v, ox, -⟩ := inv_some i hx
    exact ⟨v, ox, fun k now hm => get_inv i ox hx k now hm⟩
  · cases hh : s.heap a with
    | none => rfl
    | some n =>
      obtain ⟨x, hx⟩ := (i.heap a n).1 hh
      rw [(inv_none i (hn x)).2 a] at hx
      cases hx

/-- **C169, in part.** Moving a cache into a new one or over another one, and std::swap, exchange the values and nothing else, in all programs that do not call a cache
that has been moved from before something is assigned to it. Missing: such calls, for which it is false. -/
theorem C169_moves_partial (cap : V → UInt64) (as : List (Act K V)) (σ : Store K V) (h : VRun cap (fun _ => none) as σ) :
    ∃ s, run cap .init as = .ok s ∧
      (∀ x max tmax hist, σ x = some (.full max tmax hist) →
        ∃ v, s.obj x = some v ∧ ∀ k now, ∃ c, Cache.get (asCache v s.heap s.fresh) k now = .ok (c, found (contents cap max tmax hist) tmax k now)) ∧
      ((∀ x, σ x = none) → ∀ a, s.heap a = none) := by
  obtain ⟨s, e, h1, -, h3⟩ := C139_value_partial cap as σ h
  refine ⟨s, e, fun x max tmax hist hx => ?_, h3⟩
  obtain ⟨v, ox, g⟩ := h1 x _ hx
  exact ⟨v, ox, fun k now => g k now trivial⟩

/-- Two caches with different limits are filled, swapped, one is moved out and back in again, and both go on. -/
def sample : List (Act Nat Nat) := [.new 1 100 0, .new 2 50 9, .call 1 (.set 1 60 true 5), .call 2 (.set 1 20 true 6), .swap 1 2, .call 1 (.set 2 40 true 7), .move 3 2, .call 3 (.set 3 30 true 7),
  .moveAssign 2 3, .destroy 3, .call 2 (.set 4 10 true 8)]

/-- The program is allowed, and what the caches contain at its end. -/
example : ∃ σ : Store Nat Nat, VRun CacheRef.sampleCap (fun _ => none) sample σ ∧
    σ 1 = some (.full 50 9 [.set 1 20 true 6, .set 2 40 true 7]) ∧ σ 2 = some (.full 100 0 [.set 1 60 true 5, .set 3 30 true 7, .set 4 10 true 8]) := by
  have fit : ∀ (t : UInt64) (h : List (Op Nat Nat)), Spec.setSizes (fun v => (CacheRef.sampleCap v).toNat) (h.map evOf) < 2 ^ 64 ∧ t.toNat < 10 ∧
      h.all (fun o => match o with | .set _ _ _ now => decide (now.toNat < 10) | _ => true) = true → Fits CacheRef.sampleCap t h := by
    rintro t h ⟨h1, h2, h3⟩
    refine ⟨h1, fun ev hev => ?_⟩
    obtain ⟨o, ho, rfl⟩ := List.mem_map.1 hev
    have := List.all_eq_true.1 h3 o ho
    cases o with
    | set k v u now =>
      simp only [decide_eq_true_eq] at this
      simp only [evOf]
      omega
    | get => trivial
    | erase => trivial
  refine ⟨_, .cons (.new 100 0 rfl) (.cons (.new 50 9 rfl) (.cons (.call _ rfl (fit _ _ (by decide))) (.cons (.call _ rfl (fit _ _ (by decide))) (.cons (.swap (by decide) rfl rfl) (.cons (.call _ rfl (fit _ _ (by decide)))
    (.cons (.move rfl rfl) (.cons (.call _ rfl (fit _ _ (by decide))) (.cons (.moveAssign (by decide) rfl rfl) (.cons (.destroy rfl) (.cons (.call _ rfl (fit _ _ (by decide))) (.nil _))))))))))), rfl, rfl⟩

/-- What is left in the caches: 1 is too small for 20 and 40 together, 2 holds 60, 30 and 10. -/
example : (match run CacheRef.sampleCap .init sample with
    | .ok s => match s.obj 1, s.obj 2, s.obj 3 with
      | some a, some b, none => [1, 2, 3, 4].map fun k => ((match Cache.get (asCache a s.heap s.fresh) k 8 with | .ok (_, v) => v | .ub => none),
          (match Cache.get (asCache b s.heap s.fresh) k 8 with | .ok (_, v) => v | .ub => none))
      | _, _, _ => []
    | .ub => []) = [(none, some 60), (some 40, none), (none, some 30), (none, some 10)] := by decide +kernel

/-- **C170, in part.** After an assignment of caches the target can be read (entries that are not outdated): it answers as the source did at the assignment, whatever becomes
of the source, until something else is assigned to it or it is destroyed; the source goes on as if nothing had happened; and after the assignment of an empty cache the target is a cache of its own. In all programs,
with any number of caches. Missing: changes of the target (with `set`, `erase` or a `get` of an outdated entry) after the assignment of a cache with entries, for which it is false. -/
theorem C170_assign_partial (cap : V → UInt64) (as bs : List (Act K V)) (x y : Nat) (σ τ : Store K V) (max tmax : UInt64) (hist : List (Op K V)) (hxy : x ≠ y)
    (h : VRun cap (fun _ => none) as σ) (hx : σ x ≠ none) (hy : σ y = some (.full max tmax hist))
    (hb : VRun cap (setO σ x (some (if contents cap max tmax hist = [] then .full max tmax hist else .snap max tmax hist))) bs τ) :
    ∃ s, run cap .init (as ++ .assign x y :: bs) = .ok s ∧
      (∀ z w, τ z = some w → ∃ v, s.obj z = some v ∧ ∀ k now, MayGet cap k now w → ∃ c, Cache.get (asCache v s.heap s.fresh) k now = .ok (c, answer cap k now w)) := by
  have cat : ∀ {as : List (Act K V)} {σ₁ σ₂ σ₃ : Store K V} {bs : List (Act K V)}, VRun cap σ₁ as σ₂ → VRun cap σ₂ bs σ₃ → VRun cap σ₁ (as ++ bs) σ₃ := by
    intro as
    induction as with
    | nil => intro _ _ _ _ h1 h2; cases h1; exact h2
    | cons a as ih => intro _ _ _ _ h1 h2; cases h1 with | cons h1 h3 => exact .cons h1 (ih h3 h2)
  obtain ⟨u, hu⟩ := Option.ne_none_iff_exists'.1 hx
  have hc : Copied cap (.full max tmax hist) (if contents cap max tmax hist = [] then .full max tmax hist else .snap max tmax hist) := by
    split
    · exact .empty _ _ _ (by assumption)
    · exact .full _ _ _
  obtain ⟨s, e, h1, -⟩ := C139_value_partial cap _ τ (cat h (.cons (.assign hxy hu hy hc) hb))
  exact ⟨s, e, h1⟩

/-- Cache 2 is assigned to cache 1 and then changed and destroyed; cache 1 still answers. -/
example : (match run CacheRef.sampleCap .init [.new 1 100 0, .new 2 50 0, .call 1 (.set 1 60 true 5), .call 2 (.set 1 20 true 6), .assign 1 2, .call 2 (.set 1 30 true 7), .destroy 2, .call 1 (.get 1 8)] with
    | .ok s => match s.obj 1 with
      | some a => (match Cache.get (asCache a s.heap s.fresh) 1 9 with | .ok (_, v) => v | .ub => none)
      | none => none
    | .ub => none) = some 20 := by decide +kernel

theorem run_append (cap : V → UInt64) : ∀ (as bs : List (Act K V)) {s t : St K V}, run cap s as = .ok t → run cap s (as ++ bs) = run cap t bs := by
  intro as
  induction as with
  | nil => intro bs s t h; cases h; rfl
  | cons a as ih =>
    intro bs s t h
    rw [run] at h
    rw [List.cons_append, run]
    cases h1 : step cap s a with
    | ub => rw [h1] at h; cases h
    | ok s1 => rw [h1] at h; exact ih bs h

/-- `set` of a new key where the last pointer leads to a node that is gone. -/
theorem set_dangling (cap : V → UInt64) (c : Cache K V) (k : K) (v : V) (u : Bool) (now : UInt64) (a : Nat) (hd : c.data k = none) (he : c.endp = some a) (ha : a < c.fresh) (hh : c.heap a = none) :
    Cache.set cap c k v u now = .ub := by
  unfold Cache.set
  rw [hd]
  have hne : a ≠ c.fresh := by omega
  simp only [he, setPrev, deref, upd, if_true, Res.ok_bind, linkEnd, setNext, if_neg hne, hh, Res.ub_bind]

/-- A full cache with entries has a last node. -/
theorem full_last {cap : V → UInt64} {v : View K} {h : Heap K V} {fresh : Nat} {max tmax : UInt64} {hist : List (Op K V)} (g : Good cap v h fresh (.full max tmax hist))
    (hn : contents cap max tmax hist ≠ []) : ∃ a n, v.endp = some a ∧ h a = some n ∧ a < fresh := by
  obtain ⟨⟨l, r, e⟩, -⟩ := g
  have hl : l ≠ [] := by
    rintro rfl
    exact hn e.symm
  obtain ⟨b, xs, rfl⟩ : ∃ b xs, l = xs ++ [b] := ⟨l.getLast hl, l.dropLast, (List.dropLast_concat_getLast hl).symm⟩
  obtain ⟨a, en⟩ := b
  have he : v.endp = some a := by
    have := r.fin
    simpa [lastA, asCache] using this
  have hb := r.bound (a, en) (by simp)
  have hd := Dl_deref (Dl_append.mp r.dl).2
  unfold deref at hd
  cases hh : h a with
  | none => simp [asCache, hh] at hd
  | some n => exact ⟨a, n, he, hh, hb⟩

/-- **C169 is false of caches that have been moved from.** Not even `set` may be called on them: after every allowed program, for every cache with entries: it is moved to a new
object, which is destroyed, and `set` is called on it: the program follows a pointer to a node that is gone. For all keys and values. -/
theorem C169_refuted (cap : V → UInt64) (as : List (Act K V)) (σ : Store K V) (h : VRun cap (fun _ => none) as σ) (x y : Nat) (hx : σ x = none) (max tmax : UInt64) (hist : List (Op K V))
    (hy : σ y = some (.full max tmax hist)) (hn : contents cap max tmax hist ≠ []) (k : K) (v : V) (u : Bool) (now : UInt64) :
    run cap .init (as ++ [.move x y, .destroy x, .call y (.set k v u now)]) = .ub := by
  obtain ⟨s, own, e, i⟩ := run_inv (inv_init cap) h
  rw [run_append cap _ _ e]
  obtain ⟨ox, -⟩ := inv_none i hx
  obtain ⟨vy, oy, g⟩ := inv_some i hy
  have hxy : y ≠ x := by rintro rfl; rw [ox] at oy; cases oy
  obtain ⟨a, n, he, ha, hf⟩ := full_last g hn
  have hg : CacheRef.destroy s.heap vy a = none := by
    cases hh : CacheRef.destroy s.heap vy a with
    | none => rfl
    | some m =>
      obtain ⟨z, hz, hm⟩ := (destroy_of i (good_tab g) a m).1 hh
      rw [i.dis z y a hz (by rw [hm]; simp)] at ha
      cases ha
  have hs := set_dangling cap (asCache (left vy) (CacheRef.destroy s.heap vy) s.fresh) k v u now a rfl he hf hg
  simp only [run, step, ox, oy, Res.ok_bind, setO_same, setO_ne _ _ hxy, Cache.step, hs, Res.ub_bind]

/-- The nodes of the two are mixed while the new object is alive: the old one sets a key and is destroyed, and the new one has a list that leads to the node that is gone. -/
theorem C169_refuted_mixed : (match run CacheRef.sampleCap .init [.new 1 100 0, .call 1 (.set (1 : Nat) 60 true 5), .move 2 1, .call 1 (.set 2 20 true 6)] with
    | .ok s => match s.obj 2 with
      | some b => ((walk s.heap s.fresh b.begp).map (·.map (·.key)), (match run CacheRef.sampleCap s [.destroy 1, .call 2 (.erase 1)] with | .ok _ => true | .ub => false))
      | none => (.ub, true)
    | .ub => (.ub, true)) = (.ok [1, 2], false) := by decide +kernel

/-- **C170 is false of targets that are changed.** After every allowed program, for all caches `x` and `y`, where `y` has entries: `x = y`, the end of `y` and `set` of a key that
was not in `y`, and the program follows a pointer to a node that is gone. -/
theorem C170_refuted (cap : V → UInt64) (as : List (Act K V)) (σ : Store K V) (h : VRun cap (fun _ => none) as σ) (x y : Nat) (hxy : x ≠ y) (hx : σ x ≠ none) (max tmax : UInt64)
    (hist : List (Op K V)) (hy : σ y = some (.full max tmax hist)) (hn : contents cap max tmax hist ≠ []) (k : K) (hk : Spec.lookup (contents cap max tmax hist) k = none) (v : V) (u : Bool)
    (now : UInt64) : run cap .init (as ++ [.assign x y, .destroy y, .call x (.set k v u now)]) = .ub := by
  obtain ⟨w, hw⟩ := Option.ne_none_iff_exists'.1 hx
  obtain ⟨s, own, e, i⟩ := run_inv (inv_init cap) h
  rw [run_append cap _ _ e]
  obtain ⟨vx, ox, -⟩ := inv_some i hw
  obtain ⟨vy, oy, g⟩ := inv_some i hy
  obtain ⟨a, n, he, ha, hf⟩ := full_last g hn
  have i1 := (inv_drop i ox).1
  have i2 := inv_copy i1 (x := x) (y := y) (vy := vy) (fun a => by rw [setO_same]) (by simp only [setO_ne _ _ (Ne.symm hxy)]; exact oy)
    (by simp only [setO_ne _ _ (Ne.symm hxy)]; exact hy) (.full _ _ _)
  have oy2 : setO own x (fun _ => none) y = own y := setO_ne _ _ (Ne.symm hxy)
  have g2 : Tab vy (setO (setO own x (fun _ => none)) x (moveUp (setO own x (fun _ => none) y) s.fresh) y) (s.fresh + s.fresh) := by
    rw [setO_ne _ _ (Ne.symm hxy), oy2]
    exact tab_fresh (good_tab g) (Nat.le_add_right _ _)
  have hg : CacheRef.destroy (copyNodes (CacheRef.destroy s.heap vx) s.fresh vy) vy a = none := by
    cases hh : CacheRef.destroy (copyNodes (CacheRef.destroy s.heap vx) s.fresh vy) vy a with
    | none => rfl
    | some m =>
      obtain ⟨z, hz, hm⟩ := (destroy_of i2 g2 a m).1 hh
      have := i2.dis z y a hz (by rw [hm]; simp)
      rw [setO_ne _ _ (Ne.symm hxy), oy2] at this
      rw [this] at ha
      cases ha
  have hd : (copyView vy s.fresh).data k = none := by
    have : vy.data k = none := by
      obtain ⟨⟨l, r, e⟩, -⟩ := g
      rcases rep_reads r k with ⟨h1, -⟩ | ⟨_, _, _, -, -, h3, -⟩
      · exact h1
      · rw [e, hk] at h3; cases h3
    simp [copyView, this]
  have hs := set_dangling cap (asCache (copyView vy s.fresh) (CacheRef.destroy (copyNodes (CacheRef.destroy s.heap vx) s.fresh vy) vy) (s.fresh + s.fresh)) k v u now a hd he
    (by show a < s.fresh + s.fresh; omega) hg
  simp only [run, step, ox, oy, if_neg hxy, assignObj, Res.ok_bind, setO_same, setO_ne _ _ hxy, setO_ne _ _ (Ne.symm hxy), Cache.step, hs, Res.ub_bind]

/-- Such programs: one cache with an entry and another one. -/
example : contents CacheRef.sampleCap 100 0 [.set (1 : Nat) 60 true 5] ≠ [] ∧ Spec.lookup (contents CacheRef.sampleCap 100 0 [.set (1 : Nat) 60 true 5]) 2 = none := by
  constructor
  · intro h; cases h
  · rfl

end Verif.CacheMove
