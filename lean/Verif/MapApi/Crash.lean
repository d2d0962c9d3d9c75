import Verif.MapApi.Props
/-
  Property C115: a process is killed while it makes the map.
-/
set_option linter.unusedVariables false
set_option linter.unusedSimpArgs false

namespace Verif.MapApi

open Verif.ShmPool Verif.ShmMap

variable {V : Type}

/-- What is left when the process that made the segment of the class `p` for `key` is killed after `n` writes of attach: the kernel has undone its semaphore operations (SEM_UNDO) and unmapped
the segment. -/
def crashed (p : Params) (v0 : V) (key n : Nat) : World V :=
  { (World.init : World V) with
    sems := set (World.init : World V).sems key (some ⟨0, 0⟩)
    segs := set (World.init : World V).segs key (some ⟨Spec.bytes p, applyA (zeroSeg v0) ((attachWrites p (zeroSeg v0)).1.take n), 0⟩) }

/-! ## the segment after `n` writes -/

/-- The segment with these header words. -/
def mk (v0 : V) (on is hz b fr fi ft pr pi : Nat) : Seg V :=
  ⟨on, is, hz, ⟨pr, pi, 0, ⟨fr, fi, ⟨ft, fun _ => 0⟩⟩⟩, fun _ => 0, fun _ => v0, fun _ => 0, fun i => if i < b then NONE else 0⟩

theorem writes_zero (p : Params) (v0 : V) : (attachWrites p (zeroSeg v0)).1 =
    [.objects_num p.N, .item_size p.tsz, .hash_size p.H] ++ ((List.range p.H).map (fun i => .hash i NONE) ++
      [.stkReserved p.N, .stkItem 4, .stkCurrent NONE, .poolReserved p.N, .poolItem p.nsz, .poolCurrent 0]) := by
  unfold attachWrites headWrites stkWrites poolWrites zeroSeg
  simp

theorem seg_hash (p : Params) (v0 : V) (b : Nat) (hb : b ≤ p.H) :
    applyA (zeroSeg v0) ((attachWrites p (zeroSeg v0)).1.take (b + 3)) = mk v0 p.N p.tsz p.H b 0 0 0 0 0 := by
  rw [writes_zero, List.take_append, List.take_of_length_le (by simp), List.take_append_of_le_length (by simpa using hb)]
  simp only [List.length_cons, List.length_nil, Nat.zero_add, Nat.reduceAdd, Nat.add_sub_cancel]
  rw [← List.map_take, List.take_range, Nat.min_eq_left hb]
  rw [applyA_append, applyA_hash]
  rfl

theorem seg_end (p : Params) (v0 : V) (b : Nat) :
    applyA (zeroSeg v0) ((attachWrites p (zeroSeg v0)).1.take (p.H + 3 + b)) =
      applyA (mk v0 p.N p.tsz p.H p.H 0 0 0 0 0) (List.take b [.stkReserved p.N, .stkItem 4, .stkCurrent NONE, .poolReserved p.N, .poolItem p.nsz, .poolCurrent 0]) := by
  rw [writes_zero, List.take_append, List.take_of_length_le (by simp; omega), List.take_append, List.take_of_length_le (by simp; omega)]
  have e : p.H + 3 + b - ([.objects_num p.N, .item_size p.tsz, .hash_size p.H] : List AWr).length - ((List.range p.H).map (fun i => AWr.hash i NONE)).length = b := by simp; omega
  rw [e, applyA_append, applyA_append, applyA_hash]
  rfl

/-! ## the next connect -/

/-- The map class of all handles is `p`. -/
theorem crashed_connect (p : Params) (hp : Spec.Fit p) (v0 : V) (key n h : Nat) (w : World V) (s : Seg V) (m : Nat) (h1 : w.segs key = some ⟨Spec.bytes p, s, m⟩) (h2 : w.sems key = some ⟨0, 0⟩)
    (h3 : w.hs h = ⟨none, none⟩) :
    connect p v0 w h key allOk = .ok (({ w with segs := set w.segs key (some ⟨Spec.bytes p, applyA s (attachWrites p s).1, m + 1⟩) } : World V).setH h
      (if (attachWrites p s).2 then ⟨none, none⟩ else ⟨some key, some key⟩), if (attachWrites p s).2 then .threw else .unit) := by
  have hreq := required_eq hp.2.1 hp.2.2.2.2
  have hc : connect_shm p v0 { w with sems := set w.sems key (some ⟨0, 1⟩) } ⟨some key, none⟩ key allOk =
      .ok ({ w with sems := set w.sems key (some ⟨0, 1⟩), segs := set w.segs key (some ⟨Spec.bytes p, s, m + 1⟩) }, some ⟨some key, some key⟩) := by
    simp [connect_shm, allOk, hreq, h1]
  rw [connect_eq h3 rfl (Or.inl h2) hc rfl]
  dsimp only
  rw [connect_attach_eq (s := ⟨Spec.bytes p, s, m + 1⟩) rfl (by exact set_same _ _ _) (by exact set_same _ _ _)]
  simp only [set_set]
  by_cases c : (attachWrites p s).2 <;> simp [c, disconnect, set_self _ _ _ h2]

/-- The crash points after which everything is well. -/
def Well (p : Params) (n : Nat) : Prop := n = 0 ∨ n = p.H + 3 ∨ n = p.H + 6 ∨ p.H + 8 ≤ n

/-- The crash points after which the file is of no more use. -/
def Stuck (p : Params) (n : Nat) : Prop := n = 1 ∨ n = 2 ∨ n = p.H + 4 ∨ n = p.H + 7

theorem seg_well (p : Params) (hp : Spec.Fit p) (v0 : V) (n : Nat) (hn : Well p n) :
    let s := applyA (zeroSeg v0) ((attachWrites p (zeroSeg v0)).1.take n)
    (attachWrites p s).2 = false ∧ Init p.H (applyA s (attachWrites p s).1).map ∧ Initialised p.N p.H p.tsz p.nsz (applyA s (attachWrites p s).1) := by
  obtain ⟨hH, _, ht, hz, _⟩ := hp
  have hI : ∀ v0 : V, Init p.H (mk v0 p.N p.tsz p.H p.H p.N 4 NONE p.N p.nsz).map := fun v0 => ⟨rfl, rfl, fun b hb => by simp only [mk, Seg.map]; exact if_pos hb⟩
  have hJ : ∀ v0 : V, Initialised p.N p.H p.tsz p.nsz (mk v0 p.N p.tsz p.H p.H p.N 4 NONE p.N p.nsz) := fun v0 => ⟨rfl, rfl, rfl, rfl, rfl, rfl, rfl⟩
  have n1 : ¬ (p.N = 0 ∧ p.tsz = 0 ∧ p.H = 0) := by omega
  have n2 : ¬ (p.N = 0 ∧ p.nsz = 0) := by omega
  intro s
  rcases hn with rfl | rfl | rfl | hn
  · exact attach_zero p v0
  · have es : s = mk v0 p.N p.tsz p.H p.H 0 0 0 0 0 := seg_end p v0 0
    have e : attachWrites p s = ([.stkReserved p.N, .stkItem 4, .stkCurrent NONE, .poolReserved p.N, .poolItem p.nsz, .poolCurrent 0], false) := by
      rw [es]; simp [attachWrites, headWrites, stkWrites, poolWrites, mk, n1]
    have a : applyA s (attachWrites p s).1 = mk v0 p.N p.tsz p.H p.H p.N 4 NONE p.N p.nsz := by rw [e, es]; rfl
    rw [a, e]
    exact ⟨rfl, hI v0, hJ v0⟩
  · have es : s = mk v0 p.N p.tsz p.H p.H p.N 4 NONE 0 0 := seg_end p v0 3
    have e : attachWrites p s = ([.poolReserved p.N, .poolItem p.nsz, .poolCurrent 0], false) := by
      rw [es]; simp [attachWrites, headWrites, stkWrites, poolWrites, mk, n1]
    have a : applyA s (attachWrites p s).1 = mk v0 p.N p.tsz p.H p.H p.N 4 NONE p.N p.nsz := by rw [e, es]; rfl
    rw [a, e]
    exact ⟨rfl, hI v0, hJ v0⟩
  · have es : s = mk v0 p.N p.tsz p.H p.H p.N 4 NONE p.N p.nsz := by
      have := seg_end p v0 (n - (p.H + 3))
      rw [show p.H + 3 + (n - (p.H + 3)) = n by omega] at this
      rw [show s = _ from this]
      obtain ⟨c, hc⟩ : ∃ c, n - (p.H + 3) = c + 5 := ⟨n - (p.H + 8), by omega⟩
      rw [hc]
      cases c with
      | zero => rfl
      | succ c => rw [List.take_of_length_le (by simp)]; rfl
    have e : attachWrites p s = ([], false) := by
      rw [es]; simp [attachWrites, headWrites, stkWrites, poolWrites, mk, n1, n2]
    have a : applyA s (attachWrites p s).1 = mk v0 p.N p.tsz p.H p.H p.N 4 NONE p.N p.nsz := by rw [e, es]; rfl
    rw [a, e]
    exact ⟨rfl, hI v0, hJ v0⟩

/-- **C115, the part that holds.** If the process that makes the map is killed before attach writes anything, exactly between its three parts, or in the last write, the map is as if there had been no
such process: the replies to every history of calls by handles of the class, starting with a connect to the file, are those of the specification.  Missing: the other crash points, for which it is false. -/
theorem C115_killed_in_attach_partial (p : Params) (hp : Spec.Fit p) (v0 : V) (key n h : Nat) (hn : Well p n) (cs : List (Call V)) (s : Spec.State V) (rs : List (Reply V))
    (hs : Spec.run (fun _ => p) Spec.State.init (.connect h key allOk :: cs) = some (s, rs)) :
    ∃ w, run (fun _ => p) v0 (crashed p v0 key n) (.connect h key allOk :: cs) = .ok (w, rs) := by
  obtain ⟨a1, a2, a3⟩ := seg_well p hp v0 n hn
  have e := crashed_connect p hp v0 key n h (crashed p v0 key n) _ 0 (set_same _ _ _) (set_same _ _ _) rfl
  rw [a1] at e
  simp only [Bool.false_eq_true, if_false] at e
  have hst : Spec.step (fun _ => p) (Spec.State.init : Spec.State V) (.connect h key allOk) = some (⟨set (Spec.State.init : Spec.State V).ts key (some ⟨p, []⟩), set (Spec.State.init : Spec.State V).us h (some key)⟩, .unit) := by
    simp [Spec.step, Spec.State.init, allOk, hp]
  have R1 := Rel.newTable (Rel.init (V := V) (fun _ => p)) (k := key) rfl (t := ⟨p, []⟩) (sg := ⟨Spec.bytes p, applyA (applyA (zeroSeg v0) ((attachWrites p (zeroSeg v0)).1.take n))
    (attachWrites p (applyA (zeroSeg v0) ((attachWrites p (zeroSeg v0)).1.take n))).1, 0 + 1⟩) ⟨hp, rfl, a3, _, _, rep_init _ a2.1 a2.2.1 a2.2.2⟩
  have R2 := Rel.setUser R1 h key (t := ⟨p, []⟩) (set_same _ _ _) rfl
  simp only [Spec.run, hst] at hs
  cases e2 : Spec.run (fun _ => p) (⟨set (Spec.State.init : Spec.State V).ts key (some ⟨p, []⟩), set (Spec.State.init : Spec.State V).us h (some key)⟩ : Spec.State V) cs with
  | none => rw [e2] at hs; cases hs
  | some q =>
    rw [e2] at hs
    cases hs
    obtain ⟨w', e', _⟩ := sim_run v0 cs R2 e2
    refine ⟨w', ?_⟩
    simp only [run, step, e, Res.ok_bind]
    simp only [crashed, set_set] at e' ⊢
    rw [e']
    rfl

example : Well ⟨2, 2, 8, 24⟩ 5 ∧ Spec.Fit ⟨2, 2, 8, 24⟩ ∧ (Spec.run (fun _ => ⟨2, 2, 8, 24⟩) Spec.State.init [.connect 0 7 allOk, .op 0 (.insert 4 (40 : Nat)), .op 0 (.read 4)]).map (·.2) =
    some [.unit, .ret (.bool true), .ret (.val (some 40))] := by
  refine ⟨Or.inr (Or.inl rfl), by decide, by decide +kernel⟩

theorem seg_stuck (p : Params) (hp : Spec.Fit p) (hN : 0 < p.N) (v0 : V) (n : Nat) (hn : Stuck p n) :
    attachWrites p (applyA (zeroSeg v0) ((attachWrites p (zeroSeg v0)).1.take n)) = ([], true) := by
  obtain ⟨hH, _, ht, hz, _⟩ := hp
  have n0 : p.N ≠ 0 := by omega
  have n1 : p.tsz ≠ 0 := by omega
  have n2 : p.H ≠ 0 := by omega
  have n3 : p.nsz ≠ 0 := by omega
  rcases hn with rfl | rfl | rfl | rfl
  · rw [writes_zero]
    simp [applyA, AWr.apply, zeroSeg, attachWrites, headWrites, n0, n1]
  · rw [writes_zero]
    simp [applyA, AWr.apply, zeroSeg, attachWrites, headWrites, n0, n2]
  · rw [show p.H + 4 = p.H + 3 + 1 by omega, seg_end]
    simp [applyA, AWr.apply, mk, attachWrites, headWrites, stkWrites, n0]
  · rw [show p.H + 7 = p.H + 3 + 4 by omega, seg_end]
    simp [applyA, AWr.apply, mk, attachWrites, headWrites, stkWrites, poolWrites, n0, n3]

/-- **C115 is false, 1.** If the process is killed between the header words of one part, every connect of any handle of the class to the file throws from then on. -/
theorem C115_refuted_stuck (p : Params) (hp : Spec.Fit p) (hN : 0 < p.N) (v0 : V) (key n : Nat) (hn : Stuck p n) (hs : List Nat) :
    ∃ w, run (fun _ => p) v0 (crashed p v0 key n) (hs.map (fun h => .connect h key allOk)) = .ok (w, hs.map (fun _ => .threw)) := by
  have gen : ∀ (hs : List Nat) (m : Nat) (w : World V), w.segs key = some ⟨Spec.bytes p, applyA (zeroSeg v0) ((attachWrites p (zeroSeg v0)).1.take n), m⟩ → w.sems key = some ⟨0, 0⟩ →
      (∀ h, w.hs h = ⟨none, none⟩) → ∃ w', run (fun _ => p) v0 w (hs.map (fun h => .connect h key allOk)) = .ok (w', hs.map (fun _ => .threw)) := by
    intro hs
    induction hs with
    | nil => intro m w _ _ _; exact ⟨w, rfl⟩
    | cons h hs ih =>
      intro m w h1 h2 h3
      have e := crashed_connect p hp v0 key n h w _ m h1 h2 (h3 h)
      simp only [seg_stuck p hp hN v0 n hn, if_true, applyA_nil] at e
      simp only [List.map_cons, run, step, e, Res.ok_bind]
      obtain ⟨w', e'⟩ := ih (m + 1) (({ w with segs := set w.segs key (some ⟨Spec.bytes p, applyA (zeroSeg v0) ((attachWrites p (zeroSeg v0)).1.take n), m + 1⟩) } : World V).setH h ⟨none, none⟩)
        (set_same _ _ _) h2 (by intro h'; simp only [World.setH, set]; split; rfl; exact h3 h')
      rw [e']
      exact ⟨w', rfl⟩
  exact gen hs 0 _ (set_same _ _ _) (set_same _ _ _) (fun _ => rfl)

example : (run (fun _ => ⟨2, 2, 8, 24⟩) 5 (crashed ⟨2, 2, 8, 24⟩ 5 7 6) [.connect 0 7 allOk, .connect 1 7 allOk]).map (·.2) = .ok [.threw, .threw] := by decide +kernel

/-! ## operations of one handle -/

/-- Operations of one connected handle are those of the map. -/
theorem run_ops (p : Params) (v0 : V) (h key : Nat) (ops : List (ShmMap.Op V)) (w : World V) (s : MSeg V) (h1 : w.hs h = ⟨some key, some key⟩) (h2 : w.sems key = some ⟨0, 0⟩) (h3 : w.segs key = some s)
    {m' : Map V} {rets : List (Ret V)} (e : ShmMap.run p.N p.H s.seg.map ops = .ok (m', rets)) : ∃ w', run (fun _ => p) v0 w (ops.map (.op h)) = .ok (w', rets.map .ret) := by
  induction ops generalizing w s rets with
  | nil => simp only [ShmMap.run] at e; cases e; exact ⟨w, rfl⟩
  | cons o ops ih =>
    simp only [ShmMap.run] at e
    cases e1 : ShmMap.step p.N p.H s.seg.map o with
    | ub => rw [e1] at e; cases e
    | ok q =>
      obtain ⟨m1, r1⟩ := q
      rw [e1, Res.ok_bind] at e
      simp only at e
      cases e2 : ShmMap.run p.N p.H m1 ops with
      | ub => rw [e2] at e; cases e
      | ok q2 =>
        obtain ⟨m2, r2⟩ := q2
        rw [e2] at e
        cases e
        simp only [List.map_cons, run, step]
        rw [locked_ok (lockOf_pair o) _ _ h1 h2 h3 e1]
        obtain ⟨w', e'⟩ := ih { w with segs := set w.segs key (some { s with seg := setMap s.seg m1 }) } { s with seg := setMap s.seg m1 } h1 h2 (set_same _ _ _) e2
        simp only [Res.ok_bind, e']
        exact ⟨w', rfl⟩

/-- The world after the next connect. -/
theorem crashed_next (p : Params) (hp : Spec.Fit p) (v0 : V) (key n h : Nat) (s : Seg V) (ht : (attachWrites p (applyA (zeroSeg v0) ((attachWrites p (zeroSeg v0)).1.take n))).2 = false)
    (hs : applyA (applyA (zeroSeg v0) ((attachWrites p (zeroSeg v0)).1.take n)) (attachWrites p (applyA (zeroSeg v0) ((attachWrites p (zeroSeg v0)).1.take n))).1 = s) :
    ∃ w : World V, connect p v0 (crashed p v0 key n) h key allOk = .ok (w, .unit) ∧ w.hs h = ⟨some key, some key⟩ ∧ w.sems key = some ⟨0, 0⟩ ∧ w.segs key = some ⟨Spec.bytes p, s, 1⟩ := by
  have e := crashed_connect p hp v0 key n h (crashed p v0 key n) _ 0 (set_same _ _ _) (set_same _ _ _) rfl
  rw [ht, hs] at e
  simp only [Bool.false_eq_true, if_false] at e
  exact ⟨_, e, set_same _ _ _, set_same _ _ _, set_same _ _ _⟩

theorem seg_loop (p : Params) (hp : Spec.Fit p) (v0 : V) (n : Nat) (h1 : 3 ≤ n) (h2 : n ≤ p.H + 3) :
    (attachWrites p (applyA (zeroSeg v0) ((attachWrites p (zeroSeg v0)).1.take n))).2 = false ∧
    applyA (applyA (zeroSeg v0) ((attachWrites p (zeroSeg v0)).1.take n)) (attachWrites p (applyA (zeroSeg v0) ((attachWrites p (zeroSeg v0)).1.take n))).1 =
      mk v0 p.N p.tsz p.H (n - 3) p.N 4 NONE p.N p.nsz := by
  obtain ⟨hH, _, ht, hz, _⟩ := hp
  have n1 : ¬ (p.N = 0 ∧ p.tsz = 0 ∧ p.H = 0) := by omega
  have es := seg_hash p v0 (n - 3) (by omega)
  rw [show n - 3 + 3 = n by omega] at es
  rw [es]
  have e : attachWrites p (mk v0 p.N p.tsz p.H (n - 3) 0 0 0 0 0) = ([.stkReserved p.N, .stkItem 4, .stkCurrent NONE, .poolReserved p.N, .poolItem p.nsz, .poolCurrent 0], false) := by
    simp [attachWrites, headWrites, stkWrites, poolWrites, mk, n1]
  rw [e]
  exact ⟨rfl, rfl⟩

/-- The search in a chain of which node 0 is its own successor does not end. -/
theorem readLoop_spin (N : Nat) (m : Map V) (k : UInt64) (hk : k ≠ m.key 0) (h0 : m.next 0 = 0) (fuel : Nat) : readLoop N m k fuel 0 = .ub := by
  induction fuel with
  | zero => rfl
  | succ f ih =>
    simp only [readLoop]
    rw [if_neg (by decide)]
    split
    · simp only [hk, if_false, h0, ih]
    · rfl

/-- **C115 is false, 2.** If it is killed in the loop over the buckets, after `n - 3` of them, the next connect succeeds.  Then a read of any key but 0 in the other buckets does not end. -/
theorem C115_refuted_spins (p : Params) (hp : Spec.Fit p) (v0 : V) (key n h : Nat) (h1 : 3 ≤ n) (h2 : n < p.H + 3) (k : UInt64) (hk : k ≠ 0) (hb : n - 3 ≤ k.toNat % p.H) :
    (∃ w, run (fun _ => p) v0 (crashed p v0 key n) [.connect h key allOk] = .ok (w, [.unit])) ∧ run (fun _ => p) v0 (crashed p v0 key n) [.connect h key allOk, .op h (.read k)] = .ub := by
  obtain ⟨a, b⟩ := seg_loop p hp v0 n h1 (by omega)
  obtain ⟨w, e, e1, e2, e3⟩ := crashed_next p hp v0 key n h _ a b
  refine ⟨⟨w, by simp [run, step, e]⟩, ?_⟩
  have hr : ShmMap.step p.N p.H (mk v0 p.N p.tsz p.H (n - 3) p.N 4 NONE p.N p.nsz).map (.read k) = .ub := by
    have : unprotected_read p.N p.H (mk v0 p.N p.tsz p.H (n - 3) p.N 4 NONE p.N p.nsz).map k = .ub := by
      unfold unprotected_read
      rw [if_neg (by have := hp.1; omega)]
      have hz : (mk v0 p.N p.tsz p.H (n - 3) p.N 4 NONE p.N p.nsz).map.hash (k.toNat % p.H) = 0 := by
        simp only [mk, Seg.map]
        exact if_neg (by omega)
      rw [hz]
      exact readLoop_spin _ _ _ hk rfl _
    simp only [ShmMap.step, this]
    rfl
  simp only [run, step, e, Res.ok_bind]
  have hl : locked w h (lockOf (.read k : ShmMap.Op V)).1 (lockOf (.read k : ShmMap.Op V)).2 (fun m => ShmMap.step p.N p.H m (.read k)) .ret = .ub := by
    have hsem : (w.hs h).sem = some key := by rw [e1]
    have hshm : (w.hs h).shm = some key := by rw [e1]
    simp only [locked, lockOf, semop_lockR hsem e2, hshm, e3, hr]
    rfl
  rw [hl]
  rfl

example : (3 : Nat) ≤ 4 ∧ 4 < (⟨2, 2, 8, 24⟩ : Params).H + 3 ∧ 4 - 3 ≤ (77 : UInt64).toNat % (⟨2, 2, 8, 24⟩ : Params).H := by decide

/-- **C115 is false, 3.** If it is killed before the first bucket is written, the new map holds a value for key 0. -/
theorem C115_refuted_phantom (p : Params) (hp : Spec.Fit p) (hN : 0 < p.N) (v0 : V) (key h : Nat) :
    ∃ w, run (fun _ => p) v0 (crashed p v0 key 3) [.connect h key allOk, .op h .size, .op h (.read 0)] = .ok (w, [.unit, .ret (.num 0), .ret (.val (some v0))]) := by
  obtain ⟨a, b⟩ := seg_loop p hp v0 3 (by omega) (by omega)
  obtain ⟨w, e, e1, e2, e3⟩ := crashed_next p hp v0 key 3 h _ a b
  have hr : ShmMap.run p.N p.H (mk v0 p.N p.tsz p.H 0 p.N 4 NONE p.N p.nsz).map [.size, .read 0] = .ok ((mk v0 p.N p.tsz p.H 0 p.N 4 NONE p.N p.nsz).map, [.num 0, .val (some v0)]) := by
    have : unprotected_read p.N p.H (mk v0 p.N p.tsz p.H 0 p.N 4 NONE p.N p.nsz).map 0 = .ok (some v0) := by
      unfold unprotected_read
      rw [if_neg (by have := hp.1; omega)]
      simp only [mk, Seg.map, readLoop, Nat.not_lt_zero, if_false]
      rw [if_neg (by decide), if_pos hN]
      simp
    simp only [ShmMap.run, ShmMap.step, Res.ok_bind, this]
    rfl
  obtain ⟨w', e'⟩ := run_ops p v0 h key [.size, .read 0] w _ e1 e2 e3 hr
  simp only [List.map_cons, List.map_nil] at e'
  refine ⟨w', ?_⟩
  rw [show ([.connect h key allOk, .op h .size, .op h (.read 0)] : List (Call V)) = [.connect h key allOk] ++ [.op h .size, .op h (.read 0)] from rfl, run_append]
  simp only [run, step, e, Res.ok_bind] at e' ⊢
  simp only [e']
  rfl

theorem seg_top (p : Params) (hp : Spec.Fit p) (v0 : V) :
    (attachWrites p (applyA (zeroSeg v0) ((attachWrites p (zeroSeg v0)).1.take (p.H + 5)))).2 = false ∧
    applyA (applyA (zeroSeg v0) ((attachWrites p (zeroSeg v0)).1.take (p.H + 5))) (attachWrites p (applyA (zeroSeg v0) ((attachWrites p (zeroSeg v0)).1.take (p.H + 5)))).1 =
      mk v0 p.N p.tsz p.H p.H p.N 4 0 p.N p.nsz := by
  obtain ⟨hH, _, ht, hz, _⟩ := hp
  have n1 : ¬ (p.N = 0 ∧ p.tsz = 0 ∧ p.H = 0) := by omega
  have es : applyA (zeroSeg v0) ((attachWrites p (zeroSeg v0)).1.take (p.H + 5)) = mk v0 p.N p.tsz p.H p.H p.N 4 0 0 0 := seg_end p v0 2
  rw [es]
  have e : attachWrites p (mk v0 p.N p.tsz p.H p.H p.N 4 0 0 0) = ([.poolReserved p.N, .poolItem p.nsz, .poolCurrent 0], false) := by
    simp [attachWrites, headWrites, stkWrites, poolWrites, mk, n1]
  rw [e]
  exact ⟨rfl, rfl⟩

/-- **C115 is false, 4.** If it is killed just before the stack of free nodes is made empty, the next connect succeeds.  The new map has 2^64 - 1 entries; after two successful inserts of keys in
different buckets the first one is not there. -/
theorem C115_refuted_lost (p : Params) (hp : Spec.Fit p) (hN : 0 < p.N) (v0 : V) (key h : Nat) (k1 k2 : UInt64) (v1 v2 : V) (hk : k1.toNat % p.H ≠ k2.toNat % p.H) :
    ∃ w, run (fun _ => p) v0 (crashed p v0 key (p.H + 5)) [.connect h key allOk, .op h .size, .op h (.insert k1 v1), .op h (.insert k2 v2), .op h (.read k1)] =
      .ok (w, [.unit, .ret (.num (2 ^ 64 - 1)), .ret (.bool true), .ret (.bool true), .ret (.val none)]) := by
  obtain ⟨a, b⟩ := seg_top p hp v0
  obtain ⟨w, e, e1, e2, e3⟩ := crashed_next p hp v0 key (p.H + 5) h _ a b
  have hH : p.H ≠ 0 := by have := hp.1; omega
  have hb1 : k1.toNat % p.H < p.H := Nat.mod_lt _ hp.1
  have hb2 : k2.toNat % p.H < p.H := Nat.mod_lt _ hp.1
  have hne : k1 ≠ k2 := by intro c; subst c; exact hk rfl
  have hr : ∃ m', ShmMap.run p.N p.H (mk v0 p.N p.tsz p.H p.H p.N 4 0 p.N p.nsz).map [.size, .insert k1 v1, .insert k2 v2, .read k1] = .ok (m', [.num (2 ^ 64 - 1), .bool true, .bool true, .val none]) := by
    have s1 : ShmMap.insert p.N p.H (mk v0 p.N p.tsz p.H p.H p.N 4 0 p.N p.nsz).map k1 v1 = .ok (⟨⟨0, ⟨NONE, fun _ => 0⟩⟩, put (fun _ => 0) 0 k1, put (fun _ => v0) 0 v1, put (fun _ => 0) 0 NONE,
        put (fun i => if i < p.H then NONE else 0) (k1.toNat % p.H) 0⟩, true) := by
      simp [ShmMap.insert, unprotected_insert, mk, Seg.map, PoolSeg.pool, allocate, empty, used, pop, hH, hb1, hN, applyM, Wr.apply, PWr.apply, SWr.apply, NONE]
    have s2 : ShmMap.insert p.N p.H ⟨⟨0, ⟨NONE, fun _ => 0⟩⟩, put (fun _ => 0) 0 k1, put (fun _ => v0) 0 v1, put (fun _ => 0) 0 NONE, put (fun i => if i < p.H then NONE else 0) (k1.toNat % p.H) 0⟩ k2 v2 =
        .ok (⟨⟨1, ⟨NONE, fun _ => 0⟩⟩, put (put (fun _ => 0) 0 k1) 0 k2, put (put (fun _ => v0) 0 v1) 0 v2, put (put (fun _ => 0) 0 NONE) 0 NONE,
          put (put (fun i => if i < p.H then NONE else 0) (k1.toNat % p.H) 0) (k2.toNat % p.H) 0⟩, true) := by
      have : (put (fun i => if i < p.H then NONE else 0) (k1.toNat % p.H) 0) (k2.toNat % p.H) = NONE := by
        simp only [put]
        rw [if_neg (fun c => hk c.symm), if_pos hb2]
      simp only [ShmMap.insert, unprotected_insert, hH, if_false, this]
      simp [allocate, empty, used, hH, hb2, hN, (show p.N ≠ 0 by omega), applyM, Wr.apply, PWr.apply, NONE]
    have s3 : unprotected_read p.N p.H ⟨⟨1, ⟨NONE, fun _ => 0⟩⟩, put (put (fun _ => 0) 0 k1) 0 k2, put (put (fun _ => v0) 0 v1) 0 v2, put (put (fun _ => 0) 0 NONE) 0 NONE,
          put (put (fun i => if i < p.H then NONE else 0) (k1.toNat % p.H) 0) (k2.toNat % p.H) 0⟩ k1 = .ok none := by
      simp only [unprotected_read, hH, if_false, put]
      rw [if_neg hk]
      simp only [if_true, readLoop, hN, hne, if_false]
      rw [if_neg (by decide)]
      obtain ⟨c, hc⟩ : ∃ c, p.N = c + 1 := ⟨p.N - 1, by omega⟩
      rw [hc]
      refine (if_neg ?_).trans ?_
      · exact hne
      · rfl
    refine ⟨⟨⟨1, ⟨NONE, fun _ => 0⟩⟩, put (put (fun _ => 0) 0 k1) 0 k2, put (put (fun _ => v0) 0 v1) 0 v2, put (put (fun _ => 0) 0 NONE) 0 NONE,
          put (put (fun i => if i < p.H then NONE else 0) (k1.toNat % p.H) 0) (k2.toNat % p.H) 0⟩, ?_⟩
    simp only [ShmMap.run, ShmMap.step, Res.ok_bind, s1, s2, s3]
    rfl
  obtain ⟨m', hr⟩ := hr
  obtain ⟨w', e'⟩ := run_ops p v0 h key _ w _ e1 e2 e3 hr
  simp only [List.map_cons, List.map_nil] at e'
  refine ⟨w', ?_⟩
  rw [show ([.connect h key allOk, .op h .size, .op h (.insert k1 v1), .op h (.insert k2 v2), .op h (.read k1)] : List (Call V)) =
    [.connect h key allOk] ++ [.op h .size, .op h (.insert k1 v1), .op h (.insert k2 v2), .op h (.read k1)] from rfl, run_append]
  simp only [run, step, e, Res.ok_bind] at e' ⊢
  simp only [e']
  rfl

end Verif.MapApi
