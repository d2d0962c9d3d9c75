import Verif.MapSys.Spec
import Verif.ShmMap.Lemmas
/-
  The code of Verif.MapSys, access by access, does what the operations of Verif.ShmMap do, and makes the same writes in the same order.
-/
set_option linter.unusedVariables false
set_option linter.unusedSimpArgs false

namespace Verif.MapSys

open Verif.ShmPool Verif.ShmMap

variable {V : Type} {N H : Nat}

/-- An operation is in progress. -/
def Pc.live : Pc V → Bool
  | .idle | .ret _ | .ub => false
  | _ => true

/-- From `pc` on, executed alone on memory `m`, the operation makes exactly the writes `ws` and returns `r`, in at most `n` steps. -/
inductive Path (N H : Nat) : Nat → Map V → Pc V → List (Wr V) → Ret V → Prop where
  | ret {n m r} : Path N H n m (.ret r) [] r
  | rd {n m pc pc' ws r} : pc.live = true → pc.step N H m = (none, pc') → Path N H n m pc' ws r → Path N H (n + 1) m pc ws r
  | wr {n m m' pc pc' w ws r} : pc.live = true → pc.step N H m = (some w, pc') → w.apply N H m = .ok m' → Path N H n m' pc' ws r → Path N H (n + 1) m pc (w :: ws) r

theorem Path.mono {n n' : Nat} {m : Map V} {pc : Pc V} {ws : List (Wr V)} {r : Ret V} (h : Path N H n m pc ws r) (hn : n ≤ n') : Path N H n' m pc ws r := by
  induction h generalizing n' with
  | ret => exact .ret
  | rd hl hs _ ih =>
    obtain ⟨k, rfl⟩ : ∃ k, n' = k + 1 := ⟨n' - 1, by omega⟩
    exact .rd hl hs (ih (by omega))
  | wr hl hs ha _ ih =>
    obtain ⟨k, rfl⟩ : ∃ k, n' = k + 1 := ⟨n' - 1, by omega⟩
    exact .wr hl hs ha (ih (by omega))

theorem rd_loop {m : Map V} {k : UInt64} : ∀ {fuel e : Nat} {v : Option V}, readLoop N m k fuel e = .ok v → Path N H (2 * fuel + 1) m (.rdLoop k e) [] (.val v) := by
  intro fuel
  induction fuel with
  | zero =>
    intro e v h
    simp only [readLoop] at h
    split at h
    · rename_i he
      cases h
      exact .rd rfl (by simp only [Pc.step, if_pos he]; try rfl) .ret
    · cases h
  | succ fuel ih =>
    intro e v h
    simp only [readLoop] at h
    split at h
    · rename_i he
      cases h
      exact .rd rfl (by simp only [Pc.step, if_pos he]; try rfl) .ret
    · rename_i he
      split at h
      · rename_i hlt
        split at h
        · rename_i hk
          cases h
          exact .rd (pc' := .rdVal e) rfl (by simp only [Pc.step, if_neg he, if_pos hlt, if_pos hk]; try rfl) (.rd rfl rfl .ret)
        · rename_i hk
          exact .rd (pc' := .rdNext k e) rfl (by simp only [Pc.step, if_neg he, if_pos hlt, if_neg hk]; try rfl) (.rd rfl rfl (ih h))
      · cases h

theorem in_loop {n : Nat} {m : Map V} {k : UInt64} {v : V} {ws : List (Wr V)} {r : Ret V} : ∀ {fuel e el : Nat} {b : Bool}, findLast N m k fuel e = .ok (el, b) →
    Path N H n m (if b then .inVal v el else .alTop k v (.node el)) ws r → Path N H (2 * fuel + n) m (.inKey k v e) ws r := by
  intro fuel
  induction fuel with
  | zero => intro e el b h; cases h
  | succ fuel ih =>
    intro e el b h hp
    simp only [findLast] at h
    split at h
    · rename_i hlt
      split at h
      · rename_i hk
        cases h
        exact Path.mono (n := n + 1) (.rd rfl (by simp only [Pc.step, if_pos hlt, if_pos hk]; try rfl) hp) (by omega)
      · rename_i hk
        refine Path.mono (n := (2 * fuel + n + 1) + 1) ?_ (by omega)
        refine .rd (pc' := .inNext k v e) rfl (by simp only [Pc.step, if_pos hlt, if_neg hk]; try rfl) ?_
        split at h
        · rename_i hn
          exact .rd rfl (by simp only [Pc.step, if_pos hn]; try rfl) (ih h hp)
        · rename_i hn
          cases h
          exact .rd rfl (by simp only [Pc.step, if_neg hn]; try rfl) (hp.mono (by omega))
    · cases h

theorem applyM_cons {m m' : Map V} {w : Wr V} {ws : List (Wr V)} (h : applyM N H m (w :: ws) = .ok m') : ∃ m1, w.apply N H m = .ok m1 ∧ applyM N H m1 ws = .ok m' := by
  simp only [applyM] at h
  cases hw : w.apply N H m with
  | ub => rw [hw] at h; cases h
  | ok m1 => rw [hw] at h; exact ⟨m1, rfl, h⟩

theorem used_inc {T : Type} (s : Stk T) : used s = inc s.top := rfl

theorem alloc_path {n : Nat} {m m1 : Map V} {k : UInt64} {v : V} {p : Link} {x : Nat} {pws : List PWr} {ws : List (Wr V)} {r : Ret V} (h : allocate N m.pool = .ok (x, pws))
    (ha : applyM N H m (pws.map .pool) = .ok m1) (hp : Path N H n m1 (.new k v p x) ws r) : Path N H (n + 3) m (.alTop k v p) (pws.map .pool ++ ws) r := by
  unfold allocate at h
  split at h
  · rename_i he
    have he' : inc m.pool.free.top = 0 := by simpa [empty, used_inc] using he
    refine .rd rfl (by simp only [Pc.step, if_pos he']; try rfl) ?_
    split at h
    · rename_i hc
      cases h
      cases ha
      exact .rd rfl (by simp only [Pc.step, if_pos hc]; try rfl) (hp.mono (by omega))
    · rename_i hc
      cases h
      refine .rd rfl (by simp only [Pc.step, if_neg hc]; try rfl) ?_
      obtain ⟨m2, e1, e2⟩ := applyM_cons ha
      cases e2
      exact .wr rfl rfl e1 hp
  · rename_i he
    have he' : ¬ inc m.pool.free.top = 0 := by simpa [empty, used_inc] using he
    refine .rd rfl (by simp only [Pc.step, if_neg he']; try rfl) ?_
    unfold pop at h
    split at h
    · rename_i hlt
      cases h
      refine .rd rfl (by simp only [Pc.step, if_pos hlt]; try rfl) ?_
      obtain ⟨m2, e1, e2⟩ := applyM_cons ha
      cases e2
      exact .wr rfl rfl e1 hp
    · cases h

theorem link_path {m m' : Map V} {k : UInt64} {v : V} {p : Link} {x : Nat} (hx : x ≠ NONE) (w : Wr V) (hw : w = match p with
    | .bucket b => .hash b x
    | .node e => .next e x) (h : applyM N H m [.key x k, .val x v, .next x NONE, w] = .ok m') :
    Path N H 5 m (.new k v p x) [.key x k, .val x v, .next x NONE, w] (.bool true) := by
  obtain ⟨m1, e1, h⟩ := applyM_cons h
  obtain ⟨m2, e2, h⟩ := applyM_cons h
  obtain ⟨m3, e3, h⟩ := applyM_cons h
  obtain ⟨m4, e4, h⟩ := applyM_cons h
  refine .rd rfl (by simp only [Pc.step, if_neg hx]; try rfl) (.wr rfl rfl e1 (.wr rfl rfl e2 (.wr rfl rfl e3 (.wr rfl ?_ e4 .ret))))
  subst hw
  cases p <;> rfl

theorem insert_path {m m' : Map V} {k : UInt64} {v : V} {b : Bool} {ws : List (Wr V)} (h : unprotected_insert N H m k v = .ok (b, ws)) (ha : applyM N H m ws = .ok m') :
    Path N H (2 * N + 12) m (.inHash k v) ws (.bool b) := by
  have new : ∀ (p : Link) (w : Nat → Wr V), (∀ x, w x = match p with
      | .bucket b => .hash b x
      | .node e => .next e x) → (do
        let (new_node, ws) ← allocate N m.pool
        if new_node = NONE then .ok (false, ws.map .pool)
        else .ok (true, ws.map .pool ++ [.key new_node k, .val new_node v, .next new_node NONE, w new_node]) : Res (Bool × List (Wr V))) = .ok (b, ws) →
      Path N H 8 m (.alTop k v p) ws (.bool b) := by
    intro p w hw h
    cases hal : allocate N m.pool with
    | ub => rw [hal] at h; cases h
    | ok q =>
      obtain ⟨x, pws⟩ := q
      rw [hal, Res.ok_bind] at h
      simp only at h
      split at h
      · rename_i hx
        cases h
        have := alloc_path (n := 5) (k := k) (v := v) (p := p) (ws := []) (r := .bool false) hal ha (.rd rfl (by simp only [Pc.step, if_pos hx]; try rfl) .ret)
        simpa using this
      · rename_i hx
        cases h
        rw [applyM_append] at ha
        cases hm : applyM N H m (pws.map .pool) with
        | ub => rw [hm] at ha; cases ha
        | ok m1 =>
          rw [hm, Res.ok_bind] at ha
          exact alloc_path hal hm (link_path hx _ (hw x) ha)
  unfold unprotected_insert at h
  split at h
  · cases h
  · rename_i hH
    simp only at h
    split at h
    · rename_i he
      refine .rd rfl (by simp only [Pc.step, if_neg hH, if_pos he]; try rfl) ?_
      cases hf : findLast N m k (N + 1) (m.hash (k.toNat % H)) with
      | ub => rw [hf] at h; cases h
      | ok q =>
        obtain ⟨el, found⟩ := q
        rw [hf, Res.ok_bind] at h
        refine Path.mono (n := 2 * (N + 1) + 8) (in_loop hf ?_) (by omega)
        cases found with
        | true =>
          simp only [if_true] at h ⊢
          cases h
          obtain ⟨m1, e1, e2⟩ := applyM_cons ha
          exact .wr rfl rfl e1 .ret
        | false =>
          simp only [Bool.false_eq_true, if_false] at h ⊢
          exact new (.node el) (fun x => .next el x) (fun _ => rfl) h
    · rename_i he
      refine .rd rfl (by simp only [Pc.step, if_neg hH, if_neg he]; try rfl) ?_
      exact (new (.bucket (k.toNat % H)) (fun x => .hash (k.toNat % H) x) (fun _ => rfl) h).mono (by omega)

theorem free_path {m m' : Map V} {e : Nat} (ha : applyM N H m ((pfree N m.pool e).2.map .pool) = .ok m') : Path N H 3 m (.frTop e) ((pfree N m.pool e).2.map .pool) (.bool true) := by
  unfold pfree push at *
  rw [used_inc] at *
  by_cases h : inc m.pool.free.top ≥ N
  · simp only [if_pos h] at ha ⊢
    exact .rd rfl (by simp only [Pc.step, if_pos h]; try rfl) .ret
  · simp only [if_neg h] at ha ⊢
    refine .rd rfl (by simp only [Pc.step, if_neg h]; try rfl) ?_
    obtain ⟨m1, e1, ha⟩ := applyM_cons ha
    obtain ⟨m2, e2, ha⟩ := applyM_cons ha
    exact .wr rfl rfl e1 (.wr rfl rfl e2 .ret)

theorem apply_pool {m m' : Map V} {w : Wr V} (h : w.apply N H m = .ok m') (hw : ∀ p, w ≠ .pool p) : m'.pool = m.pool := by
  cases w with
  | pool p => exact absurd rfl (hw p)
  | key i k => simp only [Wr.apply] at h; split at h <;> cases h; rfl
  | val i k => simp only [Wr.apply] at h; split at h <;> cases h; rfl
  | next i k => simp only [Wr.apply] at h; split at h <;> cases h; rfl
  | hash i k => simp only [Wr.apply] at h; split at h <;> cases h; rfl

/-- unlinking, clearing `next` and freeing -/
theorem cut_path {m m' : Map V} {pc : Pc V} {e : Nat} {w : Wr V} (hl : pc.live = true) (hs : pc.step N H m = (some w, .erClr e)) (hw : ∀ p, w ≠ .pool p)
    (ha : applyM N H m ([w, .next e NONE] ++ (pfree N m.pool e).2.map .pool) = .ok m') : Path N H 5 m pc ([w, .next e NONE] ++ (pfree N m.pool e).2.map .pool) (.bool true) := by
  obtain ⟨m1, e1, ha⟩ := applyM_cons ha
  obtain ⟨m2, e2, ha⟩ := applyM_cons ha
  have h1 := apply_pool e1 hw
  have h2 := apply_pool e2 (by intro p hp; cases hp)
  rw [← h1, ← h2] at ha ⊢
  exact .wr hl hs e1 (.wr rfl rfl e2 (free_path ha))

theorem er_loop {n : Nat} {m : Map V} {k : UInt64} {ws : List (Wr V)} {r : Ret V} : ∀ {fuel p e : Nat} {q : Option (Nat × Nat)}, findPrev N m k fuel p e = .ok q →
    Path N H n m (match q with
      | some (p, e) => .erMid p e
      | none => .ret (.bool false)) ws r → Path N H (2 * fuel + 1 + n) m (.erLoop k p e) ws r := by
  intro fuel
  induction fuel with
  | zero =>
    intro p e q h hp
    simp only [findPrev] at h
    split at h
    · rename_i he; cases h; exact Path.mono (n := n + 1) (.rd rfl (by simp only [Pc.step, if_pos he]; try rfl) hp) (by omega)
    · cases h
  | succ fuel ih =>
    intro p e q h hp
    simp only [findPrev] at h
    split at h
    · rename_i he; cases h; exact Path.mono (n := n + 1) (.rd rfl (by simp only [Pc.step, if_pos he]; try rfl) hp) (by omega)
    · rename_i he
      split at h
      · rename_i hlt
        split at h
        · rename_i hk
          cases h
          exact Path.mono (n := n + 1) (.rd rfl (by simp only [Pc.step, if_neg he, if_pos hlt, if_pos hk]; try rfl) hp) (by omega)
        · rename_i hk
          refine Path.mono (n := 2 * fuel + 1 + n + 1 + 1) ?_ (by omega)
          exact .rd (pc' := .erNext k e) rfl (by simp only [Pc.step, if_neg he, if_pos hlt, if_neg hk]; try rfl) (.rd rfl rfl (ih h hp))
      · cases h

theorem erase_path {m m' : Map V} {k : UInt64} {b : Bool} {ws : List (Wr V)} (h : unprotected_erase N H m k = .ok (b, ws)) (ha : applyM N H m ws = .ok m') :
    Path N H (2 * N + 13) m (.erHash k) ws (.bool b) := by
  unfold unprotected_erase at h
  split at h
  · cases h
  · rename_i hH
    simp only at h
    split at h
    · rename_i he
      refine .rd rfl (by simp only [Pc.step, if_neg hH, if_pos he]; try rfl) ?_
      split at h
      · rename_i hlt
        split at h
        · rename_i hk
          cases h
          refine .rd rfl (by simp only [Pc.step, if_pos hlt, if_pos hk]; try rfl) (.rd rfl rfl ?_)
          refine Path.mono (n := 5) ?_ (by omega)
          exact cut_path rfl rfl (by intro p hp; cases hp) ha
        · rename_i hk
          refine .rd rfl (by simp only [Pc.step, if_pos hlt, if_neg hk]; try rfl) (.rd rfl rfl ?_)
          cases hf : findPrev N m k (N + 1) (m.hash (k.toNat % H)) (m.next (m.hash (k.toNat % H))) with
          | ub => rw [hf] at h; cases h
          | ok q =>
            rw [hf, Res.ok_bind] at h
            refine Path.mono (n := 2 * (N + 1) + 1 + 6) (er_loop hf ?_) (by omega)
            cases q with
            | none => cases h; exact .ret
            | some q =>
              obtain ⟨p, e⟩ := q
              simp only at h ⊢
              cases h
              refine .rd rfl rfl ?_
              exact cut_path rfl rfl (by intro p hp; cases hp) ha
      · cases h
    · rename_i he
      cases h
      exact .rd rfl (by simp only [Pc.step, if_neg hH, if_neg he]; try rfl) .ret

theorem clear_loop : ∀ (n i : Nat) (m m' : Map V), i + n = H → applyM N H m ((List.range' i n).map (fun i => .hash i NONE)) = .ok m' →
    Path N H (n + 1) m (.clHash i) ((List.range' i n).map (fun i => .hash i NONE)) .unit := by
  intro n
  induction n with
  | zero => intro i m m' hi h; exact .rd rfl (by simp only [Pc.step]; rw [if_neg (by omega)]; try rfl) .ret
  | succ n ih =>
    intro i m m' hi h
    rw [List.range'_succ, List.map_cons] at h ⊢
    obtain ⟨m1, e1, h⟩ := applyM_cons h
    exact .wr rfl (by simp only [Pc.step]; rw [if_pos (by omega)]; try rfl) e1 (ih (i + 1) m1 m' (by omega) h)

theorem clear_path {m m' : Map V} (ha : applyM N H m (clear H) = .ok m') : Path N H (H + 3) m .clCur (clear H) .unit := by
  unfold ShmMap.clear at ha ⊢
  rw [List.range_eq_range'] at ha ⊢
  obtain ⟨m1, e1, ha⟩ := applyM_cons ha
  obtain ⟨m2, e2, ha⟩ := applyM_cons ha
  exact .wr rfl rfl e1 (.wr rfl rfl e2 (clear_loop H 0 m2 m' (by omega) ha))

/-- A number of steps that is enough for every operation. -/
def bound (N H : Nat) : Nat := 2 * N + H + 13

/-- **Every operation, access by access**, makes the writes of the operation of Verif.ShmMap and returns the same. -/
theorem op_path {m m' : Map V} {o : Op V} {r : Ret V} (h : ShmMap.step N H m o = .ok (m', r)) : ∃ ws, writes N H m o = .ok ws ∧ applyM N H m ws = .ok m' ∧ Path N H (bound N H) m (start o) ws r := by
  cases o with
  | read k =>
    simp only [ShmMap.step] at h
    cases hv : unprotected_read N H m k with
    | ub => rw [hv] at h; cases h
    | ok v =>
      rw [hv, Res.ok_bind] at h
      cases h
      refine ⟨[], rfl, rfl, ?_⟩
      unfold unprotected_read at hv
      split at hv
      · cases hv
      · rename_i hH
        exact Path.mono (n := 2 * (N + 1) + 1 + 1) (.rd rfl (by simp only [Pc.step, if_neg hH]; try rfl) (rd_loop hv)) (by unfold bound; omega)
  | insert k v =>
    simp only [ShmMap.step, ShmMap.insert, writes] at h ⊢
    cases hv : unprotected_insert N H m k v with
    | ub => rw [hv] at h; cases h
    | ok q =>
      obtain ⟨b, ws⟩ := q
      rw [hv] at h
      simp only [Res.ok_bind] at h ⊢
      cases ha : applyM N H m ws with
      | ub => rw [ha] at h; cases h
      | ok m1 =>
        rw [ha] at h
        cases h
        exact ⟨ws, rfl, ha, (insert_path hv ha).mono (by unfold bound; omega)⟩
  | erase k =>
    simp only [ShmMap.step, ShmMap.erase, writes] at h ⊢
    cases hv : unprotected_erase N H m k with
    | ub => rw [hv] at h; cases h
    | ok q =>
      obtain ⟨b, ws⟩ := q
      rw [hv] at h
      simp only [Res.ok_bind] at h ⊢
      cases ha : applyM N H m ws with
      | ub => rw [ha] at h; cases h
      | ok m1 =>
        rw [ha] at h
        cases h
        exact ⟨ws, rfl, ha, (erase_path hv ha).mono (by unfold bound; omega)⟩
  | clear =>
    simp only [ShmMap.step, writes] at h ⊢
    cases ha : applyM N H m (clear H) with
    | ub => rw [ha] at h; cases h
    | ok m1 =>
      rw [ha] at h
      cases h
      exact ⟨clear H, rfl, ha, (clear_path ha).mono (by unfold bound; omega)⟩
  | size =>
    cases h
    exact ⟨[], rfl, rfl, Path.mono (n := 2) (.rd rfl rfl (.rd rfl rfl .ret)) (by unfold bound; omega)⟩

end Verif.MapSys
