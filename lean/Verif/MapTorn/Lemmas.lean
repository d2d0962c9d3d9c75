import Verif.MapTorn.Spec
import Verif.ShmMap.Lemmas
import Verif.ShmMap.Props
/-
  A cut in the stores of an operation is a cut in its writes, except within the copy of a value.
-/
set_option linter.unusedVariables false
set_option linter.unusedSimpArgs false

namespace Verif.MapTorn

open Verif.ShmPool Verif.ShmMap

variable {W : Type} {n N H : Nat}

/-- `v` where the words `os` were copied over `old`. -/
def over (os : List (Fin n)) (v old : Val n W) : Val n W := fun j => if j ∈ os then v j else old j

theorem over_nil (v old : Val n W) : over [] v old = old := by funext j; simp [over]

theorem over_all {ord : List (Fin n)} (h : ∀ j, j ∈ ord) (v old : Val n W) : over ord v old = v := by funext j; simp [over, h j]

theorem put_put {α : Type} (a : Nat → α) (i : Nat) (x y : α) : put (put a i x) i y = put a i y := by
  funext j; simp only [put]; split <;> rfl

theorem put_self {α : Type} (a : Nat → α) (i : Nat) : put a i (a i) = a := by
  funext j; simp only [put]; split
  · next h => rw [h]
  · rfl

theorem applyS_append (m : Map (Val n W)) (a b : List (Store n W)) :
    applyS N H m (a ++ b) = (applyS N H m a >>= fun m => applyS N H m b) := by
  induction a generalizing m with
  | nil => rfl
  | cons s a ih =>
    simp only [List.cons_append, applyS]
    cases s.apply N H m with
    | ub => rfl
    | ok m' => exact ih m'

theorem applyS_field (m : Map (Val n W)) (ws : List (Wr (Val n W))) : applyS N H m (ws.map .field) = applyM N H m ws := by
  induction ws generalizing m with
  | nil => rfl
  | cons w ws ih =>
    simp only [List.map_cons, applyS, applyM, Store.apply]
    cases w.apply N H m with
    | ub => rfl
    | ok m' => exact ih m'

theorem applyS_words {i : Nat} (hi : i < N) (v : Val n W) : ∀ (os : List (Fin n)) (m : Map (Val n W)),
    applyS N H m (os.map (fun j => .word i j (v j))) = .ok { m with val := put m.val i (over os v (m.val i)) } := by
  intro os
  induction os with
  | nil => intro m; simp [applyS, over_nil, put_self]
  | cons j os ih =>
    intro m
    simp only [List.map_cons, applyS, Store.apply, if_pos hi, Res.ok_bind, ih, put_put, put_eq]
    congr 3
    funext j'
    simp only [over, setWord, List.mem_cons]
    by_cases h1 : j' ∈ os
    · simp [h1]
    · by_cases h2 : j' = j
      · subst h2; simp [h1]
      · simp [h1, h2]

/-- No value is assigned. -/
def NoVal (ws : List (Wr (Val n W))) : Prop := ∀ w ∈ ws, ∀ i v, w ≠ .val i v

theorem flat_noVal {ws : List (Wr (Val n W))} (ord : List (Fin n)) (h : NoVal ws) : ws.flatMap (stores ord) = ws.map .field := by
  induction ws with
  | nil => rfl
  | cons w ws ih =>
    have h1 := h w (by simp)
    have h2 := ih (fun w hw => h w (List.mem_cons_of_mem _ hw))
    rw [List.flatMap_cons, List.map_cons, h2]
    cases w with
    | val i v => exact absurd rfl (h1 i v)
    | _ => rfl

theorem noVal_pool (ws : List PWr) : NoVal (ws.map (Wr.pool (V := Val n W))) := by
  intro w hw i v
  obtain ⟨p, _, rfl⟩ := List.mem_map.mp hw
  simp

/-- The writes of `insert`: nothing, one value, or a new node whose value is not the last write. -/
theorem insert_forms (m : Map (Val n W)) (k : UInt64) :
    (∀ u, unprotected_insert N H m k u = .ub) ∨ (∃ ws, NoVal ws ∧ ∀ u, unprotected_insert N H m k u = .ok (false, ws)) ∨
    (∃ i, ∀ u, unprotected_insert N H m k u = .ok (true, [.val i u])) ∨
    (∃ pre i post, NoVal pre ∧ NoVal post ∧ post ≠ [] ∧ ∀ u, unprotected_insert N H m k u = .ok (true, pre ++ .val i u :: post)) := by
  unfold unprotected_insert
  by_cases hH : H = 0
  · left; intro u; rw [if_pos hH]
  simp only [if_neg hH]
  by_cases he : m.hash (k.toNat % H) ≠ NONE
  · simp only [if_pos he]
    cases hf : findLast N m k (N + 1) (m.hash (k.toNat % H)) with
    | ub => left; intro u; rfl
    | ok r =>
      obtain ⟨el, found⟩ := r
      simp only [Res.ok_bind]
      cases found with
      | true => right; right; left; exact ⟨el, fun u => rfl⟩
      | false =>
        cases ha : allocate N m.pool with
        | ub => left; intro u; rfl
        | ok r =>
          obtain ⟨nn, ws⟩ := r
          simp only [Res.ok_bind]
          by_cases hn : nn = NONE
          · right; left; exact ⟨ws.map .pool, noVal_pool ws, fun u => by simp [hn]⟩
          · right; right; right
            refine ⟨ws.map .pool ++ [.key nn k], nn, [.next nn NONE, .next el nn], ?_, ?_, by simp, fun u => by simp [hn]⟩
            · intro w hw i v
              rcases List.mem_append.mp hw with h | h
              · exact noVal_pool ws w h i v
              · simp at h; subst h; simp
            · intro w hw i v
              simp at hw
              rcases hw with rfl | rfl <;> simp
  · simp only [if_neg he]
    cases ha : allocate N m.pool with
    | ub => left; intro u; rfl
    | ok r =>
      obtain ⟨nn, ws⟩ := r
      simp only [Res.ok_bind]
      by_cases hn : nn = NONE
      · right; left; exact ⟨ws.map .pool, noVal_pool ws, fun u => by simp [hn]⟩
      · right; right; right
        refine ⟨ws.map .pool ++ [.key nn k], nn, [.next nn NONE, .hash (k.toNat % H) nn], ?_, ?_, by simp, fun u => by simp [hn]⟩
        · intro w hw i v
          rcases List.mem_append.mp hw with h | h
          · exact noVal_pool ws w h i v
          · simp at h; subst h; simp
        · intro w hw i v
          simp at hw
          rcases hw with rfl | rfl <;> simp

theorem erase_noVal (m : Map (Val n W)) (k : UInt64) {r : Bool} {ws : List (Wr (Val n W))}
    (e : unprotected_erase N H m k = .ok (r, ws)) : NoVal ws := by
  have key : ∀ (a b : Wr (Val n W)) (p : List PWr), (∀ i v, a ≠ .val i v) → (∀ i v, b ≠ .val i v) → NoVal ([a, b] ++ p.map .pool) := by
    intro a b p ha hb w hw i v
    rcases List.mem_append.mp hw with h | h
    · simp at h; rcases h with rfl | rfl
      · exact ha i v
      · exact hb i v
    · exact noVal_pool p w h i v
  unfold unprotected_erase at e
  by_cases hH : H = 0
  · rw [if_pos hH] at e; exact absurd e (by simp)
  rw [if_neg hH] at e
  dsimp only at e
  by_cases h1 : m.hash (k.toNat % H) ≠ NONE
  · rw [if_pos h1] at e
    by_cases h2 : m.hash (k.toNat % H) < N
    · rw [if_pos h2] at e
      by_cases h3 : k = m.key (m.hash (k.toNat % H))
      · rw [if_pos h3] at e
        cases e
        exact key _ _ _ (by simp) (by simp)
      · rw [if_neg h3] at e
        cases hf : findPrev N m k (N + 1) (m.hash (k.toNat % H)) (m.next (m.hash (k.toNat % H))) with
        | ub => rw [hf] at e; cases e
        | ok x =>
          rw [hf] at e
          cases x with
          | none => cases e; intro w hw; simp at hw
          | some x =>
            cases e
            exact key _ _ _ (by simp) (by simp)
    · rw [if_neg h2] at e; cases e
  · rw [if_neg h1] at e
    cases e; intro w hw; simp at hw

theorem clear_noVal : NoVal (clear H : List (Wr (Val n W))) := by
  intro w hw i v
  rcases List.mem_append.mp hw with h | h
  · exact noVal_pool _ w h i v
  · obtain ⟨x, _, rfl⟩ := List.mem_map.mp h
    simp

/-- Without values a cut in the stores is the cut in the writes. -/
theorem cut_noVal (ord : List (Fin n)) {ws : List (Wr (Val n W))} (h : NoVal ws) (m : Map (Val n W)) (c : Nat) :
    applyS N H m ((ws.flatMap (stores ord)).take c) = applyM N H m (ws.take c) := by
  rw [flat_noVal ord h, ← List.map_take, applyS_field]

theorem all_noVal (ord : List (Fin n)) {ws : List (Wr (Val n W))} (h : NoVal ws) (m : Map (Val n W)) :
    applyS N H m (ws.flatMap (stores ord)) = applyM N H m ws := by
  rw [flat_noVal ord h, applyS_field]

theorem noVal_nil : NoVal ([] : List (Wr (Val n W))) := by intro w hw; simp at hw

section
variable {m : Map (Val n W)} {f : Nat → List Nat} {fr : List Nat} {lk : Nat} {l : ShmMap.Spec.Bindings (Val n W)}

theorem applyM_snoc_lt {m : Map (Val n W)} {pre post : List (Wr (Val n W))} {i : Nat} {u : Val n W} {m' : Map (Val n W)}
    (e : applyM N H m (pre ++ .val i u :: post) = .ok m') : ∃ mm, applyM N H m pre = .ok mm ∧ i < N := by
  rw [applyM_append] at e
  cases hp : applyM N H m pre with
  | ub => rw [hp] at e; cases e
  | ok mm =>
    rw [hp] at e
    refine ⟨mm, rfl, ?_⟩
    simp only [Res.ok_bind, applyM, Wr.apply] at e
    by_cases h : i < N
    · exact h
    · rw [if_neg h] at e; cases e

theorem flat_mid (ord : List (Fin n)) {pre post : List (Wr (Val n W))} (i : Nat) (v : Val n W) (h1 : NoVal pre) (h2 : NoVal post) :
    (pre ++ .val i v :: post).flatMap (stores ord) = pre.map .field ++ (ord.map (fun j => .word i j (v j)) ++ post.map .field) := by
  rw [List.flatMap_append, List.flatMap_cons, flat_noVal ord h1, flat_noVal ord h2]
  rfl

/-- The value under a key that `insert` overwrites. -/
theorem found_lookup (hN : N < NONE) (hH : 0 < H) (h : Rep N H m f fr lk l) {k : UInt64} {i : Nat}
    (e : ∀ u, unprotected_insert N H m k u = .ok (true, [.val i u])) : i < N ∧ ShmMap.Spec.lookup l k = some (m.val i) := by
  obtain ⟨r, ws, e1, _, _, _, m', f', fr', e2, h2⟩ := insert_spec hN hH h k (m.val i)
  rw [e] at e1
  cases e1
  obtain ⟨_, _, hi⟩ := applyM_snoc_lt (pre := []) (post := []) e2
  refine ⟨hi, ?_⟩
  simp only [applyM, Wr.apply, if_pos hi, Res.ok_bind, put_self] at e2
  cases e2
  have r1 := read_spec hN hH h k
  have r2 := read_spec hN hH h2 k
  rw [r1] at r2
  have r3 : ShmMap.Spec.lookup l k = ShmMap.Spec.lookup (if true = true then ShmMap.Spec.bind l k (m.val i) else l) k := by
    injection r2
  rw [r3, if_pos rfl]
  refine lookup_mem (by simpa using h2.keysL) ?_
  unfold ShmMap.Spec.bind
  split
  · next hh =>
    obtain ⟨p, hp, hpk⟩ := List.mem_map.mp hh
    exact List.mem_map.mpr ⟨p, hp, by rw [if_pos hpk]⟩
  · simp

/-- A killed `insert` over a bound key. -/
theorem kill_found (ord : List (Fin n)) (hN : N < NONE) (hH : 0 < H) (h : Rep N H m f fr lk l) {k : UInt64} {i : Nat}
    (e : ∀ u, unprotected_insert N H m k u = .ok (true, [.val i u])) (v : Val n W) (c : Nat) :
    ∃ m' f' fr', killS N H ord m (.insert k v) c = .ok m' ∧
      Rep N H m' f' fr' lk (ShmMap.Spec.bind l k (over (ord.take c) v (m.val i))) := by
  obtain ⟨hi, hl⟩ := found_lookup hN hH h e
  obtain ⟨r, ws, e1, _, _, _, m', f', fr', e2, h2⟩ := insert_spec hN hH h k (over (ord.take c) v (m.val i))
  rw [e] at e1
  cases e1
  refine ⟨m', f', fr', ?_, by simpa using h2⟩
  rw [← e2]
  simp only [killS, opStores, writes, e, Res.ok_bind, List.flatMap_cons, List.flatMap_nil, List.append_nil, stores, ← List.map_take,
    applyS_words hi, applyM, Wr.apply, if_pos hi]

/-- A killed `insert` with a new node. -/
theorem kill_new {ord : List (Fin n)} (ho : ∀ j, j ∈ ord) (hN : N < NONE) (hH : 0 < H) (h : Rep N H m f fr lk l) {k : UInt64} {i : Nat}
    {pre post : List (Wr (Val n W))} (h1 : NoVal pre) (h2 : NoVal post) (h3 : post ≠ [])
    (e : ∀ u, unprotected_insert N H m k u = .ok (true, pre ++ .val i u :: post)) (v : Val n W) (c : Nat) :
    ∃ m' f' fr' lk' l', killS N H ord m (.insert k v) c = .ok m' ∧ Rep N H m' f' fr' lk' l' ∧
      (l' = l ∨ l' = (ShmMap.Spec.stepL N lk l (.insert k v)).1) ∧ lk' ≤ lk + 1 := by
  have hw : ∀ u a, kill N H m (.insert k u) a = applyM N H m ((pre ++ .val i u :: post).take a) := by
    intro u a; simp only [kill, writes, e, Res.ok_bind]
  have hs : killS N H ord m (.insert k v) c =
      applyS N H m ((pre.map Store.field ++ (ord.map (fun j => Store.word i j (v j)) ++ post.map Store.field)).take c) := by
    simp only [killS, opStores, writes, e, Res.ok_bind, flat_mid ord i v h1 h2]
  have hok : ∃ mm, applyM N H m pre = .ok mm ∧ i < N := by
    obtain ⟨r, ws, e1, _, _, _, m', f', fr', e2, _⟩ := insert_spec hN hH h k v
    rw [e] at e1
    cases e1
    exact applyM_snoc_lt e2
  obtain ⟨mm, hmm, hi⟩ := hok
  by_cases hc1 : c ≤ pre.length
  · obtain ⟨m', f', fr', lk', l', e1, r1, r2, r3⟩ := kill_spec hN hH h (.insert k v) c (by simp) (by simp)
    refine ⟨m', f', fr', lk', l', ?_, r1, r2, r3⟩
    rw [hs, ← e1, hw, List.take_append_of_le_length (by simpa using hc1), List.take_append_of_le_length hc1, ← List.map_take, applyS_field]
  · obtain ⟨d, rfl⟩ : ∃ d, c = pre.length + d := ⟨c - pre.length, by omega⟩
    rw [show pre.length + d = (pre.map (Store.field (n := n) (W := W))).length + d by simp, List.take_length_add_append, applyS_append, applyS_field, hmm,
      Res.ok_bind] at hs
    by_cases hc2 : d ≤ ord.length
    · rw [List.take_append_of_le_length (by simpa using hc2), ← List.map_take, applyS_words hi] at hs
      obtain ⟨r, ws, e1, _, _, hcut, _⟩ := insert_spec hN hH h k (over (ord.take d) v (mm.val i))
      rw [e] at e1
      cases e1
      have hlen : 0 < post.length := List.length_pos_iff.mpr h3
      obtain ⟨m', fr', lk', e2, r1, _, r3⟩ := hcut (pre.length + 1) (by simp; omega)
      refine ⟨m', f, fr', lk', l, ?_, r1, Or.inl rfl, r3⟩
      rw [← e2, List.take_length_add_append, applyM_append, hmm]
      simp only [List.length_map] at hs
      rw [hs]
      simp [applyM, Wr.apply, hi]
    · obtain ⟨g, rfl⟩ : ∃ g, d = ord.length + g := ⟨d - ord.length, by omega⟩
      rw [show ord.length + g = (ord.map (fun j => Store.word i j (v j))).length + g by simp, List.take_length_add_append, applyS_append,
        applyS_words hi, over_all ho, Res.ok_bind, ← List.map_take, applyS_field] at hs
      obtain ⟨m', f', fr', lk', l', e1, r1, r2, r3⟩ := kill_spec hN hH h (.insert k v) (pre.length + (g + 1)) (by simp) (by simp)
      refine ⟨m', f', fr', lk', l', ?_, r1, r2, r3⟩
      rw [← e1, hw, List.take_length_add_append, applyM_append, hmm]
      simp only [List.length_map] at hs
      rw [hs]
      simp [applyM, Wr.apply, hi]

/-- A complete operation is that of Verif/ShmMap. -/
theorem step_eq {ord : List (Fin n)} (ho : ∀ j, j ∈ ord) (hN : N < NONE) (hH : 0 < H) (h : Rep N H m f fr lk l) (op : Op (Val n W)) :
    stepS N H ord m op = step N H m op := by
  cases op with
  | read k =>
    simp only [stepS, result, opStores, writes, step, read_spec hN hH h, Res.ok_bind]
    rfl
  | size => rfl
  | clear =>
    obtain ⟨m', e, _⟩ := clear_spec (N := N) (H := H) m
    simp only [stepS, result, opStores, writes, step, Res.ok_bind, all_noVal ord clear_noVal, e]
  | erase k =>
    simp only [stepS, result, opStores, writes, step, erase]
    cases e : unprotected_erase N H m k with
    | ub => rfl
    | ok r =>
      obtain ⟨r, ws⟩ := r
      simp only [Res.ok_bind, all_noVal ord (erase_noVal m k e)]
      cases applyM N H m ws with
      | ub => rfl
      | ok m' => rfl
  | insert k v =>
    obtain ⟨r, ws, e, _, _, _, m', f', fr', e2, h2⟩ := insert_spec hN hH h k v
    simp only [stepS, result, opStores, writes, step, ShmMap.insert, e, Res.ok_bind, e2]
    have key : applyS N H m (ws.flatMap (stores ord)) = applyM N H m ws := by
      rcases insert_forms (N := N) (H := H) m k with h0 | ⟨ws', hn, h0⟩ | ⟨i, h0⟩ | ⟨pre, i, post, hn1, hn2, _, h0⟩
      · rw [h0] at e; cases e
      · rw [h0] at e; cases e; exact all_noVal ord hn m
      · rw [h0] at e; cases e
        obtain ⟨_, _, hi⟩ := applyM_snoc_lt (pre := []) (post := []) e2
        simp only [List.flatMap_cons, List.flatMap_nil, List.append_nil, stores, applyS_words hi, over_all ho, applyM, Wr.apply, if_pos hi,
          Res.ok_bind]
      · rw [h0] at e; cases e
        obtain ⟨mm, hmm, hi⟩ := applyM_snoc_lt e2
        rw [flat_mid ord i v hn1 hn2, applyS_append, applyS_field, hmm, Res.ok_bind, applyS_append, applyS_words hi, over_all ho, Res.ok_bind,
          applyS_field, applyM_append, hmm]
        simp [applyM, Wr.apply, hi]
    rw [key, e2]
    rfl

/-- A killed operation. -/
theorem killS_spec {ord : List (Fin n)} (ho : ∀ j, j ∈ ord) (hN : N < NONE) (hH : 0 < H) (h : Rep N H m f fr lk l) (op : Op (Val n W)) (c : Nat)
    (he : ∀ k, op = .erase k → c ≠ 3) (hc : op = .clear → c = 0 ∨ H + 2 ≤ c) :
    ∃ m' f' fr' lk' l', killS N H ord m op c = .ok m' ∧ Rep N H m' f' fr' lk' l' ∧ lk' ≤ lk + 1 ∧
      ((l' = l ∨ l' = (ShmMap.Spec.stepL N lk l op).1) ∨
        ∃ k v old, op = .insert k v ∧ ShmMap.Spec.lookup l k = some old ∧ l' = ShmMap.Spec.bind l k (over (ord.take c) v old)) := by
  have plain : (killS N H ord m op c = kill N H m op c) → ∃ m' f' fr' lk' l', killS N H ord m op c = .ok m' ∧ Rep N H m' f' fr' lk' l' ∧ lk' ≤ lk + 1 ∧
      ((l' = l ∨ l' = (ShmMap.Spec.stepL N lk l op).1) ∨
        ∃ k v old, op = .insert k v ∧ ShmMap.Spec.lookup l k = some old ∧ l' = ShmMap.Spec.bind l k (over (ord.take c) v old)) := by
    intro hk
    obtain ⟨m', f', fr', lk', l', e1, r1, r2, r3⟩ := kill_spec hN hH h op c he hc
    exact ⟨m', f', fr', lk', l', by rw [hk, e1], r1, r3, Or.inl r2⟩
  cases op with
  | read k => exact plain (by simp [killS, opStores, kill, writes, applyS, applyM])
  | size => exact plain (by simp [killS, opStores, kill, writes, applyS, applyM])
  | clear => exact plain (by simp only [killS, opStores, kill, writes, Res.ok_bind, cut_noVal ord clear_noVal])
  | erase k =>
    refine plain ?_
    simp only [killS, opStores, kill, writes]
    cases e : unprotected_erase N H m k with
    | ub => rfl
    | ok r =>
      obtain ⟨r, ws⟩ := r
      simp only [Res.ok_bind, cut_noVal ord (erase_noVal m k e)]
  | insert k v =>
    rcases insert_forms (N := N) (H := H) m k with h0 | ⟨ws', hn, h0⟩ | ⟨i, h0⟩ | ⟨pre, i, post, hn1, hn2, hn3, h0⟩
    · obtain ⟨r, ws, e, _⟩ := insert_spec hN hH h k v
      rw [h0] at e; cases e
    · exact plain (by simp only [killS, opStores, kill, writes, h0, Res.ok_bind, cut_noVal ord hn])
    · obtain ⟨m', f', fr', e1, r1⟩ := kill_found ord hN hH h h0 v c
      exact ⟨m', f', fr', lk, _, e1, r1, by omega, Or.inr ⟨k, v, m.val i, rfl, (found_lookup hN hH h h0).2, rfl⟩⟩
    · obtain ⟨m', f', fr', lk', l', e1, r1, r2, r3⟩ := kill_new ho hN hH h hn1 hn2 hn3 h0 v c
      exact ⟨m', f', fr', lk', l', e1, r1, r3, Or.inl r2⟩

/-- Binding a key to the value it has changes nothing. -/
theorem bind_same {l : ShmMap.Spec.Bindings (Val n W)} {k : UInt64} {old : Val n W} (hn : (l.map (·.1)).Nodup)
    (h : ShmMap.Spec.lookup l k = some old) : ShmMap.Spec.bind l k old = l := by
  have hh : ShmMap.Spec.has l k := by
    by_cases hh : ShmMap.Spec.has l k
    · exact hh
    · rw [lookup_none hh] at h; cases h
  unfold ShmMap.Spec.bind
  rw [if_pos hh]
  refine (List.map_congr_left (g := id) ?_).trans (List.map_id l)
  intro p hp
  split
  · next hk =>
    have := lookup_mem hn (k := k) (v := p.2) (by rw [← hk]; exact hp)
    rw [this] at h
    cases h
    rw [← hk]; rfl
  · rfl

theorem lookup_bind {l : ShmMap.Spec.Bindings (Val n W)} (k : UInt64) (u : Val n W) (hn : ((ShmMap.Spec.bind l k u).map (·.1)).Nodup) :
    ShmMap.Spec.lookup (ShmMap.Spec.bind l k u) k = some u := by
  refine lookup_mem hn ?_
  unfold ShmMap.Spec.bind
  split
  · next hh =>
    obtain ⟨p, hp, hpk⟩ := List.mem_map.mp hh
    exact List.mem_map.mpr ⟨p, hp, by rw [if_pos hpk]⟩
  · simp

theorem lookup_bind_ne (l : ShmMap.Spec.Bindings (Val n W)) {k k' : UInt64} (u : Val n W) (hk : k' ≠ k) :
    ShmMap.Spec.lookup (ShmMap.Spec.bind l k u) k' = ShmMap.Spec.lookup l k' := by
  unfold ShmMap.Spec.bind
  split
  · next hh =>
    clear hh
    unfold ShmMap.Spec.lookup
    congr 1
    induction l with
    | nil => rfl
    | cons p l ih =>
      rw [List.map_cons, List.find?_cons, List.find?_cons]
      by_cases hp : p.1 = k
      · rw [if_pos hp]
        have h1 : ¬ k = k' := fun h => hk h.symm
        have h2 : ¬ p.1 = k' := by rw [hp]; exact h1
        simp only [h1, h2, decide_false]
        exact ih
      · rw [if_neg hp]
        split
        · rfl
        · exact ih
  · unfold ShmMap.Spec.lookup
    rw [List.find?_cons]
    have h1 : ¬ k = k' := fun h => hk h.symm
    simp [h1]

end

/-- Every history that the map survives leads to a represented state, and shows what `SeesMixed` allows. -/
theorem run_rep {ord : List (Fin n)} (ho : ∀ j, j ∈ ord) (hN : N < NONE) (hH : 0 < H) : ∀ (es : List (ShmMap.Spec.Ev (Val n W))),
    (∀ e ∈ es, Survives H e) → ∀ (m : Map (Val n W)) f fr lk l, Rep N H m f fr lk l →
    ∃ m' rs f' fr' lk' l', runS N H ord m es = .ok (m', rs) ∧ Spec.SeesMixed N lk l es rs ∧ Rep N H m' f' fr' lk' l' ∧
      (n ≤ 1 → ShmMap.Spec.Sees N lk l es rs) := by
  intro es
  induction es with
  | nil => intro _ m f fr lk l h; exact ⟨m, [], f, fr, lk, l, rfl, .nil, h, fun _ => .nil⟩
  | cons e es ih =>
    intro hs m f fr lk l h
    have hs' := fun e he => hs e (List.mem_cons_of_mem _ he)
    have hse := hs e (by simp)
    cases e with
    | done op =>
      obtain ⟨m1, f1, fr1, e1, h1⟩ := step_spec hN hH h op
      obtain ⟨m2, rs, f2, fr2, lk2, l2, e2, h2, h3, h4⟩ := ih hs' m1 f1 fr1 _ _ h1
      exact ⟨m2, _, f2, fr2, lk2, l2, by simp only [runS, step_eq ho hN hH h, e1, Res.ok_bind, e2], .done h2, h3, fun hn => .done (h4 hn)⟩
    | killed op c =>
      obtain ⟨m1, f1, fr1, lk1, l1, e1, h1, hlk, hl⟩ := killS_spec ho hN hH h op c
        (by intro k hk; subst hk; exact hse) (by intro hk; subst hk; exact hse)
      obtain ⟨m2, rs, f2, fr2, lk2, l2, e2, h2, h3, h4⟩ := ih hs' m1 f1 fr1 _ _ h1
      refine ⟨m2, rs, f2, fr2, lk2, l2, by simp only [runS, e1, Res.ok_bind, e2], .killed ?_ hlk h2, h3, fun hn => .killed ?_ hlk (h4 hn)⟩
      · rcases hl with (hl | hl) | ⟨k, v, old, ho', hlo, hl⟩
        · exact Or.inl hl
        · exact Or.inr (Or.inl hl)
        · refine Or.inr (Or.inr ⟨k, v, old, _, ho', hlo, ?_, hl⟩)
          intro j
          simp only [over]
          split
          · exact Or.inl rfl
          · exact Or.inr rfl
      · rcases hl with hl | ⟨k, v, old, ho', hlo, hl⟩
        · exact hl
        · subst ho'
          have hh : ShmMap.Spec.has l k := by
            by_cases hh : ShmMap.Spec.has l k
            · exact hh
            · rw [lookup_none hh] at hlo; cases hlo
          by_cases hz : ∀ j, j ∈ ord.take c
          · right
            rw [hl, over_all hz]
            simp only [ShmMap.Spec.stepL, ShmMap.Spec.step]
            rw [if_pos (Or.inl hh)]
          · left
            have : over (ord.take c) v old = old := by
              funext j
              simp only [over]
              split
              · next hj =>
                exact absurd (fun j' => by rw [show j' = j from Fin.ext (by omega)]; exact hj) hz
              · rfl
            rw [hl, this]
            exact bind_same h.keysL hlo

end Verif.MapTorn
