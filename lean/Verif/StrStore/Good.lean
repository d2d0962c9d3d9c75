import Verif.StrStore.Inv
set_option linter.unusedSimpArgs false
set_option linter.unusedVariables false

namespace Verif.StrStore

def dataOf (sb : SB) (p : Ptr) : Option (List UInt8) := match userRead sb (slot p) with
  | .ok d => some d
  | .ub => none

def St.look (st : St) (x : List UInt8) : Option Ptr := Verif.StrStore.look (x.length + 1) st.tree 0 x

/-- The storage holds the map `m` on the strings of `S`. -/
structure Good (S : List UInt8 → Prop) (st : St) (m : Dict) : Prop where
  inv : Inv st
  fact : All (Fact S) st.tree
  kok : KOK 0 st.tree
  en : ∀ x, S x → ∀ p, st.look x = some p ↔ (x, slot p) ∈ enumTs [] st.tree
  keys : ∀ e ∈ enumTs [] st.tree, S e.1
  uniq : (enumTs [] st.tree).Pairwise (fun a b => a.2 ≠ b.2)
  dict : ∀ x, S x → m x = (st.look x).bind (dataOf st.sb)

variable {S : List UInt8 → Prop}

theorem init_good (uds : Nat) : Good S (St.init uds) (fun _ => none) := by
  have e : (St.init uds).tree = [] := rfl
  refine ⟨init_inv uds, ?_, ?_, ?_, ?_, ?_, ?_⟩
  · rw [e]; exact ⟨_, fun t ht => absurd ht List.not_mem_nil, fun t ht => absurd ht List.not_mem_nil⟩
  · rw [e]; exact ⟨_, _, fun t ht => absurd ht List.not_mem_nil, fun t ht => absurd ht List.not_mem_nil⟩
  · intro x hx p
    rw [St.look, e, look_nil]
    simp [enumTs]
  · rw [e]; intro x hx; cases hx
  · rw [e]; exact List.Pairwise.nil
  · intro x hx; rw [St.look, e, look_nil]; rfl

theorem of_zero {x : List UInt8} (h : S x) : Of S 0 x := ⟨x, h, by simp, by simp⟩

theorem look_mem_ptrs {st : St} {x : List UInt8} {p : Ptr} (h : st.look x = some p) : p ∈ st.ptrs := look_ptr st.sb _ _ _ _ _ h

theorem good_inj {st : St} {m : Dict} (h : Good S st m) {x y : List UInt8} (hx : S x) (hy : S y) {p : Ptr} (h1 : st.look x = some p) (h2 : st.look y = some p) : x = y := by
  have a1 := (h.en x hx p).1 h1
  have a2 := (h.en y hy p).1 h2
  have hu := h.uniq
  generalize enumTs [] st.tree = E at *
  induction E with
  | nil => cases a1
  | cons e E ih =>
    have hc := List.pairwise_cons.1 hu
    rcases List.mem_cons.1 a1 with a1 | a1
    · rcases List.mem_cons.1 a2 with a2 | a2
      · rw [← a2] at a1; exact congrArg Prod.fst a1
      · exact absurd (by rw [← a1]) (hc.1 _ a2)
    · rcases List.mem_cons.1 a2 with a2 | a2
      · exact absurd (by rw [← a2]) (hc.1 _ a1)
      · exact ih a1 a2 hc.2

theorem data_some {st : St} (h : Inv st) {p : Ptr} (hp : p ∈ st.ptrs) : ∃ d, userRead st.sb (slot p) = .ok d := by
  obtain ⟨c, s, d, hc⟩ := h.cells p hp
  exact ⟨d, cell_data hc⟩

/-- The memory of a slot is set; the map follows. -/
theorem good_put {st : St} {m : Dict} (h : Good S st m) {x d o : List UInt8} (hx : S x) {p : Ptr} (hp : st.look x = some p) (sb' : SB)
    (hi : Inv ⟨sb', st.root⟩) (ht : (⟨sb', st.root⟩ : St).tree = st.tree) (h1 : userRead sb' (slot p) = .ok d)
    (h2 : ∀ v ∈ st.ptrs, v ≠ p → userRead sb' (slot v) = userRead st.sb (slot v)) : Good S ⟨sb', st.root⟩ (m.set x d) := by
  have hl : ∀ y, (⟨sb', st.root⟩ : St).look y = st.look y := fun y => by unfold St.look; rw [ht]
  refine ⟨hi, by rw [ht]; exact h.fact, by rw [ht]; exact h.kok, ?_, by rw [ht]; exact h.keys, by rw [ht]; exact h.uniq, ?_⟩
  · intro y hy q; rw [hl, ht]; exact h.en y hy q
  · intro y hy
    rw [hl]
    unfold Dict.set
    by_cases e : y = x
    · rw [if_pos e, e, hp]
      simp only [Option.bind_some, dataOf, h1]
    · rw [if_neg e, h.dict y hy]
      match hq : st.look y with
      | none => rfl
      | some q =>
        have hne : q ≠ p := by
          intro e2; rw [e2] at hq; exact e (good_inj h hy hx hq hp)
        simp only [Option.bind_some, dataOf, h2 q (look_mem_ptrs hq) hne]

theorem good_step (hn : NoShift S) (hs : Short S) (uds : Nat) (hfit : ∀ x, S x → x.length + 2 + uds ≤ blockSize) {st : St} {m : Dict} (h : Good S st m)
    (hu : st.sb.uds = uds) (op : Op) (ho : S op.str) (hf : op.fits uds) :
    ∃ st' r, step st op = .ok (st', r) ∧ r.view = (m.step uds op).2 ∧ Good S st' (m.step uds op).1 ∧ st'.sb.uds = uds ∧
      (∀ x, S x → ∀ p, st.look x = some p → st'.look x = some p) := by
  subst hu
  have hfind : ∀ x, string_storage_find st.sb st.root x = .ok (st.sb, st.root, (st.look x).map slot) := fun x => find_inv h.inv x
  cases op with
  | find x =>
    refine ⟨st, .slot ((st.look x).map slot), ?_, ?_, h, rfl, fun _ _ _ h => h⟩
    · rw [step, hfind]; rfl
    · simp only [Op.str] at ho
      simp only [Out.view, Dict.step]
      rw [h.dict x ho]
      match hq : st.look x with
      | none => rfl
      | some q =>
        obtain ⟨d, hd⟩ := data_some h.inv (look_mem_ptrs hq)
        simp only [Option.map_some, Option.bind_some, dataOf, hd]; rfl
  | get x =>
    simp only [Op.str] at ho
    have hdx := h.dict x ho
    match hq : st.look x with
    | none =>
      refine ⟨st, .data none, ?_, ?_, h, rfl, fun _ _ _ h => h⟩
      · rw [step, hfind, hq]; rfl
      · simp only [Out.view, Dict.step]; rw [hdx, hq]; rfl
    | some q =>
      obtain ⟨d, hd⟩ := data_some h.inv (look_mem_ptrs hq)
      refine ⟨st, .data (some d), ?_, ?_, h, rfl, fun _ _ _ h => h⟩
      · rw [step, hfind, hq]
        simp only [Res.ok_bind, Option.map_some]
        rw [hd]; rfl
      · simp only [Out.view, Dict.step]
        rw [hdx, hq]
        simp only [Option.bind_some, dataOf, hd]
  | put x d =>
    simp only [Op.str] at ho
    simp only [Op.fits] at hf
    have hdx := h.dict x ho
    match hq : st.look x with
    | none =>
      rw [hq] at hdx
      refine ⟨st, .data none, ?_, ?_, ?_, rfl, fun _ _ _ h => h⟩
      · rw [step, hfind, hq]; rfl
      · simp only [Out.view, Dict.step]; rw [hdx]; rfl
      · simp only [Dict.step]; rw [hdx]; exact h
    | some q =>
      obtain ⟨sb', o, a1, a2, a3, a4, a5, a6, a7⟩ := put_inv h.inv (look_mem_ptrs hq) d hf
      rw [hq] at hdx
      simp only [Option.bind_some, dataOf, a5] at hdx
      refine ⟨⟨sb', st.root⟩, .data (some d), ?_, ?_, ?_, a3, ?_⟩
      · rw [step, hfind, hq]
        simp only [Res.ok_bind, Option.map_some]
        rw [a1]; rfl
      · simp only [Out.view, Dict.step]; rw [hdx]
      · simp only [Dict.step]; rw [hdx]
        exact good_put (o := o) h ho hq sb' a2 a4 a6 a7
      · intro y hy p hp
        unfold St.look at *; rw [a4]; exact hp
  | add x =>
    simp only [Op.str] at ho
    have hdx := h.dict x ho
    have ha := add_inv h.inv x (hs x ho).2 (hfit x ho)
    match hq : st.look x with
    | some q =>
      obtain ⟨d, hd⟩ := data_some h.inv (look_mem_ptrs hq)
      rw [hq] at hdx
      simp only [Option.bind_some, dataOf, hd] at hdx
      refine ⟨st, .slot (some (slot q)), ?_, rfl, ?_, rfl, fun _ _ _ h => h⟩
      · rw [step, ha.1 q hq]; rfl
      · simp only [Dict.step]; rw [hdx, if_neg (by simp)]; exact h
    | none =>
      obtain ⟨sb', root', p, b1, b2, b3, b4, b5, b6, b7, b8⟩ := ha.2 hq
      rw [hq] at hdx
      have hlo : ∀ y, S y → y ≠ x → (⟨sb', root'⟩ : St).look y = st.look y := by
        intro y hy hne
        unfold St.look
        rw [b4]
        exact ins_look_other hn hs p _ _ _ _ _ _ _ h.inv.sorted h.fact (of_zero ho) (of_zero hy) (fun e => hne e.2)
      have hls : (⟨sb', root'⟩ : St).look x = some p := by
        unfold St.look
        rw [b4]
        exact ins_look_self p _ _ _ _ h.inv.sorted (by omega) hq
      obtain ⟨l1, l2, e1, e2⟩ := ins_enum hn hs p x ho (x.length + 1) st.tree [] 0 x h.inv.sorted h.fact (by omega) hq (by simp) (by simp) (by simp)
      have hfresh : ∀ e ∈ enumTs [] st.tree, e.2 ≠ slot p := by
        intro e he hep
        obtain ⟨w, hw, hew⟩ := enum_ptrL st.sb _ _ e he
        rw [hew] at hep
        rw [slot_inj hep] at hw
        exact b6 hw
      rw [← b4] at e2
      have hE : ∀ e, e ∈ enumTs [] (⟨sb', root'⟩ : St).tree ↔ e = (x, slot p) ∨ e ∈ enumTs [] st.tree := by
        intro e
        rw [e2, e1]
        simp only [List.mem_append, List.mem_cons]
        constructor
        · rintro (h | h | h)
          · exact .inr (.inl h)
          · exact .inl h
          · exact .inr (.inr h)
        · rintro (h | h | h)
          · exact .inr (.inl h)
          · exact .inl h
          · exact .inr (.inr h)
      refine ⟨⟨sb', root'⟩, .slot (some (slot p)), ?_, rfl, ⟨b2, ?_, ?_, ?_, ?_, ?_, ?_⟩, b3, ?_⟩
      · rw [step, b1]; rfl
      · rw [b4]; exact ins_fact p hs _ _ _ _ h.inv.sorted h.fact (of_zero ho)
      · rw [b4]; exact ins_kok hn hs p _ _ _ _ _ h.inv.sorted h.fact (of_zero ho) h.kok (by simp)
      · intro y hy q
        rw [hE]
        by_cases e : y = x
        · subst e
          rw [hls]
          constructor
          · intro hpq; cases hpq; exact .inl rfl
          · rintro (hh | hh)
            · rw [slot_inj (congrArg Prod.snd hh)]
            · have := (h.en y hy q).2 hh
              rw [hq] at this; cases this
        · rw [hlo y hy e, h.en y hy q]
          constructor
          · exact .inr
          · rintro (hh | hh)
            · exact absurd (congrArg Prod.fst hh) e
            · exact hh
      · intro e he
        rcases (hE e).1 he with he | he
        · rw [he]; exact ho
        · exact h.keys e he
      · have hu := h.uniq
        rw [e1] at hu hfresh
        rw [e2]
        have hp := List.pairwise_append.1 hu
        refine List.pairwise_append.2 ⟨hp.1, List.pairwise_cons.2 ⟨fun b hb => ?_, hp.2.1⟩, fun a ha b hb => ?_⟩
        · exact fun e => hfresh b (by simp [hb]) e.symm
        · rcases List.mem_cons.1 hb with hb | hb
          · rw [hb]; exact hfresh a (by simp [ha])
          · exact hp.2.2 a ha b hb
      · intro y hy
        simp only [Dict.step]
        rw [if_pos (show m x = none from hdx)]
        unfold Dict.set
        by_cases e : y = x
        · rw [if_pos e, e, hls]
          simp only [Option.bind_some, dataOf, b7]
        · rw [if_neg e, hlo y hy e, h.dict y hy]
          match hqy : st.look y with
          | none => rfl
          | some q => simp only [Option.bind_some, dataOf, b8 q (look_mem_ptrs hqy)]
      · intro y hy q hyq
        have e : y ≠ x := by intro e; rw [e, hq] at hyq; cases hyq
        rw [hlo y hy e]; exact hyq

theorem good_run (hn : NoShift S) (hs : Short S) (uds : Nat) (hfit : ∀ x, S x → x.length + 2 + uds ≤ blockSize) (ops : List Op) :
    ∀ (st : St) (m : Dict), Good S st m → st.sb.uds = uds → (∀ op ∈ ops, S op.str ∧ op.fits uds) →
    ∃ st' rs, run st ops = .ok (st', rs) ∧ rs.map Out.view = (Dict.run uds m ops).2 ∧ Good S st' (Dict.run uds m ops).1 ∧ st'.sb.uds = uds ∧
      (∀ x, S x → ∀ p, st.look x = some p → st'.look x = some p) := by
  induction ops with
  | nil => intro st m h hu _; exact ⟨st, [], rfl, rfl, h, hu, fun _ _ _ h => h⟩
  | cons o os ih =>
    intro st m h hu hop
    obtain ⟨st1, r, a1, a2, a3, a4, a5⟩ := good_step hn hs uds hfit h hu o (hop o (by simp)).1 (hop o (by simp)).2
    obtain ⟨st2, rs, b1, b2, b3, b4, b5⟩ := ih st1 _ a3 a4 (fun op ho => hop op (by simp [ho]))
    refine ⟨st2, r :: rs, ?_, ?_, b3, b4, fun x hx p hp => b5 x hx p (a5 x hx p hp)⟩
    · rw [run, a1]
      simp only [Res.ok_bind]
      rw [b1]; rfl
    · rw [Dict.run, List.map_cons, a2, b2]

/-! Without conditions on the strings -/

theorem step_inv (uds : Nat) {st : St} (h : Inv st) (hu : st.sb.uds = uds) (op : Op) (h0 : 0 ∉ op.str) (hne : op.str.length + 1 + uds ≠ blockSize) (hf : op.fits uds) :
    ∃ st' r, step st op = .ok (st', r) ∧ Inv st' ∧ st'.sb.uds = uds := by
  subst hu
  have hfind : ∀ x, string_storage_find st.sb st.root x = .ok (st.sb, st.root, (st.look x).map slot) := fun x => find_inv h x
  cases op with
  | find x => exact ⟨st, _, by rw [step, hfind]; rfl, h, rfl⟩
  | get x =>
    match hq : st.look x with
    | none => exact ⟨st, _, by rw [step, hfind, hq]; rfl, h, rfl⟩
    | some q =>
      obtain ⟨d, hd⟩ := data_some h (look_mem_ptrs hq)
      refine ⟨st, .data (some d), ?_, h, rfl⟩
      rw [step, hfind, hq]
      simp only [Res.ok_bind, Option.map_some]
      rw [hd]; rfl
  | put x d =>
    match hq : st.look x with
    | none => exact ⟨st, _, by rw [step, hfind, hq]; rfl, h, rfl⟩
    | some q =>
      obtain ⟨sb', o, a1, a2, a3, a4, a5, a6, a7⟩ := put_inv h (look_mem_ptrs hq) d hf
      refine ⟨⟨sb', st.root⟩, .data (some d), ?_, a2, a3⟩
      rw [step, hfind, hq]
      simp only [Res.ok_bind, Option.map_some]
      rw [a1]; rfl
  | add x =>
    simp only [Op.str] at h0 hne
    by_cases hb : x.length + 1 + st.sb.uds > blockSize
    · refine ⟨st, .slot none, ?_, h, rfl⟩
      rw [step]; unfold string_storage_add; rw [if_pos hb]; rfl
    · have ha := add_inv h x h0 (by omega)
      match hq : st.look x with
      | some q => exact ⟨st, _, by rw [step, ha.1 q hq]; rfl, h, rfl⟩
      | none =>
        obtain ⟨sb', root', p, b1, b2, b3, _⟩ := ha.2 hq
        exact ⟨⟨sb', root'⟩, _, by rw [step, b1]; rfl, b2, b3⟩

theorem run_inv (uds : Nat) (ops : List Op) : ∀ (st : St), Inv st → st.sb.uds = uds →
    (∀ op ∈ ops, 0 ∉ op.str ∧ op.str.length + 1 + uds ≠ blockSize ∧ op.fits uds) → ∃ st' rs, run st ops = .ok (st', rs) ∧ Inv st' ∧ st'.sb.uds = uds := by
  induction ops with
  | nil => intro st h hu _; exact ⟨st, [], rfl, h, hu⟩
  | cons o os ih =>
    intro st h hu hop
    have ho := hop o (by simp)
    obtain ⟨st1, r, a1, a2, a3⟩ := step_inv uds h hu o ho.1 ho.2.1 ho.2.2
    obtain ⟨st2, rs, b1, b2, b3⟩ := ih st1 a2 a3 (fun op ho => hop op (by simp [ho]))
    refine ⟨st2, r :: rs, ?_, b2, b3⟩
    rw [run, a1]
    simp only [Res.ok_bind]
    rw [b1]; rfl

theorem enum_inv {st : St} (h : Inv st) : ∃ l, string_storage_enumerate st.sb st.root = .ok l := by
  unfold string_storage_enumerate
  rw [node_eq st.root, enumNode]
  refine enum_okL st.sb _ none (fun b e => by cases e) (fun _ n hn => ?_) h.cells
  have : absN st.sb n ∈ st.tree := by unfold St.tree; rw [absL_map]; exact List.mem_map_of_mem hn
  have := h.zero _ this
  rw [absN_eq] at this
  exact this

theorem enum_good {st : St} {m : Dict} (h : Good S st m) : string_storage_enumerate st.sb st.root = .ok (enumTs [] st.tree) := by
  unfold string_storage_enumerate
  rw [node_eq st.root, enumNode]
  exact enum_specL st.sb st.root.children [] none h.inv.cells h.kok (by simp) (by simp) (fun e => by cases e) (fun _ => rfl)

/-! The keys of the map are the added strings -/

theorem dict_step_isSome (uds : Nat) (m : Dict) (o : Op) (x : List UInt8) : ((m.step uds o).1 x).isSome = true ↔ (m x).isSome = true ∨ o = .add x := by
  cases o with
  | find y => simp [Dict.step]
  | get y => simp [Dict.step]
  | add y =>
    simp only [Dict.step, Op.add.injEq]
    by_cases h : m y = none
    · rw [if_pos h]
      unfold Dict.set
      by_cases e : x = y
      · rw [if_pos e]; simp [e]
      · rw [if_neg e]
        constructor
        · exact .inl
        · rintro (h | h)
          · exact h
          · exact absurd h.symm e
    · rw [if_neg h]
      constructor
      · exact .inl
      · rintro (h2 | h2)
        · exact h2
        · rw [← h2]; exact Option.isSome_iff_ne_none.2 h
  | put y d =>
    simp only [Dict.step]
    match h : m y with
    | none => simp
    | some o =>
      simp only []
      unfold Dict.set
      by_cases e : x = y
      · rw [if_pos e, e, h]; simp
      · rw [if_neg e]; simp

theorem dict_run_isSome (uds : Nat) (ops : List Op) (x : List UInt8) : ∀ m : Dict, ((Dict.run uds m ops).1 x).isSome = true ↔ (m x).isSome = true ∨ .add x ∈ ops := by
  induction ops with
  | nil => intro m; simp [Dict.run]
  | cons o os ih =>
    intro m
    rw [Dict.run]
    simp only []
    rw [ih, dict_step_isSome, List.mem_cons]
    constructor
    · rintro ((h | h) | h)
      · exact .inl h
      · exact .inr (.inl h.symm)
      · exact .inr (.inr h)
    · rintro (h | h | h)
      · exact .inl (.inl h)
      · exact .inl (.inr h.symm)
      · exact .inr h

end Verif.StrStore
