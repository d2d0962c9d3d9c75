/-
  C74: a string keeps its slot.  C75: memory.  C76: enumeration.
-/
import Verif.StrStore.Good

namespace Verif.StrStore

/-! A check of `NoShift` for finite sets, for the examples -/

def noShiftB (L : List (List UInt8)) : Bool :=
  L.all fun s => L.all fun t => (List.range s.length).all fun i => (List.range t.length).all fun j =>
    i == j || ((s.drop i).take 9).length != 9 || (s.drop i).take 9 != (t.drop j).take 9

theorem noShift_of {L : List (List UInt8)} (h : noShiftB L = true) : NoShift (· ∈ L) := by
  intro s t hs ht i j hl he
  have hi : i < s.length := by simp at hl; omega
  have hj : j < t.length := by
    have := congrArg List.length he
    rw [hl] at this
    simp at this; omega
  unfold noShiftB at h
  have := List.all_eq_true.1 h s hs
  have := List.all_eq_true.1 this t ht
  have := List.all_eq_true.1 this i (List.mem_range.2 hi)
  have := List.all_eq_true.1 this j (List.mem_range.2 hj)
  simp only [Bool.or_eq_true, beq_iff_eq, bne_iff_ne] at this
  rcases this with (h1 | h1) | h1
  · exact h1
  · exact absurd hl h1
  · exact absurd he h1

def bytes (s : String) : List UInt8 := s.toList.map (fun c => UInt8.ofNat c.toNat)

/-- Strings with long common beginnings. -/
def sample : List (List UInt8) := [bytes "http://host/a/long/path", bytes "http://host/a/long/pat", bytes "http://host/a/other", bytes "http://host/a/long/path?x=1", bytes "", bytes "z"]

theorem sample_ok : NoShift (· ∈ sample) ∧ Short (· ∈ sample) := by
  refine ⟨noShift_of (by decide +kernel), ?_⟩
  intro s hs
  have : sample.all (fun s => decide (s.length < 256) && !s.contains 0) = true := by decide +kernel
  have := List.all_eq_true.1 this s hs
  simpa using this

/-! C74 -/

/-- A set of strings whose long parts are not shifted against each other, that are shorter than 256 bytes, and fit into a block. -/
def Fine (uds : Nat) (S : List UInt8 → Prop) : Prop := NoShift S ∧ Short S ∧ ∀ x, S x → x.length + 2 + uds ≤ blockSize

/-- For such strings a storage is a map from strings to user data: a string is found if and only if it was added before,
its user data are zeros until they are written, and stay what was written last to the slot of this very string.
What is missing: other strings.  For them the claim is false, see `C74_refuted`. -/
theorem C74_map_partial (S : List UInt8 → Prop) (uds : Nat) (hS : Fine uds S) (ops : List Op) (hops : ∀ op ∈ ops, S op.str ∧ op.fits uds) :
    ∃ st outs, run (St.init uds) ops = .ok (st, outs) ∧ outs.map Out.view = (Dict.run uds (fun _ => none) ops).2 := by
  obtain ⟨st, rs, h1, h2, _⟩ := good_run hS.1 hS.2.1 uds hS.2.2 ops (St.init uds) _ (init_good uds) rfl hops
  exact ⟨st, rs, h1, h2⟩

theorem sample_fine : Fine 8 (· ∈ sample) := by
  refine ⟨sample_ok.1, sample_ok.2, fun x hx => ?_⟩
  have := (sample_ok.2 x hx).1
  simp only [blockSize]; omega

def sampleOps : List Op :=
  sample.map Op.add ++ [.put (bytes "z") [1, 2, 3], .put (bytes "http://host/a/long/path") [7], .get (bytes "z"), .get (bytes "http://host/a/long/path"),
    .get (bytes "http://host/a/long/pat")]

example : ∃ st outs, run (St.init 8) sampleOps = .ok (st, outs) ∧ outs.map Out.view = (Dict.run 8 (fun _ => none) sampleOps).2 :=
  C74_map_partial (· ∈ sample) 8 sample_fine sampleOps (by
    intro op ho
    simp only [sampleOps, List.mem_append, List.mem_map, List.mem_cons, List.not_mem_nil, or_false] at ho
    rcases ho with ⟨x, hx, rfl⟩ | rfl | rfl | rfl | rfl | rfl
    · exact ⟨hx, trivial⟩
    · exact ⟨by decide +kernel, by simp [Op.fits]⟩
    · exact ⟨by decide +kernel, by simp [Op.fits]⟩
    · exact ⟨by decide +kernel, trivial⟩
    · exact ⟨by decide +kernel, trivial⟩
    · exact ⟨by decide +kernel, trivial⟩)

/-- A string is given the same slot by all later additions and searches, whatever happens in between. -/
theorem C74_stable_partial (S : List UInt8 → Prop) (uds : Nat) (hS : Fine uds S) (ops1 ops2 : List Op) (x : List UInt8) (hx : S x)
    (h1 : ∀ op ∈ ops1, S op.str ∧ op.fits uds) (h2 : ∀ op ∈ ops2, S op.str ∧ op.fits uds) :
    ∃ st1 o1 st2 p st3 o3, run (St.init uds) ops1 = .ok (st1, o1) ∧ step st1 (.add x) = .ok (st2, .slot (some p)) ∧ run st2 ops2 = .ok (st3, o3) ∧
      step st3 (.add x) = .ok (st3, .slot (some p)) ∧ step st3 (.find x) = .ok (st3, .slot (some p)) := by
  obtain ⟨st1, o1, a1, _, a3, a4, _⟩ := good_run hS.1 hS.2.1 uds hS.2.2 ops1 (St.init uds) _ (init_good uds) rfl h1
  -- afterwards x is found
  have key : ∃ st2 m2 q, step st1 (.add x) = .ok (st2, .slot (some (slot q))) ∧ Good S st2 m2 ∧ st2.sb.uds = uds ∧ st2.look x = some q := by
    obtain ⟨st2, r, b1, b2, b3, b4, b5⟩ := good_step hS.1 hS.2.1 uds hS.2.2 a3 a4 (.add x) hx trivial
    have ha := add_inv a3.inv x (hS.2.1 x hx).2 (by rw [a4]; exact hS.2.2 x hx)
    match hq : st1.look x with
    | some q =>
      have e : step st1 (.add x) = .ok (st1, .slot (some (slot q))) := by rw [step, ha.1 q hq]; rfl
      exact ⟨st1, _, q, e, a3, a4, hq⟩
    | none =>
      obtain ⟨sb', root', p, c1, c2, c3, c4, _⟩ := ha.2 hq
      have e : step st1 (.add x) = .ok (⟨sb', root'⟩, .slot (some (slot p))) := by rw [step, c1]; rfl
      rw [e] at b1
      cases b1
      refine ⟨_, _, p, e, b3, b4, ?_⟩
      unfold St.look
      rw [c4]
      exact ins_look_self p _ _ _ _ a3.inv.sorted (by omega) hq
  obtain ⟨st2, m2, q, b1, b2, b3, b4⟩ := key
  obtain ⟨st3, o3, c1, _, c3, c4, c5⟩ := good_run hS.1 hS.2.1 uds hS.2.2 ops2 st2 _ b2 b3 h2
  have hl := c5 x hx q b4
  refine ⟨st1, o1, st2, slot q, st3, o3, a1, b1, c1, ?_, ?_⟩
  · have ha := add_inv c3.inv x (hS.2.1 x hx).2 (by rw [c4]; exact hS.2.2 x hx)
    rw [step, ha.1 q hl]; rfl
  · have := find_inv c3.inv x
    rw [step, this]
    unfold St.look at hl
    rw [hl]; rfl

example : (match run (St.init 8) (sample.map Op.add) with
    | .ok (st, outs) => match run st (sample.map Op.find) with
      | .ok (_, outs2) => outs == outs2 && outs.all (fun o => o.view == .found true)
      | .ub => false
    | .ub => false) = true := by decide +kernel

/-- The user data of different strings do not overlap, and their slots are different even if there are no user data. -/
theorem C74_disjoint_partial (S : List UInt8 → Prop) (uds : Nat) (hS : Fine uds S) (ops : List Op) (hops : ∀ op ∈ ops, S op.str ∧ op.fits uds)
    (st : St) (outs : List Out) (hrun : run (St.init uds) ops = .ok (st, outs)) (x y : List UInt8) (hx : S x) (hy : S y) (hne : x ≠ y) (p q : Ptr)
    (h1 : step st (.find x) = .ok (st, .slot (some p))) (h2 : step st (.find y) = .ok (st, .slot (some q))) :
    p ≠ q ∧ (p.1 ≠ q.1 ∨ p.2 + uds < q.2 ∨ q.2 + uds < p.2) := by
  obtain ⟨st1, o1, a1, _, a3, a4, _⟩ := good_run hS.1 hS.2.1 uds hS.2.2 ops (St.init uds) _ (init_good uds) rfl hops
  rw [hrun] at a1
  cases a1
  have slotOf : ∀ z r, step st (.find z) = .ok (st, .slot (some r)) → ∃ w, st.look z = some w ∧ r = slot w := by
    intro z r h
    rw [step, find_inv a3.inv z] at h
    have h : (st.look z).map slot = some r := by
      simp only [Res.ok_bind] at h
      injection h with h
      injection h with _ h
      injection h with h
    match hq : st.look z with
    | none => rw [hq] at h; cases h
    | some w => rw [hq] at h; cases h; exact ⟨w, rfl, rfl⟩
  obtain ⟨v, hv, rfl⟩ := slotOf x p h1
  obtain ⟨w, hw, rfl⟩ := slotOf y q h2
  have hvw : v ≠ w := by
    intro e; rw [e] at hv; exact hne (good_inj a3 hx hy hv hw)
  refine ⟨fun e => hvw (slot_inj e), ?_⟩
  have := a3.inv.sep v (look_mem_ptrs hv) w (look_mem_ptrs hw) hvw
  unfold Apart at this
  unfold slot
  rcases this with h | h | h
  · exact .inl h
  · right; left; simp only []; omega
  · right; right; simp only []; omega

example : (match run (St.init 8) (sample.map Op.add) with
    | .ok (_, outs) => outs.map (fun o => match o with | Out.slot (some p) => p.2 | _ => 0)
    | .ub => []) = [1, 34, 66, 81, 95, 105] := by decide +kernel

def a20 : List UInt8 := List.replicate 20 97
/-- Three strings, and one that is added later. -/
def bad : List (List UInt8) := [List.replicate 30 97, List.replicate 25 97 ++ bytes "bXXXXXXXXX", a20 ++ bytes "bXXXXXXXXXY"]
def worse : List UInt8 := a20 ++ bytes "bA"

/-- The whole claim is false: adding a fourth string makes the third one unfindable, and adding the third again gives another slot. -/
theorem C74_refuted :
    (match run (St.init 8) (bad.map Op.add ++ [.find (a20 ++ bytes "bXXXXXXXXXY"), .add worse, .find (a20 ++ bytes "bXXXXXXXXXY"), .add (a20 ++ bytes "bXXXXXXXXXY")]) with
      | .ok (_, outs) => outs.drop 2
      | .ub => []) =
    [.slot (some (0, 61)), .slot (some (0, 61)), .slot (some (0, 72)), .slot none, .slot (some (0, 84))] := by decide +kernel

/-! C75 -/

/-- No history of additions, searches, and accesses to user data reads or writes outside of the storage, its blocks and arrays of children, nor does an
enumeration after it, for strings of all lengths but one: the length with which string, NUL and user data fill a block exactly, see `C75_refuted`. -/
theorem C75_partial (uds : Nat) (ops : List Op) (hops : ∀ op ∈ ops, 0 ∉ op.str ∧ op.str.length + 1 + uds ≠ 4096 ∧ op.fits uds) :
    ∃ st outs l, run (St.init uds) ops = .ok (st, outs) ∧ string_storage_enumerate st.sb st.root = .ok l := by
  obtain ⟨st, rs, h1, h2, _⟩ := run_inv uds ops (St.init uds) (init_inv uds) rfl hops
  obtain ⟨l, hl⟩ := enum_inv h2
  exact ⟨st, rs, l, h1, hl⟩

example : ∃ st outs l, run (St.init 8) (bad.map Op.add ++ [.add worse, .put worse [1, 2], .add (List.replicate 5000 65), .add (List.replicate 4086 65)]) = .ok (st, outs) ∧
    string_storage_enumerate st.sb st.root = .ok l :=
  C75_partial 8 _ (by
    have : (bad.map Op.add ++ [Op.add worse, .put worse [1, 2], .add (List.replicate 5000 65), .add (List.replicate 4086 65)]).all
      (fun op => !op.str.contains 0 && decide (op.str.length + 1 + 8 ≠ 4096) && (match op with | .put _ d => decide (d.length ≤ 8) | _ => true)) = true := by decide +kernel
    intro op ho
    have := List.all_eq_true.1 this op ho
    simp only [Bool.and_eq_true, Bool.not_eq_true', decide_eq_true_eq] at this
    refine ⟨by simpa using this.1.1, this.1.2, ?_⟩
    match op, this.2 with
    | .put _ d, h => exact of_decide_eq_true (p := d.length ≤ 8) h
    | .add _, _ => trivial
    | .find _, _ => trivial
    | .get _, _ => trivial)

/-- Whatever the size of the user data, a string that just passes the check of string_storage_add is written past the end of its block. -/
theorem C75_refuted (uds : Nat) (h : uds < 4096) (x : List UInt8) (hx : x.length + 1 + uds = 4096) :
    run (St.init uds) [.add x] = .ub := by
  have hb : alloc (initSB uds) 0 x = .ub := by
    unfold alloc
    simp only [initSB]
    rw [if_pos (Or.inl trivial)]
    unfold newBlock
    simp only [List.length_nil, grow, if_true]
    rw [if_pos (by omega)]
    simp only [Res.ok_bind, List.nil_append, List.length_singleton, Nat.sub_self, List.getElem?_cons_zero]
    rw [wr_eq (by rw [List.length_replicate]; decide)]
    simp only [Res.ok_bind]
    unfold memcpy
    rw [if_neg]
    · rfl
    · rw [patch_length (by rw [List.length_replicate]; decide), List.length_replicate, List.length_append]
      simp only [blockSize, List.length_singleton]; omega
  have : internal_find_add (x.length + 1) (initSB uds) initRoot 0 x true = .ub := by
    unfold initRoot
    rw [internal_find_add]
    have e1 : bsearch (initSB uds) [] 0 x (([] : List Node).length + 1) 0 ([] : List Node).length = .ok (.miss 0) := rfl
    have e2 : commonBytes (initSB uds) [] 0 x = .ok 0 := rfl
    rw [e1]
    simp only [Res.ok_bind]
    rw [e2]
    simp only [Res.ok_bind]
    rw [if_neg (by decide), if_neg (by simp), if_pos (by simp [grow]), hb]; rfl
  rw [run, step]
  unfold string_storage_add St.init
  simp only []
  rw [if_neg (by simp [initSB, blockSize]; omega), this]; rfl

example : run (St.init 8) [.add (List.replicate 4087 65)] = .ub := C75_refuted 8 (by decide) _ (by rw [List.length_replicate])

/-! C76 -/

/-- For the strings of C74, the enumeration lists exactly the added strings, each once, with the slot that a search finds.
What is missing: other strings.  For them the claim is false, see `C76_refuted`. -/
theorem C76_partial (S : List UInt8 → Prop) (uds : Nat) (hS : Fine uds S) (ops : List Op) (hops : ∀ op ∈ ops, S op.str ∧ op.fits uds) :
    ∃ st outs l, run (St.init uds) ops = .ok (st, outs) ∧ string_storage_enumerate st.sb st.root = .ok l ∧
      (l.map Prod.fst).Nodup ∧ (∀ x, x ∈ l.map Prod.fst ↔ .add x ∈ ops) ∧
      (∀ x p, (x, p) ∈ l → step st (.find x) = .ok (st, .slot (some p))) := by
  obtain ⟨st, o1, a1, _, a3, a4, _⟩ := good_run hS.1 hS.2.1 uds hS.2.2 ops (St.init uds) _ (init_good uds) rfl hops
  -- an entry of the enumeration is found
  have found : ∀ x p, (x, p) ∈ enumTs [] st.tree → S x ∧ ∃ w, p = slot w ∧ st.look x = some w := by
    intro x p h
    have hx := a3.keys _ h
    obtain ⟨w, _, hw⟩ := enum_ptrL st.sb _ _ _ h
    refine ⟨hx, w, hw, ?_⟩
    rw [a3.en x hx w]
    have : p = slot w := hw
    rw [← this]; exact h
  refine ⟨st, o1, _, a1, enum_good a3, ?_, ?_, ?_⟩
  · have hu := a3.uniq
    have : (enumTs [] st.tree).Pairwise (fun a b => a.1 ≠ b.1) := by
      refine List.Pairwise.imp_of_mem ?_ hu
      intro a b ha hb hne he
      obtain ⟨_, w1, e1, l1⟩ := found a.1 a.2 ha
      obtain ⟨_, w2, e2, l2⟩ := found b.1 b.2 hb
      rw [he, l2] at l1
      cases l1
      exact hne (e1.trans e2.symm)
    unfold List.Nodup
    exact List.pairwise_map.2 this
  · intro x
    constructor
    · intro h
      obtain ⟨e, he, rfl⟩ := List.mem_map.1 h
      obtain ⟨hx, w, _, hl⟩ := found e.1 e.2 he
      have hd := a3.dict e.1 hx
      obtain ⟨d, hd2⟩ := data_some a3.inv (look_mem_ptrs hl)
      rw [hl] at hd
      simp only [Option.bind_some, dataOf, hd2] at hd
      have := (dict_run_isSome uds ops e.1 (fun _ => none)).1 (by rw [hd]; rfl)
      rcases this with h | h
      · cases h
      · exact h
    · intro h
      have hx := (hops _ h).1
      have hs := (dict_run_isSome uds ops x (fun _ => none)).2 (Or.inr h)
      simp only [Op.str] at hx
      rw [a3.dict x hx] at hs
      match hl : st.look x with
      | none => rw [hl] at hs; cases hs
      | some w => exact List.mem_map.2 ⟨_, (a3.en x hx w).1 hl, rfl⟩
  · intro x p h
    obtain ⟨hx, w, e, hl⟩ := found x p h
    have := find_inv a3.inv x
    rw [step, this]
    unfold St.look at hl
    rw [hl, e]; rfl

example : (match run (St.init 8) (sample.map Op.add) with
    | .ok (st, _) => match string_storage_enumerate st.sb st.root with
      | .ok l => l.map Prod.fst
      | .ub => []
    | .ub => []) = [bytes "", bytes "http://host/a/long/pat", bytes "http://host/a/long/path", bytes "http://host/a/long/path?x=1", bytes "http://host/a/other", bytes "z"] := by decide +kernel

/-- The whole claim is false: after the addition of three strings, the third one is listed with another text. -/
theorem C76_refuted :
    (match run (St.init 8) (bad.map Op.add) with
      | .ok (st, _) => match string_storage_enumerate st.sb st.root with
        | .ok l => (l.map Prod.fst).contains (a20 ++ bytes "bXXXXXXXXXY")
        | .ub => true
      | .ub => true) = false := by decide +kernel

end Verif.StrStore
