/-
  C151: what copying and assigning queue objects does.
-/
import Verif.QueueCopy.Lemmas

namespace Verif.QueueCopy

/-- C151, as far as it holds: in every history in which only objects that are not connected are copied or assigned, every object is used as if it were alone, and nothing leaks:
when no object is connected any more, no memory is allocated and no segment is mapped. -/
theorem C151_partial {bs room : Nat} {ops : List Op} {t : Spec.State} {ys : List Reply} (e : Spec.run bs room .init ops = some (t, ys)) :
    ∃ s, run bs room .init ops = .ok (s, ys) ∧ s.ring = t.ring ∧
      ((∀ h u, t.us h = some u → u.on = false) → (∀ p, s.blocks p = none) ∧ (∀ i, s.maps i = false)) := by
  obtain ⟨s, e1, r⟩ := run_sim ops (R.init bs) e
  have key : (∀ h u, t.us h = some u → u.on = false) → ∀ h o, s.objs h = some o → o = .new := by
    intro hn h o ho
    rcases r.cases h with ⟨e1, e2⟩ | ⟨e1, e2⟩ | ⟨o', u, p, i, e1, e2, c⟩
    · rw [ho] at e1; cases e1
    · rw [ho] at e1; cases e1; rfl
    · have := hn h u e2
      rw [c.on] at this
      cases this
  refine ⟨s, e1, r.ring, fun hn => ⟨?_, ?_⟩⟩
  · intro p
    cases ep : s.blocks p with
    | none => rfl
    | some b =>
      obtain ⟨h, o, ho, hp⟩ := r.ownp p b ep
      rw [key hn h o ho] at hp
      cases hp
  · intro i
    cases ei : s.maps i with
    | false => rfl
    | true =>
      obtain ⟨h, o, ho, hp⟩ := r.owni i ei
      rw [key hn h o ho] at hp
      cases hp

/-- What the refutations start from. -/
theorem start {bs room : Nat} {ops : List Op} {t : Spec.State} {ys : List Reply} (e : Spec.run bs room .init ops = some (t, ys)) {h g : Nat} {u : Spec.User}
    (hh : t.us h = some u) (on : u.on = true) (hg : t.us g = none) :
    ∃ s p i, run bs room .init ops = .ok (s, ys) ∧ R bs s t ∧ s.objs h = some ⟨some p, bs, u.pos, some i⟩ ∧ s.objs g = none ∧ Conn bs s ⟨some p, bs, u.pos, some i⟩ u p i ∧ g ≠ h := by
  obtain ⟨s, e1, r⟩ := run_sim ops (R.init bs) e
  rcases r.cases h with ⟨f1, f2⟩ | ⟨f1, f2⟩ | ⟨o, u', p, i, f1, f2, c⟩
  · rw [hh] at f2; cases f2
  · rw [hh] at f2; cases f2; cases on
  · rw [hh] at f2
    cases f2
    rcases r.cases g with ⟨k1, k2⟩ | ⟨k1, k2⟩ | ⟨o', u', p', i', k1, k2, -⟩
    · have eo := c.obj
      subst eo
      exact ⟨s, p, i, e1, r, f1, k1, c, by intro e; subst e; rw [k1] at f1; cases f1⟩
    · rw [hg] at k2; cases k2
    · rw [hg] at k2; cases k2

/-- C151 fails for connected objects: whatever happened before, if a connected object is copied, the original and the copy cannot both be destroyed: the memory of the box is released twice. -/
theorem C151_refuted_destroy {bs room : Nat} {ops : List Op} {t : Spec.State} {ys : List Reply} (e : Spec.run bs room .init ops = some (t, ys)) {h g : Nat} {u : Spec.User}
    (hh : t.us h = some u) (on : u.on = true) (hg : t.us g = none) :
    (∃ s, run bs room .init (ops ++ [.copy h g, .destroy h]) = .ok (s, ys ++ [.unit, .unit])) ∧
      run bs room .init (ops ++ [.copy h g, .destroy h, .destroy g]) = .ub := by
  obtain ⟨s, p, i, e1, r, eh, eg, c, ne⟩ := start e hh on hg
  have ne' : h ≠ g := fun e => ne e.symm
  constructor
  · rw [run_append, e1]
    simp [run, step, eh, eg, setObj, upd_ne _ _ ne', destroy, disconnect, deallocate, c.blk]
  · rw [run_append, e1]
    simp [run, step, eh, eg, setObj, upd_ne _ _ ne', upd_same, upd_ne _ _ ne, destroy, disconnect, deallocate, c.blk]

/-- C151 fails for connected objects: whatever happened before, once a copy of a connected object is destroyed (or disconnected), the original cannot be used: `flush` and `put` use memory
that is not there any more. -/
theorem C151_refuted_use {bs room : Nat} {ops : List Op} {t : Spec.State} {ys : List Reply} (e : Spec.run bs room .init ops = some (t, ys)) {h g : Nat} {u : Spec.User}
    (hh : t.us h = some u) (on : u.on = true) (hg : t.us g = none) :
    (∃ s, run bs room .init (ops ++ [.copy h g, .destroy g]) = .ok (s, ys ++ [.unit, .unit])) ∧
      run bs room .init (ops ++ [.copy h g, .destroy g, .flush h]) = .ub ∧
      run bs room .init (ops ++ [.copy h g, .disconnect g, .flush h]) = .ub ∧
      (∀ m, run bs room .init (ops ++ [.copy h g, .destroy g, .put h m]) = .ub) := by
  obtain ⟨s, p, i, e1, r, eh, eg, c, ne⟩ := start e hh on hg
  have ne' : h ≠ g := fun e => ne e.symm
  refine ⟨?_, ?_, ?_, ?_⟩
  · rw [run_append, e1]
    simp [run, step, eh, eg, setObj, upd_same, destroy, disconnect, deallocate, c.blk]
  · rw [run_append, e1]
    simp [run, step, eh, eg, setObj, upd_ne _ _ ne', upd_same, destroy, disconnect, deallocate, c.blk, flush, block]
  · rw [run_append, e1]
    simp [run, step, eh, eg, setObj, upd_ne _ _ ne', upd_same, disconnect, deallocate, c.blk, flush, block]
  · intro m
    rw [run_append, e1]
    simp only [Res.ok_bind, run, step, eh, eg, setObj, upd_ne _ _ ne', upd_same, destroy, disconnect, deallocate, c.blk, boxPut]
    by_cases hl : u.pos + m.length ≤ bs
    · simp [if_pos hl, block, upd_same]
    · simp [if_neg hl, block, flush, upd_same]

/-- C151 fails for connected objects: whatever happened before, if the original puts a message and then a copy made before puts one of the same length, what the original sends
is the message of the copy; its own is lost. -/
theorem C151_refuted_mix {bs room : Nat} {ops : List Op} {t : Spec.State} {ys : List Reply} (e : Spec.run bs room .init ops = some (t, ys)) {h g : Nat} {u : Spec.User}
    (hh : t.us h = some u) (on : u.on = true) (hg : t.us g = none) {a b : List UInt8} (fit : u.pos + a.length ≤ bs) (same : b.length = a.length) (hr : t.ring.length < room) :
    ∃ s, run bs room .init (ops ++ [.copy h g, .put h a, .put g b, .flush h]) = .ok (s, ys ++ [.unit, .bool true, .bool true, .unit]) ∧
      s.ring = t.ring ++ [u.buf.take u.pos ++ b ++ u.buf.drop (u.pos + b.length)] := by
  obtain ⟨s, p, i, e1, r, eh, eg, c, ne⟩ := start e hh on hg
  have ne' : h ≠ g := fun e => ne e.symm
  have fit' : u.pos + b.length ≤ bs := by omega
  have lb : u.pos ≤ u.buf.length := by have := c.len; omega
  have pp : patch (patch u.buf u.pos a) u.pos b = u.buf.take u.pos ++ b ++ u.buf.drop (u.pos + b.length) := by
    have l1 : (u.buf.take u.pos).length = u.pos := by rw [List.length_take]; omega
    simp only [patch]
    congr 1
    · congr 1
      rw [List.append_assoc, List.take_append_of_le_length (by omega), List.take_of_length_le (by omega)]
    · rw [same, List.drop_append]
      have : (u.buf.take u.pos ++ a).length = u.pos + a.length := by simp [l1]
      rw [List.drop_of_length_le (by omega), this, Nat.sub_self]
      rfl
  rw [run_append, e1]
  refine ⟨_, by simp [run, step, eh, eg, setObj, setBlock, upd_ne _ _ ne', upd_ne _ _ ne, upd_same, boxPut, if_pos fit, if_pos fit', c.blk, flush, block, c.map]; rfl, ?_⟩
  simp [hr, pp, r.ring]

/-- C151 fails for connected objects: whatever happened before, assigning to a connected object an object that is not connected leaks its memory and its mapping: no object refers to them any more. -/
theorem C151_refuted_leak {bs room : Nat} {ops : List Op} {t : Spec.State} {ys : List Reply} (e : Spec.run bs room .init ops = some (t, ys)) {h g : Nat} {u v : Spec.User}
    (hh : t.us h = some u) (off : u.on = false) (hg : t.us g = some v) (on : v.on = true) :
    ∃ s p i, run bs room .init (ops ++ [.assign h g]) = .ok (s, ys ++ [.unit]) ∧ s.blocks p = some v.buf ∧ s.maps i = true ∧
      (∀ k o, s.objs k = some o → o.ptr ≠ some p ∧ o.info ≠ some i) := by
  obtain ⟨s, e1, r⟩ := run_sim ops (R.init bs) e
  have fh : s.objs h = some .new := by
    rcases r.cases h with ⟨f1, f2⟩ | ⟨f1, f2⟩ | ⟨o, u', p, i, f1, f2, c⟩
    · rw [hh] at f2; cases f2
    · exact f1
    · rw [hh] at f2; cases f2; rw [c.on] at off; cases off
  rcases r.cases g with ⟨f1, f2⟩ | ⟨f1, f2⟩ | ⟨o, u', p, i, f1, f2, c⟩
  · rw [hg] at f2; cases f2
  · rw [hg] at f2; cases f2; cases on
  · rw [hg] at f2
    cases f2
    have eo := c.obj
    subst eo
    refine ⟨setObj s g .new, p, i, by rw [run_append, e1]; simp [run, step, fh, f1], c.blk, c.map, ?_⟩
    intro k o hk
    by_cases hkg : k = g
    · subst hkg
      simp only [setObj, upd_same, Option.some.injEq] at hk
      rw [← hk]
      exact ⟨nofun, nofun⟩
    · simp only [setObj, upd_ne _ _ hkg] at hk
      exact ⟨fun hp => hkg (r.injp k g o _ p hk f1 hp rfl), fun hi => hkg (r.inji k g o _ i hk f1 hi rfl)⟩

/-- A history that is specified: an object is copied before it is connected; both then work on their own. -/
def hist : List Op :=
  [.make 0, .copy 0 1, .connect 0, .connect 1, .put 0 [1, 2], .put 1 [3], .flush 1, .flush 0, .unflush 1, .get 1 1, .unflush 1, .get 1 2, .connect 1, .put 0 [1, 2, 3, 4, 5], .disconnect 1, .flush 1]

example : (Spec.run 4 3 .init hist).map (fun x => x.2) =
    some [.unit, .unit, .unit, .unit, .bool true, .bool true, .unit, .unit, .bool true, .data (some [3]), .bool true, .data (some [1, 2]), .threw, .bool false, .unit, .unit] := by decide +kernel

example : ((Spec.run 4 3 .init hist).bind (fun x => x.1.us 0)).map (fun u => (u.on, u.pos)) = some (true, 0) ∧
    ((Spec.run 4 3 .init hist).bind (fun x => x.1.us 1)) = some ⟨false, [], 0⟩ ∧ ((Spec.run 4 3 .init hist).map (fun x => (x.1.us 2).isSome)) = some false ∧
    ((Spec.run 4 3 .init hist).map (fun x => x.1.ring)) = some [[0, 0, 0, 0]] := by decide +kernel

end Verif.QueueCopy
