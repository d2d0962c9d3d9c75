/-
  The implementation and the specification of the queue go together.
-/
import Verif.QueueApi.Spec

set_option linter.unusedSimpArgs false
set_option linter.unusedVariables false

namespace Verif.QueueApi
open Spec (Queue User State)

@[simp] theorem set_same {α : Type} (f : Nat → α) (i : Nat) (x : α) : set f i x i = x := by simp [set]
theorem set_other {α : Type} (f : Nat → α) (i j : Nat) (x : α) (h : j ≠ i) : set f i x j = f j := by simp [set, h]
@[simp] theorem set_set {α : Type} (f : Nat → α) (i : Nat) (x y : α) : set (set f i x) i y = set f i y := by
  funext j
  simp only [set]
  split <;> rfl

/-! ### Boxes in the memory of a segment -/

def slot (m : List UInt8) (bs j : Nat) : List UInt8 := (m.drop (j * bs)).take bs

theorem patch_get (b : Buf) (o : Nat) (e : List UInt8) (h : o + e.length ≤ b.length) (k : Nat) :
    (patch b o e)[k]? = if o ≤ k ∧ k < o + e.length then e[k - o]? else b[k]? := by
  have ho : (b.take o).length = o := by simp; omega
  unfold patch
  by_cases h1 : k < o
  · rw [if_neg (by omega), List.append_assoc, List.getElem?_append_left (by omega), List.getElem?_take_of_lt h1]
  · by_cases h2 : k < o + e.length
    · rw [if_pos (by omega), List.append_assoc, List.getElem?_append_right (by omega), ho, List.getElem?_append_left (by omega)]
    · rw [if_neg (by omega), List.getElem?_append_right (by simp; omega), List.getElem?_drop]
      congr 1
      simp
      omega

theorem slot_get (m : List UInt8) (bs j k : Nat) : (slot m bs j)[k]? = if k < bs then m[j * bs + k]? else none := by
  unfold slot
  by_cases h : k < bs
  · rw [if_pos h, List.getElem?_take_of_lt h, List.getElem?_drop]
  · rw [if_neg h, List.getElem?_take_eq_none (by omega)]

theorem slot_length (m : List UInt8) (bs j : Nat) (h : j * bs + bs ≤ m.length) : (slot m bs j).length = bs := by
  unfold slot
  simp
  omega

theorem slot_patch (m : List UInt8) (bs j : Nat) (b : List UInt8) (hb : b.length = bs) (h : j * bs + bs ≤ m.length) :
    slot (patch m (j * bs) b) bs j = b := by
  apply List.ext_getElem?
  intro k
  rw [slot_get, patch_get _ _ _ (by omega)]
  by_cases hk : k < bs
  · rw [if_pos hk, if_pos (by omega)]
    congr 1
    omega
  · rw [if_neg hk, List.getElem?_eq_none (by omega)]

theorem mul_gap (bs i j : Nat) (h : i < j) : i * bs + bs ≤ j * bs := by
  have := Nat.mul_le_mul_right bs h
  rwa [Nat.succ_mul] at this

theorem slot_patch_other (m : List UInt8) (bs i j : Nat) (b : List UInt8) (hb : b.length = bs) (h : j * bs + bs ≤ m.length) (hij : i ≠ j) :
    slot (patch m (j * bs) b) bs i = slot m bs i := by
  apply List.ext_getElem?
  intro k
  rw [slot_get, slot_get, patch_get _ _ _ (by omega)]
  by_cases hk : k < bs
  · rw [if_pos hk, if_pos hk, if_neg]
    rcases Nat.lt_or_gt_of_ne hij with hlt | hgt
    · have := mul_gap bs i j hlt; omega
    · have := mul_gap bs j i hgt; omega
  · rw [if_neg hk, if_neg hk]

/-! ### The relation -/

structure SegRel (seg : Seg) (q : Queue) : Prop where
  fit : Spec.Fit q.bs q.max = true
  bytes : seg.bytes = q.max * q.bs + 64
  size : seg.info.size = q.max
  bs : seg.info.box_size = q.bs
  regs : seg.info.regs.length = 12
  reg : ∀ i, i < 12 → seg.info.regs.getD i 0 = q.regs i
  mem : seg.mem.length = q.max * q.bs
  start : seg.info.start < q.max
  room : q.items.length + 1 ≤ q.max
  fin : seg.info.fin = (seg.info.start + q.items.length) % q.max
  item : ∀ i, (hi : i < q.items.length) → slot seg.mem q.bs ((seg.info.start + i) % q.max) = q.items[i]

def QRel : Option Seg → Option Sem → Option Queue → Prop
  | none, none, none => True
  | some seg, some sem, some q => SegRel seg q ∧ sem = ⟨1, q.items.length⟩
  | _, _, _ => False

structure HRel (H : Handle) (u : User) (qs : Nat → Option Queue) : Prop where
  info : H.info = u.key
  boxes : H.boxes = u.key.isSome
  sem : H.sem = u.key
  buf : H.buf = u.buf
  pos : H.pos = u.pos
  none : u.key = none → u.buf = [] ∧ u.pos = 0
  some : ∀ k, u.key = some k → ∃ q, qs k = some q ∧ u.buf.length = q.bs

structure Rel (w : World) (s : State) : Prop where
  q : ∀ k, QRel (w.segs k) (w.sems k) (s.qs k)
  h : ∀ h, HRel (w.hs h) (s.us h) s.qs

theorem Rel.user {w : World} {s : State} (R : Rel w s) (w' : World) (s' : State) (h : Nat) (h1 : w'.segs = w.segs) (h2 : w'.sems = w.sems) (h3 : s'.qs = s.qs)
    (h4 : ∀ j, j ≠ h → w'.hs j = w.hs j ∧ s'.us j = s.us j) (h5 : HRel (w'.hs h) (s'.us h) s.qs) : Rel w' s' := by
  refine ⟨fun k => by rw [h1, h2, h3]; exact R.q k, fun j => ?_⟩
  rw [h3]
  by_cases hj : j = h
  · subst hj; exact h5
  · obtain ⟨a, b⟩ := h4 j hj
    rw [a, b]
    exact R.h j

theorem Rel.both {w : World} {s : State} (R : Rel w s) (w' : World) (s' : State) (k h : Nat)
    (h1 : ∀ j, j ≠ k → w'.segs j = w.segs j ∧ w'.sems j = w.sems j ∧ s'.qs j = s.qs j)
    (h2 : QRel (w'.segs k) (w'.sems k) (s'.qs k))
    (h3 : ∀ q, s.qs k = some q → ∃ q', s'.qs k = some q' ∧ q'.bs = q.bs)
    (h4 : ∀ j, j ≠ h → w'.hs j = w.hs j ∧ s'.us j = s.us j) (h5 : HRel (w'.hs h) (s'.us h) s'.qs) : Rel w' s' := by
  refine ⟨fun j => ?_, fun j => ?_⟩
  · by_cases hj : j = k
    · subst hj; exact h2
    · obtain ⟨a, b, c⟩ := h1 j hj
      rw [a, b, c]
      exact R.q j
  · by_cases hj : j = h
    · subst hj; exact h5
    · obtain ⟨a, b⟩ := h4 j hj
      rw [a, b]
      have H := R.h j
      refine ⟨H.info, H.boxes, H.sem, H.buf, H.pos, H.none, fun k' hk' => ?_⟩
      obtain ⟨q, hq, hl⟩ := H.some k' hk'
      by_cases hkk : k' = k
      · subst hkk
        obtain ⟨q', hq', he⟩ := h3 q hq
        exact ⟨q', hq', by omega⟩
      · exact ⟨q, by rw [(h1 k' hkk).2.2]; exact hq, hl⟩

/-- What a connected handle finds. -/
theorem Rel.conn {w : World} {s : State} (R : Rel w s) {h k : Nat} (hk : (s.us h).key = some k) :
    ∃ seg q, w.segs k = some seg ∧ w.sems k = some ⟨1, q.items.length⟩ ∧ s.qs k = some q ∧ SegRel seg q ∧ (s.us h).buf.length = q.bs ∧
      (w.hs h).info = some k ∧ (w.hs h).boxes = true ∧ (w.hs h).sem = some k := by
  have H := R.h h
  obtain ⟨q, hq, hl⟩ := H.some k hk
  have Q := R.q k
  rw [hq] at Q
  cases h1 : w.segs k with
  | none => rw [h1] at Q; cases h2 : w.sems k <;> rw [h2] at Q <;> exact Q.elim
  | some seg =>
    cases h2 : w.sems k with
    | none => rw [h1, h2] at Q; exact Q.elim
    | some sem =>
      rw [h1, h2] at Q
      obtain ⟨Q1, Q2⟩ := Q
      subst Q2
      exact ⟨seg, q, rfl, rfl, hq, Q1, hl, H.info.trans hk, by rw [H.boxes, hk]; rfl, H.sem.trans hk⟩

theorem fit_iff (bs max : Nat) : Spec.Fit bs max = true ↔ 1 ≤ max ∧ max ≤ 32768 ∧ max * bs < 2 ^ 32 ∧ bs < 2 ^ 32 := by simp [Spec.Fit]

/-! ### The ring -/

theorem inBox (max bs j : Nat) (h : j < max) : j * bs + bs ≤ max * bs := mul_gap bs j max h

theorem mod_add_ne (max a i j : Nat) (hi : i < max) (hj : j < max) (hij : i ≠ j) : (a + i) % max ≠ (a + j) % max := by
  intro h
  have h1 := Nat.div_add_mod (a + i) max
  have h2 := Nat.div_add_mod (a + j) max
  have hlt : ∀ x y, x ≤ y → y < max → (a + x) % max = (a + y) % max → x = y := by
    intro x y hxy hy he
    have e : (a + y) % max = ((a + x) % max + (y - x)) % max := by
      rw [Nat.mod_add_mod]
      congr 1
      omega
    rw [← he] at e
    have hm : (a + x) % max < max := Nat.mod_lt _ (by omega)
    generalize (a + x) % max = r at *
    by_cases hq : r + (y - x) < max
    · rw [Nat.mod_eq_of_lt hq] at e
      omega
    · rw [Nat.mod_eq_sub_mod (by omega), Nat.mod_eq_of_lt (by omega)] at e
      omega
  rcases Nat.le_total i j with hle | hle
  · exact hij (hlt i j hle hj h)
  · exact hij (hlt j i hle hi h.symm).symm

/-- The test for room. -/
theorem room_iff {seg : Seg} {q : Queue} (S : SegRel seg q) : ((seg.info.fin + 1) % 2 ^ 32) % seg.info.size ≠ seg.info.start ↔ q.items.length + 1 < q.max := by
  obtain ⟨f1, f2, f3, f4⟩ := (fit_iff _ _).mp S.fit
  have hfl : seg.info.fin < q.max := by rw [S.fin]; exact Nat.mod_lt _ (by omega)
  have hs := S.start
  rw [Nat.mod_eq_of_lt (show seg.info.fin + 1 < 2 ^ 32 by omega), S.size, S.fin, Nat.mod_add_mod]
  have hst : (seg.info.start + 0) % q.max = seg.info.start := by rw [Nat.add_zero, Nat.mod_eq_of_lt hs]
  constructor
  · intro h
    have hr := S.room
    by_cases he : q.items.length + 1 = q.max
    · exfalso
      apply h
      rw [Nat.add_assoc, he, Nat.add_mod_right, Nat.mod_eq_of_lt hs]
    · omega
  · intro h he
    rw [Nat.add_assoc] at he
    exact mod_add_ne q.max seg.info.start (q.items.length + 1) 0 h (by omega) (by omega) (he.trans hst.symm)

theorem flushSeg_spec {seg : Seg} {q : Queue} (S : SegRel seg q) (b : List UInt8) (hb : b.length = q.bs) :
    (q.items.length + 1 < q.max ∧ ∃ seg', flushSeg seg b = .ok (some seg') ∧ SegRel seg' { q with items := q.items ++ [b] } ∧ seg'.nattch = seg.nattch) ∨
    (¬ q.items.length + 1 < q.max ∧ flushSeg seg b = .ok none) := by
  obtain ⟨f1, f2, f3, f4⟩ := (fit_iff _ _).mp S.fit
  have hfl : seg.info.fin < q.max := by rw [S.fin]; exact Nat.mod_lt _ (by omega)
  have hsz := S.size
  have hbs := S.bs
  have hz : ¬ seg.info.size = 0 := by omega
  have hin := inBox q.max q.bs _ hfl
  have hoff : (seg.info.fin * seg.info.box_size) % 2 ^ 32 = seg.info.fin * q.bs := by
    rw [hbs]
    exact Nat.mod_eq_of_lt (by omega)
  by_cases hr : q.items.length + 1 < q.max
  · refine .inl ⟨hr, ?_⟩
    have hc := (room_iff S).mpr hr
    refine ⟨{ seg with mem := patch seg.mem ((seg.info.fin * seg.info.box_size) % 2 ^ 32) b, info := { seg.info with fin := ((seg.info.fin + 1) % 2 ^ 32) % seg.info.size } },
      by simp only [flushSeg]; rw [if_neg hz, if_pos hc, if_pos (by rw [hoff, hb, S.mem]; exact hin)], ?_, rfl⟩
    rw [hoff]
    have hfn : ((seg.info.fin + 1) % 2 ^ 32) % seg.info.size = (seg.info.start + (q.items.length + 1)) % q.max := by
      rw [Nat.mod_eq_of_lt (show seg.info.fin + 1 < 2 ^ 32 by omega), hsz, S.fin, Nat.mod_add_mod, Nat.add_assoc]
    have hlen : (q.items ++ [b]).length = q.items.length + 1 := by simp
    refine ⟨S.fit, S.bytes, S.size, S.bs, S.regs, S.reg, ?_, S.start, ?_, ?_, ?_⟩
    · simp only
      rw [patch_length (by rw [hb, S.mem]; exact hin)]
      exact S.mem
    · simp only [hlen]; omega
    · simp only [hlen]; exact hfn
    · intro i hi
      simp only [hlen] at hi ⊢
      by_cases hil : i = q.items.length
      · subst hil
        have := S.fin
        rw [← this, slot_patch _ _ _ _ hb (by rw [S.mem]; exact hin)]
        simp
      · have hil' : i < q.items.length := by omega
        rw [slot_patch_other _ _ _ _ _ hb (by rw [S.mem]; exact hin), S.item i hil']
        · rw [List.getElem_append_left hil']
        · rw [S.fin]
          exact mod_add_ne _ _ _ _ (by omega) (by omega) hil
  · refine .inr ⟨hr, ?_⟩
    have hc : ¬ _ := fun h => hr ((room_iff S).mp h)
    simp only [flushSeg]
    rw [if_neg hz, if_neg hc]

theorem unflushSeg_spec {seg : Seg} {q : Queue} (S : SegRel seg q) (b : List UInt8) (rest : List (List UInt8)) (hi : q.items = b :: rest) :
    ∃ seg', unflushSeg seg q.bs = .ok (b, seg') ∧ SegRel seg' { q with items := rest } ∧ seg'.nattch = seg.nattch ∧ b.length = q.bs := by
  obtain ⟨f1, f2, f3, f4⟩ := (fit_iff _ _).mp S.fit
  have hs := S.start
  have hin := inBox q.max q.bs _ hs
  have hoff : (seg.info.start * seg.info.box_size) % 2 ^ 32 = seg.info.start * q.bs := by
    rw [S.bs]
    exact Nat.mod_eq_of_lt (by omega)
  have hl : q.items.length = rest.length + 1 := by rw [hi]; rfl
  have hroom := S.room
  have hsl : slot seg.mem q.bs seg.info.start = b := by
    have := S.item 0 (by omega)
    rw [Nat.add_zero, Nat.mod_eq_of_lt hs] at this
    rw [this]
    simp only [hi, List.getElem_cons_zero]
  refine ⟨{ seg with mem := patch seg.mem (seg.info.start * q.bs) (List.replicate seg.info.box_size 0), info := { seg.info with start := ((seg.info.start + 1) % 2 ^ 32) % seg.info.size } },
    ?_, ?_, rfl, ?_⟩
  · simp only [unflushSeg]
    rw [hoff, if_pos ⟨by rw [S.mem]; exact hin, by rw [S.mem, S.bs]; exact hin, by rw [S.size]; omega⟩]
    congr 1
    exact Prod.ext hsl rfl
  · have hst : ((seg.info.start + 1) % 2 ^ 32) % seg.info.size = (seg.info.start + 1) % q.max := by
      rw [Nat.mod_eq_of_lt (show seg.info.start + 1 < 2 ^ 32 by omega), S.size]
    refine ⟨S.fit, S.bytes, S.size, S.bs, S.regs, S.reg, ?_, ?_, by simp only; omega, ?_, ?_⟩
    · simp only
      rw [patch_length (by rw [List.length_replicate, S.mem, S.bs]; exact hin)]
      exact S.mem
    · simp only [hst]
      exact Nat.mod_lt _ (by omega)
    · simp only [hst]
      rw [S.fin, Nat.mod_add_mod, hl]
      congr 1
      omega
    · intro i hi2
      simp only [hst] at hi2 ⊢
      rw [Nat.mod_add_mod, Nat.add_assoc, Nat.add_comm 1 i, S.bs, slot_patch_other _ _ _ _ _ (by simp) (by rw [S.mem]; exact hin), S.item (i + 1) (by omega)]
      · simp only [hi, List.getElem_cons_succ]
      · have : seg.info.start = (seg.info.start + 0) % q.max := by rw [Nat.add_zero, Nat.mod_eq_of_lt hs]
        intro he
        exact mod_add_ne q.max seg.info.start (i + 1) 0 (by omega) (by omega) (by omega) (he.trans this)
  · rw [← hsl]
    exact slot_length _ _ _ (by rw [S.mem]; exact hin)

theorem fresh_rel (bs max : Nat) (h : Spec.Fit bs max = true) (n : Nat) : SegRel { freshSeg bs max with nattch := n } ⟨bs, max, [], fun _ => 0⟩ := by
  obtain ⟨f1, f2, f3, f4⟩ := (fit_iff _ _).mp h
  have hsz : segSize bs max = max * bs + 64 := by unfold segSize; rw [Nat.mod_eq_of_lt f3]
  refine ⟨h, hsz, rfl, rfl, by simp [freshSeg], ?_, ?_, by simp only [freshSeg]; omega, by simp; omega, ?_, by simp⟩
  · intro i hi
    simp only [freshSeg]
    rw [List.getD_eq_getElem?_getD]
    by_cases h12 : i < 12
    · rw [List.getElem?_replicate, if_pos h12]; rfl
    · omega
  · simp only [freshSeg, List.length_replicate, hsz]
    omega
  · simp only [freshSeg, List.length_nil, Nat.add_zero]
    rw [Nat.zero_mod]

/-! ### Calls -/

theorem flush_sim {w : World} {s : State} (R : Rel w s) (h : Nat) : ∃ w', flushCall w h = .ok (some w') ∧ Rel w' (Spec.flush s h) := by
  have H := R.h h
  cases hk : (s.us h).key with
  | none =>
    have hb : (w.hs h).boxes = false := by rw [H.boxes, hk]; rfl
    obtain ⟨hbuf, hpos⟩ := H.none hk
    refine ⟨w.setH h (clearBox (w.hs h)), by simp [flushCall, hb], ?_⟩
    refine R.user _ _ h rfl rfl (by simp [Spec.flush, hk]) (fun j hj => ⟨set_other _ _ _ _ hj, ?_⟩) ?_
    · simp only [Spec.flush, hk]; exact set_other _ _ _ _ hj
    · simp only [Spec.flush, hk, World.setH, set_same]
      refine ⟨H.info.trans hk, by simp [clearBox, hb], H.sem.trans hk, ?_, rfl, ?_, by simp⟩
      · simp [clearBox, H.buf, Spec.zeros]
      · intro _; simp [hbuf, Spec.zeros]
  | some k =>
    obtain ⟨seg, q, e1, e2, e3, S, hl, i1, i2, i3⟩ := R.conn hk
    have hbl : (w.hs h).buf.length = q.bs := by rw [H.buf, hl]
    have hlock : lock_queue w (w.hs h) = some (w.setSem k ⟨0, q.items.length⟩) := by simp [lock_queue, i3, e2]
    have hin : (w.setSem k ⟨0, q.items.length⟩).segs k = some seg := e1
    have hHR : HRel (clearBox (w.hs h)) ⟨(s.us h).key, Spec.zeros (s.us h).buf.length, 0⟩ (set s.qs k (some (Spec.push q (s.us h).buf))) := by
      refine ⟨H.info, H.boxes, H.sem, by simp [clearBox, H.buf, Spec.zeros], rfl, by simp [hk], ?_⟩
      intro k' hk'
      simp only [hk, Option.some.injEq] at hk'
      subst hk'
      refine ⟨_, set_same _ _ _, ?_⟩
      simp only [Spec.zeros, List.length_replicate, hl]
      unfold Spec.push
      split <;> rfl
    have hsp : Spec.flush s h = ⟨set s.qs k (some (Spec.push q (s.us h).buf)), set s.us h ⟨(s.us h).key, Spec.zeros (s.us h).buf.length, 0⟩⟩ := by
      simp [Spec.flush, hk, e3]
    obtain ⟨f1, f2, f3, f4⟩ := (fit_iff _ _).mp S.fit
    have hroom := S.room
    rcases flushSeg_spec S (w.hs h).buf hbl with ⟨hr, seg', hf, S', -⟩ | ⟨hr, hf⟩
    · have hfb : flushBoxes w (w.hs h) = .ok (some ⟨set w.segs k (some seg'), set w.sems k (some ⟨1, q.items.length + 1⟩), w.hs⟩) := by
        simp only [flushBoxes, hlock, i1, hin, hf, Res.ok_bind]
        simp [countUp, unlock_queue, i3, World.setSeg, World.setSem, SEMVMX]
        rw [if_pos (by omega)]
        simp
      refine ⟨World.setH ⟨set w.segs k (some seg'), set w.sems k (some ⟨1, q.items.length + 1⟩), w.hs⟩ h (clearBox (w.hs h)), by simp only [flushCall, i2, if_true, hfb, Res.ok_bind], ?_⟩
      rw [hsp]
      refine R.both _ _ k h (fun j hj => ?_) ?_ ?_ (fun j hj => ?_) ?_
      · simp [World.setH, set_other _ _ _ _ hj]
      · simp only [World.setH, set_same, QRel]
        have hp : Spec.push q (s.us h).buf = { q with items := q.items ++ [(w.hs h).buf] } := by
          unfold Spec.push; rw [if_pos hr, H.buf]
        rw [hp]
        exact ⟨S', by simp⟩
      · intro q' hq'
        rw [e3] at hq'
        cases hq'
        refine ⟨_, set_same _ _ _, ?_⟩
        unfold Spec.push; split <;> rfl
      · simp [World.setH, set_other _ _ _ _ hj]
      · simp only [World.setH, set_same]
        exact hHR
    · have hfb : flushBoxes w (w.hs h) = .ok (some ⟨w.segs, set w.sems k (some ⟨1, q.items.length⟩), w.hs⟩) := by
        simp only [flushBoxes, hlock, i1, hin, hf, Res.ok_bind]
        simp [unlock_queue, i3, World.setSeg, World.setSem]
      refine ⟨World.setH ⟨w.segs, set w.sems k (some ⟨1, q.items.length⟩), w.hs⟩ h (clearBox (w.hs h)), by simp only [flushCall, i2, if_true, hfb, Res.ok_bind], ?_⟩
      rw [hsp]
      have hp : Spec.push q (s.us h).buf = q := by unfold Spec.push; rw [if_neg hr]
      refine R.both _ _ k h (fun j hj => ?_) ?_ ?_ (fun j hj => ?_) ?_
      · simp [World.setH, set_other _ _ _ _ hj]
      · simp only [World.setH, set_same, QRel, hp, e1]
        exact ⟨S, trivial⟩
      · intro q' hq'
        rw [e3] at hq'
        cases hq'
        exact ⟨_, set_same _ _ _, by rw [hp]⟩
      · simp [World.setH, set_other _ _ _ _ hj]
      · simp only [World.setH, set_same]
        exact hHR

theorem put_sim {w : World} {s : State} (R : Rel w s) (h : Nat) (m : List UInt8) :
    (∀ s', Spec.tryPut s h m = some s' → ∃ H, boxPut (w.hs h) m = some H ∧ Rel (w.setH h H) s') ∧ (Spec.tryPut s h m = none → boxPut (w.hs h) m = none) := by
  have H := R.h h
  constructor
  · intro s' hs'
    simp only [Spec.tryPut] at hs'
    split at hs'
    · rename_i hc
      cases hs'
      refine ⟨_, by simp only [boxPut]; rw [if_pos (by rw [H.pos, H.buf]; exact hc)], ?_⟩
      refine R.user _ _ h rfl rfl rfl (fun j hj => ⟨set_other _ _ _ _ hj, set_other _ _ _ _ hj⟩) ?_
      simp only [World.setH, set_same]
      refine ⟨H.info, H.boxes, H.sem, by simp [patch, Spec.write, H.buf, H.pos], by simp [H.pos], ?_, ?_⟩
      · intro hk
        obtain ⟨a, b⟩ := H.none hk
        simp only [a, b, List.length_nil, Nat.zero_add] at hc ⊢
        have : m = [] := List.eq_nil_of_length_eq_zero (by omega)
        subst this
        simp [Spec.write]
      · intro k hk
        obtain ⟨q, hq, hl⟩ := H.some k hk
        refine ⟨q, hq, ?_⟩
        simp only [Spec.write, List.length_append, List.length_take, List.length_drop]
        omega
    · cases hs'
  · intro hs'
    simp only [Spec.tryPut] at hs'
    split at hs'
    · cases hs'
    · rename_i hc
      simp only [boxPut]
      rw [if_neg (by rw [H.pos, H.buf]; exact hc)]

theorem connect_ok {w : World} {s : State} (R : Rel w s) {h key bs max : Nat} {env : Env} (hk : (s.us h).key = none) (he : env = ⟨true, true, true, true⟩)
    (q : Queue) (hq : s.qs key = some q ∧ bs = q.bs ∧ max = q.max ∨ s.qs key = none ∧ Spec.Fit bs max = true ∧ q = ⟨bs, max, [], fun _ => 0⟩) :
    ∃ w', connect w h key bs max env = .ok (w', .unit) ∧ Rel w' ⟨set s.qs key (some q), set s.us h ⟨some key, Spec.zeros bs, 0⟩⟩ := by
  subst he
  have H := R.h h
  have hsem : (w.hs h).sem = none := H.sem.trans hk
  have hbox : (w.hs h).boxes = false := by rw [H.boxes, hk]; rfl
  have Q := R.q key
  have done : ∀ (seg : Seg) (n : Nat), SegRel seg q → q.items.length = n →
      Rel (World.setH ⟨set w.segs key (some seg), set w.sems key (some ⟨1, n⟩), w.hs⟩ h ⟨some key, true, some key, bs, max, List.replicate bs 0, 0⟩)
        ⟨set s.qs key (some q), set s.us h ⟨some key, Spec.zeros bs, 0⟩⟩ := by
    intro seg n S hn
    have hbs : q.bs = bs := by rcases hq with ⟨-, rfl, -⟩ | ⟨-, -, rfl⟩ <;> rfl
    refine R.both _ _ key h (fun j hj => ?_) ?_ ?_ (fun j hj => ?_) ?_
    · simp [World.setH, set_other _ _ _ _ hj]
    · simp only [World.setH, set_same, QRel, hn]
      exact ⟨S, trivial⟩
    · intro q' hq'
      refine ⟨q, set_same _ _ _, ?_⟩
      rcases hq with ⟨a, -, -⟩ | ⟨a, -, -⟩
      · rw [a] at hq'; cases hq'; rfl
      · rw [a] at hq'; cases hq'
    · simp [World.setH, set_other _ _ _ _ hj]
    · simp only [World.setH, set_same]
      refine ⟨rfl, rfl, rfl, rfl, rfl, by simp, ?_⟩
      intro k hk
      cases hk
      exact ⟨q, set_same _ _ _, by simp [Spec.zeros, hbs]⟩
  rcases hq with ⟨hq, rfl, rfl⟩ | ⟨hq, hfit, rfl⟩
  · rw [hq] at Q
    cases h1 : w.segs key with
    | none => rw [h1] at Q; cases h2 : w.sems key <;> rw [h2] at Q <;> exact Q.elim
    | some seg =>
      cases h2 : w.sems key with
      | none => rw [h1, h2] at Q; exact Q.elim
      | some sem =>
        rw [h1, h2] at Q
        obtain ⟨S, rfl⟩ := Q
        obtain ⟨f1, f2, f3, f4⟩ := (fit_iff _ _).mp S.fit
        refine ⟨_, ?_, done { seg with nattch := seg.nattch + 1 } _ ⟨S.fit, S.bytes, S.size, S.bs, S.regs, S.reg, S.mem, S.start, S.room, S.fin, S.item⟩ rfl⟩
        have hsz : segSize q.bs q.max ≤ seg.bytes := by rw [S.bytes]; unfold segSize; rw [Nat.mod_eq_of_lt f3]; exact Nat.le_refl _
        simp [connect, connect_sem, hsem, h2, lock_queue, connect_shm, hbox, h1, World.setSem, hsz, attach, S.bs, S.size, World.setSeg, unlock_queue, World.setH]
  · rw [hq] at Q
    cases h1 : w.segs key with
    | some seg => rw [h1] at Q; cases h2 : w.sems key <;> rw [h2] at Q <;> exact Q.elim
    | none =>
      cases h2 : w.sems key with
      | some sem => rw [h1, h2] at Q; exact Q.elim
      | none =>
        refine ⟨_, ?_, done { freshSeg bs max with nattch := 1 } 0 (fresh_rel bs max hfit 1) rfl⟩
        simp [connect, connect_sem, hsem, h2, lock_queue, connect_shm, hbox, h1, World.setSem, attach, World.setSeg, unlock_queue, World.setH, freshSeg]

theorem step_sim {w : World} {s s' : State} {r : Reply} (R : Rel w s) (op : Op) (hs : Spec.step s op = some (s', r)) : ∃ w', step w op = .ok (w', r) ∧ Rel w' s' := by
  cases op with
  | connect h key bs max env =>
    have H := R.h h
    simp only [Spec.step] at hs
    cases hk : (s.us h).key with
    | some k =>
      rw [hk] at hs
      cases hs
      obtain ⟨seg, q, e1, e2, e3, S, hl, i1, i2, i3⟩ := R.conn hk
      refine ⟨w.setH h { w.hs h with bs := bs, max := max }, by simp [step, connect, connect_sem, i3], ?_⟩
      refine R.user _ _ h rfl rfl rfl (fun j hj => ⟨set_other _ _ _ _ hj, rfl⟩) ?_
      simp only [World.setH, set_same]
      exact ⟨H.info, H.boxes, H.sem, H.buf, H.pos, H.none, H.some⟩
    | none =>
      rw [hk] at hs
      simp only at hs
      have hsem : (w.hs h).sem = none := H.sem.trans hk
      split at hs
      · rename_i hf
        cases hs
        refine ⟨w.setH h { w.hs h with bs := bs, max := max }, by simp [step, connect, connect_sem, hsem, hf], ?_⟩
        refine R.user _ _ h rfl rfl rfl (fun j hj => ⟨set_other _ _ _ _ hj, rfl⟩) ?_
        simp only [World.setH, set_same]
        exact ⟨H.info, H.boxes, H.sem, H.buf, H.pos, H.none, H.some⟩
      · rename_i hf
        split at hs
        · rename_i he
          have henv : env = ⟨true, true, true, true⟩ := by
            obtain ⟨a, b, c, d⟩ := env
            simp at hf he
            simp [hf, he]
          cases hq : s.qs key with
          | none =>
            rw [hq] at hs
            simp only at hs
            split at hs
            · rename_i hfit
              cases hs
              exact connect_ok R hk henv _ (.inr ⟨hq, hfit, rfl⟩)
            · cases hs
          | some q =>
            rw [hq] at hs
            simp only at hs
            split at hs
            · rename_i hp
              cases hs
              exact connect_ok R hk henv _ (.inl ⟨hq, hp.1, hp.2⟩)
            · cases hs
        · cases hs
  | disconnect h =>
    have H := R.h h
    simp only [Spec.step, Option.some.injEq, Prod.mk.injEq] at hs
    obtain ⟨rfl, rfl⟩ := hs
    cases hk : (s.us h).key with
    | none =>
      refine ⟨w, by simp [step, disconnect, H.info, hk], ?_⟩
      refine R.user _ _ h rfl rfl rfl (fun j hj => ⟨rfl, set_other _ _ _ _ hj⟩) ?_
      obtain ⟨a, b⟩ := H.none hk
      simp only [set_same]
      exact ⟨H.info.trans hk, by simp [H.boxes, hk], H.sem.trans hk, H.buf.trans a, H.pos.trans b, by simp, by simp⟩
    | some k =>
      obtain ⟨seg, q, e1, e2, e3, S, hl, i1, i2, i3⟩ := R.conn hk
      refine ⟨(w.setSeg k { seg with nattch := seg.nattch - 1 }).setH h .new, by simp only [step, disconnect, i1, e1], ?_⟩
      refine R.both _ _ k h (fun j hj => ?_) ?_ ?_ (fun j hj => ?_) ?_
      · simp [World.setH, World.setSeg, set_other _ _ _ _ hj]
      · simp only [World.setH, World.setSeg, set_same, e2, e3, QRel]
        exact ⟨⟨S.fit, S.bytes, S.size, S.bs, S.regs, S.reg, S.mem, S.start, S.room, S.fin, S.item⟩, trivial⟩
      · intro q' hq'; exact ⟨q', hq', rfl⟩
      · simp [World.setH, World.setSeg, set_other _ _ _ _ hj]
      · simp only [World.setH, World.setSeg, set_same]
        exact ⟨rfl, rfl, rfl, rfl, rfl, by simp, by simp⟩
  | flush h =>
    simp only [Spec.step, Option.some.injEq, Prod.mk.injEq] at hs
    obtain ⟨rfl, rfl⟩ := hs
    obtain ⟨w', h1, h2⟩ := flush_sim R h
    exact ⟨w', by simp only [step, flush, h1, Res.ok_bind], h2⟩
  | unflush h =>
    have H := R.h h
    simp only [Spec.step] at hs
    cases hk : (s.us h).key with
    | none =>
      rw [hk] at hs
      cases hs
      have hb : (w.hs h).boxes = false := by rw [H.boxes, hk]; rfl
      exact ⟨w, by simp [step, unflush, hb], R⟩
    | some k =>
      obtain ⟨seg, q, e1, e2, e3, S, hl, i1, i2, i3⟩ := R.conn hk
      rw [hk] at hs
      simp only [e3] at hs
      cases hi : q.items with
      | nil =>
        rw [hi] at hs
        cases hs
        refine ⟨w, by simp [step, unflush, i2, countDown, i3, e2, hi], R⟩
      | cons b rest =>
        rw [hi] at hs
        simp only [Option.some.injEq, Prod.mk.injEq] at hs
        obtain ⟨rfl, rfl⟩ := hs
        obtain ⟨seg', u1, u2, -, u4⟩ := unflushSeg_spec S b rest hi
        have hbl : (w.hs h).buf.length = q.bs := by rw [H.buf, hl]
        refine ⟨World.setH ⟨set w.segs k (some seg'), set w.sems k (some ⟨1, rest.length⟩), w.hs⟩ h { w.hs h with buf := b, pos := 0 }, ?_, ?_⟩
        · simp [step, unflush, i2, countDown, i3, e2, hi, lock_queue, i1, World.setSem, e1, hbl, u1, unlock_queue, World.setSeg, World.setH]
        · refine R.both _ _ k h (fun j hj => ?_) ?_ ?_ (fun j hj => ?_) ?_
          · simp [World.setH, set_other _ _ _ _ hj]
          · simp only [World.setH, set_same, QRel]
            exact ⟨u2, trivial⟩
          · intro q' hq'
            rw [e3] at hq'
            cases hq'
            exact ⟨_, set_same _ _ _, rfl⟩
          · simp [World.setH, set_other _ _ _ _ hj]
          · simp only [World.setH, set_same]
            refine ⟨i1, i2, i3, rfl, rfl, by simp, ?_⟩
            intro k' hk'
            cases hk'
            exact ⟨_, set_same _ _ _, u4⟩
  | put h m =>
    simp only [Spec.step] at hs
    obtain ⟨p1, p2⟩ := put_sim R h m
    cases ht : Spec.tryPut s h m with
    | some s1 =>
      rw [ht] at hs
      simp only [Option.some.injEq, Prod.mk.injEq] at hs
      obtain ⟨rfl, rfl⟩ := hs
      obtain ⟨H, a, b⟩ := p1 _ ht
      exact ⟨w.setH h H, by simp only [step, put, a], b⟩
    | none =>
      rw [ht] at hs
      simp only at hs
      obtain ⟨w1, f1, R1⟩ := flush_sim R h
      obtain ⟨q1, q2⟩ := put_sim R1 h m
      cases ht1 : Spec.tryPut (Spec.flush s h) h m with
      | some s1 =>
        rw [ht1] at hs
        simp only [Option.some.injEq, Prod.mk.injEq] at hs
        obtain ⟨rfl, rfl⟩ := hs
        obtain ⟨H, a, b⟩ := q1 _ ht1
        exact ⟨w1.setH h H, by simp only [step, put, p2 ht, f1, Res.ok_bind, a], b⟩
      | none =>
        rw [ht1] at hs
        cases hs
        exact ⟨w1, by simp only [step, put, p2 ht, f1, Res.ok_bind, q2 ht1], R1⟩
  | get h k =>
    have H := R.h h
    simp only [Spec.step] at hs
    split at hs
    · rename_i hc
      cases hs
      refine ⟨w.setH h { w.hs h with pos := (w.hs h).pos + k }, by simp only [step, get, H.buf, H.pos, if_pos hc], ?_⟩
      refine R.user _ _ h rfl rfl rfl (fun j hj => ⟨set_other _ _ _ _ hj, set_other _ _ _ _ hj⟩) ?_
      simp only [World.setH, set_same]
      refine ⟨H.info, H.boxes, H.sem, H.buf, by simp [H.pos], ?_, H.some⟩
      intro hk
      obtain ⟨a, b⟩ := H.none hk
      simp only [a, b, List.length_nil] at hc ⊢
      exact ⟨trivial, by omega⟩
    · rename_i hc
      cases hs
      exact ⟨w, by simp only [step, get, H.buf, H.pos, if_neg hc], R⟩
  | count h =>
    have H := R.h h
    simp only [Spec.step] at hs
    cases hk : (s.us h).key with
    | none =>
      rw [hk] at hs
      cases hs
      exact ⟨w, by simp [step, count, H.sem, hk], R⟩
    | some k =>
      obtain ⟨seg, q, e1, e2, e3, S, hl, i1, i2, i3⟩ := R.conn hk
      rw [hk] at hs
      simp only [e3] at hs
      cases hs
      exact ⟨w, by simp [step, count, i3, e2], R⟩
  | setReg h off v =>
    have H := R.h h
    simp only [Spec.step] at hs
    split at hs
    · rename_i ho
      cases hk : (s.us h).key with
      | none => rw [hk] at hs; cases hs
      | some k =>
        obtain ⟨seg, q, e1, e2, e3, S, hl, i1, i2, i3⟩ := R.conn hk
        rw [hk] at hs
        simp only [e3] at hs
        cases hs
        refine ⟨⟨set w.segs k (some { seg with info := { seg.info with regs := seg.info.regs.set off v } }), set w.sems k (some ⟨1, q.items.length⟩), w.hs⟩, ?_, ?_⟩
        · simp [step, set_register, ho, lock_queue, i1, i3, e1, e2, World.setSem, World.setSeg, unlock_queue]
        · refine R.both _ _ k h (fun j hj => ?_) ?_ ?_ (fun j hj => ⟨rfl, rfl⟩) ?_
          · simp [set_other _ _ _ _ hj]
          · simp only [set_same, QRel]
            refine ⟨⟨S.fit, S.bytes, S.size, S.bs, by simp [S.regs], ?_, S.mem, S.start, S.room, S.fin, S.item⟩, trivial⟩
            intro i hi
            have hr := S.regs
            have hg := S.reg i hi
            rw [List.getD_eq_getElem?_getD] at hg ⊢
            simp only [set]
            rw [List.getElem?_set]
            by_cases hio : off = i
            · subst hio
              rw [if_pos rfl, if_pos (by omega), if_pos rfl]
              rfl
            · rw [if_neg hio, if_neg (fun h => hio h.symm), hg]
          · intro q' hq'
            rw [e3] at hq'
            cases hq'
            exact ⟨_, set_same _ _ _, rfl⟩
          · refine ⟨H.info, H.boxes, H.sem, H.buf, H.pos, H.none, ?_⟩
            intro k' hk'
            rw [hk] at hk'
            cases hk'
            exact ⟨_, set_same _ _ _, hl⟩
    · rename_i ho
      cases hs
      exact ⟨w, by simp [step, set_register, ho], R⟩
  | getReg h off =>
    have H := R.h h
    simp only [Spec.step] at hs
    split at hs
    · rename_i ho
      cases hk : (s.us h).key with
      | none => rw [hk] at hs; cases hs
      | some k =>
        obtain ⟨seg, q, e1, e2, e3, S, hl, i1, i2, i3⟩ := R.conn hk
        rw [hk] at hs
        simp only [e3] at hs
        cases hs
        refine ⟨⟨w.segs, set w.sems k (some ⟨1, q.items.length⟩), w.hs⟩, ?_, ?_⟩
        · have := S.reg off ho
          rw [← this]
          simp [step, get_register, ho, lock_queue, i1, i3, e1, e2, World.setSem, unlock_queue]
        · refine R.both _ _ k h (fun j hj => ?_) ?_ ?_ (fun j hj => ⟨rfl, rfl⟩) ?_
          · simp [set_other _ _ _ _ hj]
          · simp only [set_same, e1, e3, QRel]
            exact ⟨S, trivial⟩
          · intro q' hq'; exact ⟨q', hq', rfl⟩
          · exact H
    · rename_i ho
      cases hs
      exact ⟨w, by simp [step, get_register, ho], R⟩

theorem run_sim (ops : List Op) : ∀ {w : World} {s s' : State} {rs : List Reply}, Rel w s → Spec.run s ops = some (s', rs) → ∃ w', run w ops = .ok (w', rs) ∧ Rel w' s' := by
  induction ops with
  | nil =>
    intro w s s' rs R h
    cases h
    exact ⟨w, rfl, R⟩
  | cons op ops ih =>
    intro w s s' rs R h
    simp only [Spec.run] at h
    cases h1 : Spec.step s op with
    | none => rw [h1] at h; cases h
    | some x =>
      obtain ⟨s1, r⟩ := x
      rw [h1] at h
      simp only at h
      cases h2 : Spec.run s1 ops with
      | none => rw [h2] at h; cases h
      | some y =>
        obtain ⟨s2, rs2⟩ := y
        rw [h2] at h
        cases h
        obtain ⟨w1, a1, R1⟩ := step_sim R op h1
        obtain ⟨w2, a2, R2⟩ := ih R1 h2
        exact ⟨w2, by simp only [run, a1, a2, Res.ok_bind], R2⟩

theorem init_rel : Rel World.init State.init :=
  ⟨fun _ => trivial, fun _ => ⟨rfl, rfl, rfl, rfl, rfl, fun _ => ⟨rfl, rfl⟩, by simp [State.init]⟩⟩

end Verif.QueueApi
