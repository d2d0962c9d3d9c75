import Verif.SerFail.Spec
import Verif.VarBox.Props
/-
  C153: message classes whose `serialize` refuses.
-/
set_option linter.unusedSimpArgs false

namespace Verif.SerFail

open VarBox (Class Box Writer Contract flat boxOf read flat_snoc boxOf_len put_fit box_read read_snoc)
open Spec

variable {M : Type} {T : Class M} {bs lo : Nat}

theorem Spec.Good.contract (h : Good T lo) : Contract T lo := ⟨h.len, h.pos, h.low, h.back, h.zeros⟩

theorem put_refused {b : Box} (hb : b.pos ≤ b.buf.length) {m : M} {t : Try} (hr : t.ret = false) (ht : t.bytes = []) : put T b m t = .ok (false, b) := by
  unfold put
  split
  · rw [if_pos (by rw [ht]; simpa using hb)]
    simp [ht, hr]
  · rfl

/-- A put that is not refused is a put of Verif.VarBox. -/
theorem put_same {b : Box} {m : M} {t : Try} (hr : t.ret = true) (ht : t.bytes = T.ser m) : put T b m t = (Box.put T b m).map (fun o => match o with | some x => (true, x) | none => (false, b)) := by
  unfold put Box.put
  split
  · simp only [ht, hr, if_true]
    split <;> rfl
  · rfl

theorem put_ok (hc : Contract T lo) {ms : List M} {m : M} {t : Try} (hr : t.ret = true) (ht : t.bytes = T.ser m) (hf : (flat T (ms ++ [m])).length ≤ bs) :
    put T ⟨boxOf T bs ms, (flat T ms).length⟩ m t = .ok (true, ⟨boxOf T bs (ms ++ [m]), (flat T (ms ++ [m])).length⟩) := by
  rw [put_same hr ht, put_fit hc hf]; rfl

theorem put_no (hc : Contract T lo) {ms : List M} {m : M} (t : Try) (hf : (flat T ms).length ≤ bs) (hn : ¬ (flat T (ms ++ [m])).length ≤ bs) :
    put T ⟨boxOf T bs ms, (flat T ms).length⟩ m t = .ok (false, ⟨boxOf T bs ms, (flat T ms).length⟩) := by
  rw [flat_snoc, List.length_append, hc.len] at hn
  have hb := boxOf_len (bs := bs) (T := T) hf
  unfold put Box.is_space_for
  simp only [hb]
  rw [if_neg (by simp only [decide_eq_true_eq]; omega)]

/-- What is known of a writer: the messages `seen` are in the boxes it flushed, `cur` are in its current box. -/
def Inv (T : Class M) (bs : Nat) (h : M) (w : Writer) (seen cur : List M) : Prop :=
  w.box = ⟨boxOf T bs cur, (flat T cur).length⟩ ∧ (flat T cur).length ≤ bs ∧ read T bs h w.out = .ok seen

theorem clear_eq : Box.clear bs = ⟨boxOf T bs ([] : List M), (flat T ([] : List M)).length⟩ := by simp [Box.clear, boxOf, flat]

theorem inv_flush (hc : Contract T lo) {h : M} (hh : T.size h = lo) {w : Writer} {seen cur : List M} (hi : Inv T bs h w seen cur) : Inv T bs h (Writer.flush bs w) (seen ++ cur) [] := by
  obtain ⟨h1, h2, h3⟩ := hi
  refine ⟨clear_eq, by simp [flat], ?_⟩
  simp only [Writer.flush, h1]
  exact read_snoc h _ h3 (box_read hc hh h2)

theorem qput_inv (hc : Contract T lo) {h : M} (hh : T.size h = lo) {w : Writer} {seen cur : List M} (hi : Inv T bs h w seen cur) {c : Call M} (h1 : clean T c.msg c.t1) (h2 : clean T c.msg c.t2) :
    ∃ (b : Bool) (w' : Writer) (seen' cur' : List M), qput T bs w c = .ok (b, w') ∧ Inv T bs h w' seen' cur' ∧ seen' ++ cur' = seen ++ cur ++ (if b then [c.msg] else []) ∧
      (b = true ↔ T.size c.msg ≤ bs ∧ ((c.t1.ret = true ∧ (flat T (cur ++ [c.msg])).length ≤ bs) ∨ c.t2.ret = true)) := by
  have hbox := hi.1
  have hlen := boxOf_len (bs := bs) (T := T) hi.2.1
  -- the second attempt
  have second : ∀ (w0 : Writer), Inv T bs h w0 (seen ++ cur) [] → ∃ (b : Bool) (w' : Writer) (cur' : List M),
      (put T w0.box c.msg c.t2).map (fun r => (r.1, ({ w0 with box := r.2 } : Writer))) = .ok (b, w') ∧ Inv T bs h w' (seen ++ cur) cur' ∧ cur' = (if b then [c.msg] else []) ∧
        (b = true ↔ T.size c.msg ≤ bs ∧ c.t2.ret = true) := by
    intro w0 hi0
    have hb0 := hi0.1
    rcases h2 with ⟨hr, ht⟩ | ⟨hr, ht⟩
    · by_cases hf : (flat T ([] ++ [c.msg])).length ≤ bs
      · refine ⟨true, ⟨⟨boxOf T bs [c.msg], (flat T [c.msg]).length⟩, w0.out⟩, [c.msg], by rw [hb0, put_ok hc hr ht hf]; rfl, ⟨rfl, hf, hi0.2.2⟩, rfl, by simpa [flat, hc.len, hr] using hf⟩
      · refine ⟨false, ⟨⟨boxOf T bs ([] : List M), (flat T ([] : List M)).length⟩, w0.out⟩, [], by rw [hb0, put_no hc c.t2 hi0.2.1 hf]; rfl, ⟨rfl, hi0.2.1, hi0.2.2⟩, rfl, ?_⟩
        simpa [flat, hc.len, hr] using hf
    · refine ⟨false, w0, [], by rw [put_refused (by rw [hb0]; simp [flat]) hr ht]; rfl, ?_, rfl, by simp [hr]⟩
      exact ⟨hb0, hi0.2.1, hi0.2.2⟩
  have hw : ({ w with box := w.box } : Writer) = w := rfl
  by_cases hf : (flat T (cur ++ [c.msg])).length ≤ bs
  · rcases h1 with ⟨hr, ht⟩ | ⟨hr, ht⟩
    · refine ⟨true, { w with box := ⟨boxOf T bs (cur ++ [c.msg]), (flat T (cur ++ [c.msg])).length⟩ }, seen, cur ++ [c.msg], ?_, ⟨rfl, hf, hi.2.2⟩, by simp, ?_⟩
      · unfold qput
        rw [hbox, put_ok hc hr ht hf]
        rfl
      · have : T.size c.msg ≤ bs := by rw [flat_snoc, List.length_append, hc.len] at hf; omega
        simp [this, hr, hf]
    · obtain ⟨b, w', cur', e, hi', hc', hb'⟩ := second _ (inv_flush hc hh hi)
      refine ⟨b, w', seen ++ cur, cur', ?_, hi', by rw [hc'], by rw [hb']; simp [hr]⟩
      unfold qput
      rw [put_refused (by rw [hbox]; simp only; rw [hlen]; exact hi.2.1) hr ht]
      exact e
  · obtain ⟨b, w', cur', e, hi', hc', hb'⟩ := second _ (inv_flush hc hh hi)
    refine ⟨b, w', seen ++ cur, cur', ?_, hi', by rw [hc'], by rw [hb']; simp [hf]⟩
    have hp := put_no hc c.t1 hi.2.1 hf
    rw [← hbox] at hp
    unfold qput
    rw [hp]
    exact e

theorem qputs_inv (hc : Contract T lo) {h : M} (hh : T.size h = lo) : ∀ (cs : List (Call M)) (w : Writer) (seen cur : List M), Inv T bs h w seen cur → (∀ c ∈ cs, clean T c.msg c.t1 ∧ clean T c.msg c.t2) →
    ∃ (sent : List M) (w' : Writer) (seen' cur' : List M), qputs T bs w cs = .ok (sent, w') ∧ Inv T bs h w' seen' cur' ∧ seen' ++ cur' = seen ++ cur ++ sent
  | [], w, seen, cur, hi, _ => ⟨[], w, seen, cur, rfl, hi, by simp⟩
  | c :: cs, w, seen, cur, hi, hcs => by
    obtain ⟨b, w1, s1, c1, e1, hi1, ht1, _⟩ := qput_inv hc hh hi (hcs c (by simp)).1 (hcs c (by simp)).2
    obtain ⟨sent, w2, s2, c2, e2, hi2, ht2⟩ := qputs_inv hc hh cs w1 s1 c1 hi1 (fun x hx => hcs x (by simp [hx]))
    refine ⟨if b then c.msg :: sent else sent, w2, s2, c2, ?_, hi2, ?_⟩
    · simp only [qputs, e1, Res.bind, e2, Res.map]
    · rw [ht2, ht1]
      cases b <;> simp

/-- **C153_partial.** Messages of any sizes whose `serialize` returns false as often as it likes, but then has written nothing: after any calls of put and a flush, the boxes have exactly the messages
whose put returned true, in order.  Missing: `serialize` that has written something before it returns false (`C153_refuted`, `C153_refuted_twice`). -/
theorem C153_partial (hg : Good T lo) (h : M) (hh : T.size h = lo) (cs : List (Call M)) (hcs : ∀ c ∈ cs, clean T c.msg c.t1 ∧ clean T c.msg c.t2) :
    ∃ sent w, qputs T bs (Writer.init bs) cs = .ok (sent, w) ∧ read T bs h (w.flush bs).out = .ok sent := by
  obtain ⟨sent, w, s, c, e, hi, ht⟩ := qputs_inv hg.contract hh cs (Writer.init bs) [] [] ⟨clear_eq, by simp [flat], rfl⟩ hcs
  refine ⟨sent, w, e, ?_⟩
  have := (inv_flush hg.contract hh hi).2.2
  rw [this, ht]
  simp

/-- **C153_answer_partial.** What put returns: false if `serialize` refuses each time it is called (once, or twice if the message fits behind those that are in the box), and false if the message is larger
than a box; true otherwise.  Missing: as above. -/
theorem C153_answer_partial (hg : Good T lo) (h : M) (hh : T.size h = lo) (cs : List (Call M)) (hcs : ∀ c ∈ cs, clean T c.msg c.t1 ∧ clean T c.msg c.t2) (c : Call M) (h1 : clean T c.msg c.t1) (h2 : clean T c.msg c.t2) :
    ∃ sent w b w', qputs T bs (Writer.init bs) cs = .ok (sent, w) ∧ qput T bs w c = .ok (b, w') ∧
      (b = true ↔ T.size c.msg ≤ bs ∧ ((c.t1.ret = true ∧ w.box.pos + T.size c.msg ≤ bs) ∨ c.t2.ret = true)) := by
  obtain ⟨sent, w, s, cu, e, hi, ht⟩ := qputs_inv hg.contract hh cs (Writer.init bs) [] [] ⟨clear_eq, by simp [flat], rfl⟩ hcs
  obtain ⟨b, w', s', c', e', hi', ht', hb⟩ := qput_inv hg.contract hh hi h1 h2
  refine ⟨sent, w, b, w', e, e', ?_⟩
  rw [hb, hi.1, flat_snoc, List.length_append, hg.len]

/-- **C153_bounds.** Whatever `serialize` does, as long as it writes no more than `size()` bytes: nothing is written behind the end of a box. -/
theorem C153_bounds (cs : List (Call M)) (hcs : ∀ c ∈ cs, c.t1.bytes.length ≤ T.size c.msg ∧ c.t2.bytes.length ≤ T.size c.msg) : ∃ r, qputs T bs (Writer.init bs) cs = .ok r := by
  have one : ∀ (b : Box) (m : M) (t : Try), b.buf.length = bs → b.pos ≤ bs → t.bytes.length ≤ T.size m → ∃ r, put T b m t = .ok r ∧ r.2.buf.length = bs ∧ r.2.pos ≤ bs := by
    intro b m t hb hp ht
    unfold put Box.is_space_for
    split
    · rename_i hsp
      simp only [decide_eq_true_eq] at hsp
      rw [if_pos (by omega)]
      refine ⟨_, rfl, ?_⟩
      have hl : (b.buf.take b.pos ++ t.bytes ++ b.buf.drop (b.pos + t.bytes.length)).length = bs := by
        simp only [List.length_append, List.length_take, List.length_drop]
        omega
      split
      · exact ⟨hl, by simp only; omega⟩
      · exact ⟨hl, hp⟩
    · exact ⟨_, rfl, hb, hp⟩
  have all : ∀ (cs : List (Call M)) (w : Writer), w.box.buf.length = bs → w.box.pos ≤ bs → (∀ c ∈ cs, c.t1.bytes.length ≤ T.size c.msg ∧ c.t2.bytes.length ≤ T.size c.msg) → ∃ r, qputs T bs w cs = .ok r := by
    intro cs
    induction cs with
    | nil => intro w _ _ _; exact ⟨_, rfl⟩
    | cons c cs ih =>
      intro w h1 h2 h
      obtain ⟨hc1, hc2⟩ := h c (by simp)
      obtain ⟨r1, e1, l1, p1⟩ := one w.box c.msg c.t1 h1 h2 hc1
      have key : ∃ b w', qput T bs w c = .ok (b, w') ∧ w'.box.buf.length = bs ∧ w'.box.pos ≤ bs := by
        unfold qput
        rw [e1]
        simp only [Res.bind]
        split
        · exact ⟨_, _, rfl, l1, p1⟩
        · obtain ⟨r2, e2, l2, p2⟩ := one (Box.clear bs) c.msg c.t2 (by simp [Box.clear]) (by simp [Box.clear]) hc2
          refine ⟨r2.1, ⟨r2.2, w.out ++ [r1.2.buf]⟩, ?_, l2, p2⟩
          simp only [Writer.flush, e2, Res.map]
      obtain ⟨b, w', e, l, p⟩ := key
      obtain ⟨r, hr⟩ := ih w' l p (fun x hx => h x (by simp [hx]))
      exact ⟨(if b = true then c.msg :: r.1 else r.1, r.2), by simp only [qputs, e, Res.bind, hr, Res.map]⟩
  exact all cs _ (by simp [Writer.init, Box.clear]) (by simp [Writer.init, Box.clear]) hcs

/-- A refused attempt that has written the whole message. -/
theorem put_garbage (hc : Contract T lo) {ms : List M} {m : M} {t : Try} (hr : t.ret = false) (ht : t.bytes = T.ser m) (hf : (flat T (ms ++ [m])).length ≤ bs) :
    put T ⟨boxOf T bs ms, (flat T ms).length⟩ m t = .ok (false, ⟨boxOf T bs (ms ++ [m]), (flat T ms).length⟩) := by
  have hp := put_fit hc hf
  unfold Box.put at hp
  unfold put
  split at hp
  · rename_i hsp
    rw [if_pos hsp]
    split at hp
    · rename_i hl
      rw [ht, if_pos hl, hr]
      simp only [Res.ok.injEq, Option.some.injEq, Box.mk.injEq] at hp
      simp only [Bool.false_eq_true, if_false, hp.1]
    · cases hp
  · simp at hp

/-- **C153 is false if `serialize` has written the message before it returns false**: for every class and all messages `a`, `b` that fit into a box together: `put(a)` returns true, `put(b)` returns false, and the
readers get `a`, `b`, `b`. -/
theorem C153_refuted (hg : Good T lo) (h : M) (hh : T.size h = lo) (a b : M) (hab : T.size a + T.size b ≤ bs) :
    ∃ w, qputs T bs (Writer.init bs) [⟨a, ⟨T.ser a, true⟩, ⟨T.ser a, true⟩⟩, ⟨b, ⟨T.ser b, false⟩, ⟨T.ser b, false⟩⟩] = .ok ([a], w) ∧ read T bs h (w.flush bs).out = .ok [a, b, b] := by
  have hc := hg.contract
  have f1 : (flat T ([] ++ [a])).length ≤ bs := by simp [flat, hc.len]; omega
  have f2 : (flat T ([a] ++ [b])).length ≤ bs := by simp [flat, hc.len]; omega
  have f3 : (flat T ([] ++ [b])).length ≤ bs := by simp [flat, hc.len]; omega
  have p1 := put_ok (t := ⟨T.ser a, true⟩) hc rfl rfl f1
  have p2 := put_garbage (t := ⟨T.ser b, false⟩) hc rfl rfl f2
  have p3 := put_garbage (t := ⟨T.ser b, false⟩) hc rfl rfl f3
  rw [← clear_eq] at p1 p3
  refine ⟨⟨⟨boxOf T bs [b], 0⟩, [boxOf T bs [a, b]]⟩, ?_, ?_⟩
  · simp only [List.nil_append, List.cons_append] at p1 p2 p3
    simp only [qputs, qput, Writer.init, p1, p2, p3, Res.bind, Res.map, if_true, Bool.false_eq_true, if_false, Writer.flush, List.nil_append]
    rfl
  · have r1 := box_read (bs := bs) hc hh (ms := [a, b]) f2
    have r2 := box_read (bs := bs) hc hh (ms := [b]) f3
    simp only [Writer.flush, List.cons_append, List.nil_append, VarBox.read, r1, r2, Res.bind, Res.map]

/-- **C153_refuted_twice**: if only the first call of `serialize` refuses, `put(b)` returns true and the readers get `b` twice. -/
theorem C153_refuted_twice (hg : Good T lo) (h : M) (hh : T.size h = lo) (b : M) (hb : T.size b ≤ bs) :
    ∃ w, qputs T bs (Writer.init bs) [⟨b, ⟨T.ser b, false⟩, ⟨T.ser b, true⟩⟩] = .ok ([b], w) ∧ read T bs h (w.flush bs).out = .ok [b, b] := by
  have hc := hg.contract
  have f3 : (flat T ([] ++ [b])).length ≤ bs := by simp [flat, hc.len]; omega
  have p1 := put_ok (t := ⟨T.ser b, true⟩) hc rfl rfl f3
  have p3 := put_garbage (t := ⟨T.ser b, false⟩) hc rfl rfl f3
  rw [← clear_eq] at p1 p3
  refine ⟨⟨⟨boxOf T bs [b], (flat T [b]).length⟩, [boxOf T bs [b]]⟩, ?_, ?_⟩
  · simp only [List.nil_append] at p1 p3
    simp only [qputs, qput, Writer.init, p1, p3, Res.bind, Res.map, if_true, Bool.false_eq_true, if_false, Writer.flush, List.nil_append]
  · have r2 := box_read (bs := bs) hc hh (ms := [b]) f3
    simp only [Writer.flush, List.cons_append, List.nil_append, VarBox.read, r2, Res.bind, Res.map]

/-- **C153_refuted_room**: every put that is refused sends a box, even if there is nothing in it: after `k` refused puts `k` empty boxes are in the ring, although `serialize` wrote nothing. -/
theorem C153_refuted_room (m : M) (k : Nat) : ∃ w, qputs T bs (Writer.init bs) (List.replicate k ⟨m, ⟨[], false⟩, ⟨[], false⟩⟩) = .ok ([], w) ∧ w.out = List.replicate k (List.replicate bs 0) := by
  have gen : ∀ (k : Nat) (out : List (List UInt8)), qputs T bs ⟨Box.clear bs, out⟩ (List.replicate k ⟨m, ⟨[], false⟩, ⟨[], false⟩⟩) = .ok ([], ⟨Box.clear bs, out ++ List.replicate k (List.replicate bs 0)⟩) := by
    intro k
    induction k with
    | zero => intro out; simp [qputs]
    | succ k ih =>
      intro out
      have hp : put T (Box.clear bs) m ⟨[], false⟩ = .ok (false, Box.clear bs) := put_refused (by simp [Box.clear]) rfl rfl
      rw [List.replicate_succ]
      simp only [qputs, qput, hp, Res.bind, Bool.false_eq_true, if_false, Writer.flush, Res.map, ih]
      simp [List.replicate_succ, Box.clear]
  exact ⟨_, gen k [], by simp⟩

/-! ## examples: texts of one to 255 bytes (Verif/VarBox/Props.lean) -/

open VarBox (text text_contract ab c)

theorem text_good : Good text 2 := ⟨text_contract.len, text_contract.pos, text_contract.low, text_contract.back, text_contract.zeros⟩

/-- `c` is refused twice, `ab` once, and the rest is taken. -/
def calls : List (Call VarBox.Text) :=
  [⟨ab, ⟨text.ser ab, true⟩, ⟨[], false⟩⟩, ⟨c, ⟨[], false⟩, ⟨[], false⟩⟩, ⟨ab, ⟨[], false⟩, ⟨text.ser ab, true⟩⟩, ⟨c, ⟨text.ser c, true⟩, ⟨text.ser c, true⟩⟩]

theorem calls_clean : ∀ x ∈ calls, clean text x.msg x.t1 ∧ clean text x.msg x.t2 := by
  intro x hx
  simp only [calls, List.mem_cons, List.not_mem_nil, or_false] at hx
  rcases hx with rfl | rfl | rfl | rfl <;> simp [clean]

example : ∃ sent w, qputs text 5 (Writer.init 5) calls = .ok (sent, w) ∧ read text 5 c (w.flush 5).out = .ok sent := C153_partial text_good c rfl calls calls_clean
example : ((match qputs text 5 (Writer.init 5) calls with | .ok r => some (r.1, r.2.out.length) | .ub => none)) = some ([ab, ab, c], 2) := by decide +kernel
example : ∃ w, qputs text 5 (Writer.init 5) [⟨ab, ⟨text.ser ab, true⟩, ⟨text.ser ab, true⟩⟩, ⟨c, ⟨text.ser c, false⟩, ⟨text.ser c, false⟩⟩] = .ok ([ab], w) ∧ read text 5 c (w.flush 5).out = .ok [ab, c, c] :=
  C153_refuted text_good c rfl ab c (by decide)
example : ∃ w, qputs text 5 (Writer.init 5) [⟨c, ⟨text.ser c, false⟩, ⟨text.ser c, true⟩⟩] = .ok ([c], w) ∧ read text 5 c (w.flush 5).out = .ok [c, c] := C153_refuted_twice text_good c rfl c (by decide)

end Verif.SerFail
