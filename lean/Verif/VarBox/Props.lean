import Verif.VarBox.Model
/-
  Property C128: messages of different sizes.
-/
namespace Verif.VarBox

variable {M : Type} {T : Class M} {bs lo : Nat}

/-- What the user's class has to satisfy: `serialize` writes `size()` bytes, at least `lo` ≥ 1; `deserialize` reads back what `serialize` wrote, whatever follows, and returns false
on `lo` zero bytes or more. -/
structure Contract (T : Class M) (lo : Nat) : Prop where
  len : ∀ m, (T.ser m).length = T.size m
  pos : 1 ≤ lo
  low : ∀ m, lo ≤ T.size m
  back : ∀ m rest, T.des (T.ser m ++ rest) = .ok (some m)
  zeros : ∀ j, lo ≤ j → T.des (List.replicate j 0) = .ok none

/-- The bytes of the messages `ms`. -/
def flat (T : Class M) (ms : List M) : List UInt8 := ms.flatMap T.ser

/-- The contents of a box with the messages `ms`. -/
def boxOf (T : Class M) (bs : Nat) (ms : List M) : List UInt8 := flat T ms ++ List.replicate (bs - (flat T ms).length) 0

theorem flat_snoc (ms : List M) (m : M) : flat T (ms ++ [m]) = flat T ms ++ T.ser m := by simp [flat]

theorem boxOf_len {ms : List M} (hf : (flat T ms).length ≤ bs) : (boxOf T bs ms).length = bs := by
  unfold boxOf
  rw [List.length_append, List.length_replicate]
  omega

theorem put_fit (hc : Contract T lo) {ms : List M} {m : M} (hf : (flat T (ms ++ [m])).length ≤ bs) :
    Box.put T ⟨boxOf T bs ms, (flat T ms).length⟩ m = .ok (some ⟨boxOf T bs (ms ++ [m]), (flat T (ms ++ [m])).length⟩) := by
  rw [flat_snoc, List.length_append] at hf
  have hb := boxOf_len (bs := bs) (T := T) (ms := ms) (by omega)
  have hl := hc.len m
  unfold Box.put Box.is_space_for
  simp only [hb]
  rw [if_pos (by simp only [decide_eq_true_eq]; omega), if_pos (by omega)]
  have h1 : (boxOf T bs ms).take (flat T ms).length = flat T ms := by
    unfold boxOf
    rw [List.take_left]
  have h2 : (boxOf T bs ms).drop ((flat T ms).length + (T.ser m).length) = List.replicate (bs - ((flat T ms).length + (T.ser m).length)) 0 := by
    unfold boxOf
    rw [List.drop_append, List.drop_of_length_le (by omega), List.nil_append, List.drop_replicate]
    congr 1; omega
  rw [h1, h2]
  unfold boxOf
  rw [flat_snoc, List.length_append, hl]

theorem put_full (hc : Contract T lo) {ms : List M} {m : M} (hf : (flat T ms).length ≤ bs) (hn : ¬ (flat T (ms ++ [m])).length ≤ bs) :
    Box.put T ⟨boxOf T bs ms, (flat T ms).length⟩ m = .ok none := by
  rw [flat_snoc, List.length_append, hc.len] at hn
  have hb := boxOf_len (bs := bs) (T := T) hf
  unfold Box.put Box.is_space_for
  simp only [hb]
  rw [if_neg (by simp only [decide_eq_true_eq]; omega)]

/-- The object of each `get` is no larger than the next message. -/
def Small (T : Class M) (next : M → M) : M → List M → Prop
  | _, [] => True
  | h, m :: ms => T.size h ≤ T.size m ∧ Small T next (next m) ms

/-- The object of the last `get`, after all messages. -/
def last (next : M → M) (h : M) : List M → M
  | [] => h
  | m :: ms => last next (next m) ms

theorem gets_from (hc : Contract T lo) (next : M → M) : ∀ (n : Nat) (ms : List M) (pre z : List UInt8) (h : M), Small T next h ms →
    (n ≤ ms.length ∨ Box.get T ⟨pre ++ flat T ms ++ z, (pre ++ flat T ms).length⟩ (last next h ms) = .ok none) →
    Box.gets T next ⟨pre ++ flat T ms ++ z, pre.length⟩ h n = .ok (ms.take n) := by
  intro n
  induction n with
  | zero => intro ms pre z h _ _; simp [Box.gets]
  | succ n ih =>
    intro ms pre z h hs he
    cases ms with
    | nil =>
      rcases he with he | he
      · simp at he
      · simp only [flat, List.flatMap_nil, List.append_nil, last] at he ⊢
        simp only [Box.gets, he, Res.bind, List.take_nil]
    | cons m ms =>
      have hg : Box.get T ⟨pre ++ flat T (m :: ms) ++ z, pre.length⟩ h = .ok (some (m, ⟨pre ++ flat T (m :: ms) ++ z, pre.length + T.size m⟩)) := by
        unfold Box.get Box.is_space_for
        rw [if_pos]
        · have : (pre ++ flat T (m :: ms) ++ z).drop pre.length = T.ser m ++ (flat T ms ++ z) := by
            rw [List.append_assoc, List.drop_left]
            simp [flat]
          simp only [this, hc.back, Res.map]
        · have := hs.1
          simp only [flat, List.flatMap_cons, List.length_append, hc.len m, decide_eq_true_eq]
          omega
      have heq : pre ++ flat T (m :: ms) ++ z = (pre ++ T.ser m) ++ flat T ms ++ z := by simp [flat]
      have hl2 : (pre ++ T.ser m).length = pre.length + T.size m := by rw [List.length_append, hc.len]
      simp only [Box.gets, hg, Res.bind, List.take_succ_cons]
      rw [heq, ← hl2, ih ms (pre ++ T.ser m) z (next m) hs.2 ?_]
      · rfl
      · rcases he with he | he
        · left; simp only [List.length_cons] at he; omega
        · right
          rw [heq] at he
          have hl3 : (pre ++ T.ser m ++ flat T ms).length = (pre ++ flat T (m :: ms)).length := by simp [flat]
          rw [hl3]
          exact he

/-- A loop over a box sees exactly its messages. -/
theorem gets_boxOf (hc : Contract T lo) (next : M → M) {ms : List M} (h : M) (hs : Small T next h ms) (n : Nat) :
    Box.gets T next (Box.from (boxOf T bs ms)) h n = .ok (ms.take n) := by
  have := gets_from hc next n ms [] (List.replicate (bs - (flat T ms).length) 0) h hs ?_
  · simpa [Box.from, boxOf] using this
  · right
    simp only [List.nil_append]
    unfold Box.get
    split
    · rename_i hsp
      simp only [Box.is_space_for, List.length_append, List.length_replicate, decide_eq_true_eq] at hsp
      rw [List.drop_left, hc.zeros _ (by have := hc.low (last next h ms); omega)]
      rfl
    · rfl

/-- What a reader finds in the boxes that went into the ring, when it uses a new object like `h` for each message. -/
def read (T : Class M) (bs : Nat) (h : M) : List (List UInt8) → Res (List M)
  | [] => .ok []
  | b :: bsx => (Box.gets T (fun _ => h) (Box.from b) h bs).bind fun ms => (read T bs h bsx).map (ms ++ ·)

theorem read_snoc (h : M) (b : List UInt8) {ms ms' : List M} : ∀ {out : List (List UInt8)}, read T bs h out = .ok ms → Box.gets T (fun _ => h) (Box.from b) h bs = .ok ms' →
    read T bs h (out ++ [b]) = .ok (ms ++ ms') := by
  intro out
  induction out generalizing ms with
  | nil =>
    intro h1 h2
    simp only [read] at h1
    cases h1
    simp only [List.nil_append, read, h2, Res.bind, Res.map, List.append_nil]
  | cons x out ih =>
    intro h1 h2
    simp only [List.cons_append, read] at h1 ⊢
    cases hx : Box.gets T (fun _ => h) (Box.from x) h bs with
    | ub => rw [hx] at h1; cases h1
    | ok a =>
      rw [hx] at h1
      simp only [Res.bind] at h1 ⊢
      cases hr : read T bs h out with
      | ub => rw [hr] at h1; cases h1
      | ok c =>
        rw [hr] at h1
        simp only [Res.map] at h1
        cases h1
        rw [ih hr h2]
        simp [Res.map]

theorem flat_count (hc : Contract T lo) (ms : List M) : ms.length ≤ (flat T ms).length := by
  induction ms with
  | nil => simp
  | cons m ms ih =>
    have := hc.low m
    have := hc.pos
    simp only [flat, List.flatMap_cons, List.length_append, hc.len m, List.length_cons] at ih ⊢
    omega

theorem small_new (hc : Contract T lo) {h : M} (hh : T.size h = lo) : ∀ ms, Small T (fun _ => h) h ms
  | [] => trivial
  | m :: ms => ⟨by rw [hh]; exact hc.low m, small_new hc hh ms⟩

theorem box_read (hc : Contract T lo) {h : M} (hh : T.size h = lo) {ms : List M} (hf : (flat T ms).length ≤ bs) :
    Box.gets T (fun _ => h) (Box.from (boxOf T bs ms)) h bs = .ok ms := by
  rw [gets_boxOf hc _ h (small_new hc hh ms), List.take_of_length_le (Nat.le_trans (flat_count hc ms) hf)]

/-- The messages that fit into a box. -/
def fitting (T : Class M) (bs : Nat) (ms : List M) : List M := ms.filter fun m => decide (T.size m ≤ bs)

theorem puts_all (hc : Contract T lo) {h : M} (hh : T.size h = lo) : ∀ (ms cur : List M) (out : List (List UInt8)) (seen : List M), (flat T cur).length ≤ bs →
    read T bs h out = .ok seen → ∃ (w : Writer) (cur' seen' : List M), Writer.puts T bs ⟨⟨boxOf T bs cur, (flat T cur).length⟩, out⟩ ms = .ok (fitting T bs ms, w) ∧
      w.box = ⟨boxOf T bs cur', (flat T cur').length⟩ ∧ (flat T cur').length ≤ bs ∧ read T bs h w.out = .ok seen' ∧ seen' ++ cur' = seen ++ cur ++ fitting T bs ms
  | [], cur, out, seen, hf, hr => ⟨_, cur, seen, rfl, rfl, hf, hr, by simp [fitting]⟩
  | m :: ms, cur, out, seen, hf, hr => by
    have hclear : Box.clear bs = ⟨boxOf T bs ([] : List M), (flat T ([] : List M)).length⟩ := by simp [Box.clear, boxOf, flat]
    by_cases h1 : (flat T (cur ++ [m])).length ≤ bs
    · have hm : T.size m ≤ bs := by rw [flat_snoc, List.length_append, hc.len] at h1; omega
      have hfm : fitting T bs (m :: ms) = m :: fitting T bs ms := by simp [fitting, hm]
      obtain ⟨w, cur', seen', hw, hb, hl, hs, ht⟩ := puts_all hc hh ms (cur ++ [m]) out seen h1 hr
      refine ⟨w, cur', seen', ?_, hb, hl, hs, by rw [ht, hfm]; simp⟩
      simp only [Writer.puts, Writer.put, put_fit hc h1, Res.bind, hw, Res.map, if_true, hfm]
    · by_cases hm : T.size m ≤ bs
      · have hfm : fitting T bs (m :: ms) = m :: fitting T bs ms := by simp [fitting, hm]
        have hfit : (flat T ([] ++ [m])).length ≤ bs := by
          simp only [List.nil_append, flat, List.flatMap_cons, List.flatMap_nil, List.append_nil, hc.len]
          exact hm
        obtain ⟨w, cur', seen', hw, hb, hl, hs, ht⟩ := puts_all hc hh ms ([] ++ [m]) (out ++ [boxOf T bs cur]) (seen ++ cur) hfit (read_snoc h _ hr (box_read hc hh hf))
        refine ⟨w, cur', seen', ?_, hb, hl, hs, by rw [ht, hfm]; simp⟩
        have hp := put_fit hc hfit
        rw [← hclear] at hp
        simp only [Writer.puts, Writer.put, put_full hc hf h1, Writer.flush, hp, Res.bind, hw, Res.map, if_true, hfm]
      · have hfm : fitting T bs (m :: ms) = fitting T bs ms := by simp [fitting, hm]
        have h0 : (flat T ([] : List M)).length ≤ bs := by simp [flat]
        have hbig : ¬ (flat T ([] ++ [m])).length ≤ bs := by
          simp only [List.nil_append, flat, List.flatMap_cons, List.flatMap_nil, List.append_nil, hc.len]
          exact hm
        obtain ⟨w, cur', seen', hw, hb, hl, hs, ht⟩ := puts_all hc hh ms [] (out ++ [boxOf T bs cur]) (seen ++ cur) h0 (read_snoc h _ hr (box_read hc hh hf))
        refine ⟨w, cur', seen', ?_, hb, hl, hs, by rw [ht, hfm]; simp⟩
        have hp := put_full hc h0 hbig
        rw [← hclear] at hp hw
        simp only [Writer.puts, Writer.put, put_full hc hf h1, Writer.flush, hp, Res.bind, hw, Res.map, hfm, Bool.false_eq_true, if_false]

/-- **C128.** Put any messages, flush, and read all boxes with a new object for each message, whose `size()` is the least one: put returns true exactly for the messages that are no
larger than a box, and exactly these come out, in order; nothing is read or written outside of a box.  Missing: loops that use one object for all messages, as long as sizes differ
(`C128_refuted_lost`), new objects with `size() == 0` (`C128_refuted_ub`), classes that do not define `size()` (`C128_refuted_default`). -/
theorem C128_messages_partial (hc : Contract T lo) (h : M) (hh : T.size h = lo) (ms : List M) :
    ∃ w, (Writer.init bs).puts T bs ms = .ok (ms.filter (fun m => T.size m ≤ bs), w) ∧ read T bs h (w.flush bs).out = .ok (ms.filter (fun m => T.size m ≤ bs)) := by
  obtain ⟨w, cur', seen', hw, hb, hl, hs, ht⟩ := puts_all (bs := bs) hc hh ms [] [] [] (by simp [flat]) rfl
  have hfm : fitting T bs ms = ms.filter (fun m => T.size m ≤ bs) := rfl
  rw [← hfm]
  refine ⟨w, ?_, ?_⟩
  · rw [← hw]
    congr 1
  · simp only [Writer.flush]
    rw [hb]
    rw [read_snoc h _ hs (box_read hc hh hl), ht]
    simp

/-- **C128, one object for all messages**: a loop that uses the same object sees all messages of a box if no message is smaller than the one before it.  Missing: as above. -/
theorem C128_same_object_partial (hc : Contract T lo) (h : M) (ms : List M) (hf : (ms.flatMap T.ser).length ≤ bs) (hs : ∀ m, ms.head? = some m → T.size h ≤ T.size m)
    (hp : ms.Pairwise (fun a b => T.size a ≤ T.size b)) (n : Nat) (hn : ms.length ≤ n) :
    ∃ w, (Writer.init bs).puts T bs ms = .ok (ms, w) ∧ w.out = [] ∧ Box.gets T id (Box.from w.box.buf) h n = .ok ms := by
  have small : ∀ (ms : List M) (h : M), (∀ m, ms.head? = some m → T.size h ≤ T.size m) → ms.Pairwise (fun a b => T.size a ≤ T.size b) → Small T id h ms := by
    intro ms
    induction ms with
    | nil => intro h _ _; trivial
    | cons m ms ih =>
      intro h h1 h2
      refine ⟨h1 m rfl, ih m ?_ (List.pairwise_cons.mp h2).2⟩
      intro x hx
      exact (List.pairwise_cons.mp h2).1 x (List.mem_of_head? hx)
  have puts : ∀ (ms cur : List M), (flat T (cur ++ ms)).length ≤ bs →
      Writer.puts T bs ⟨⟨boxOf T bs cur, (flat T cur).length⟩, []⟩ ms = .ok (ms, ⟨⟨boxOf T bs (cur ++ ms), (flat T (cur ++ ms)).length⟩, []⟩) := by
    intro ms
    induction ms with
    | nil => intro cur _; simp [Writer.puts]
    | cons m ms ih =>
      intro cur hf
      have h1 : (flat T (cur ++ [m])).length ≤ bs := by
        simp only [flat, List.flatMap_append, List.flatMap_cons, List.flatMap_nil, List.length_append] at hf ⊢
        simp only [List.length_nil]; omega
      have := ih (cur ++ [m]) (by simpa using hf)
      simp only [Writer.puts, Writer.put, put_fit hc h1, Res.bind, this, Res.map, if_true]
      simp
  refine ⟨⟨⟨boxOf T bs ms, (flat T ms).length⟩, []⟩, ?_, rfl, ?_⟩
  · have := puts ms [] (by simpa [flat] using hf)
    rw [List.nil_append] at this
    rw [← this]
    simp [Writer.init, Box.clear, boxOf, flat]
  · rw [gets_boxOf hc id h (small ms h hs hp), List.take_of_length_le hn]

/-- **C128 is false with one object for all messages: a message is lost.** For every class that meets the contract and every pair of messages of which the second is smaller than the
first: if they fill a box exactly, both puts return true, and the loop sees only the first one. -/
theorem C128_refuted_lost (hc : Contract T lo) (h a b : M) (hh : T.size h ≤ T.size a) (hab : T.size b < T.size a) (n : Nat) :
    ∃ w, (Writer.init (T.size a + T.size b)).puts T (T.size a + T.size b) [a, b] = .ok ([a, b], w) ∧ w.out = [] ∧
      Box.gets T id (Box.from w.box.buf) h (n + 2) = .ok [a] := by
  have ha := hc.len a
  have hb := hc.len b
  have h1 : (flat T ([] ++ [a])).length ≤ T.size a + T.size b := by simp [flat, ha]
  have h2 : (flat T ([a] ++ [b])).length ≤ T.size a + T.size b := by simp [flat, ha, hb]
  have p1 := put_fit hc h1
  have p2 := put_fit hc h2
  have hclear : Box.clear (T.size a + T.size b) = ⟨boxOf T (T.size a + T.size b) ([] : List M), (flat T ([] : List M)).length⟩ := by simp [Box.clear, boxOf, flat]
  refine ⟨⟨⟨boxOf T (T.size a + T.size b) [a, b], (flat T [a, b]).length⟩, []⟩, ?_, rfl, ?_⟩
  · simp only [List.nil_append, List.cons_append] at p1 p2
    simp only [Writer.puts, Writer.put, Writer.init, hclear, p1, p2, Res.bind, Res.map, if_true]
  · have hbuf : boxOf T (T.size a + T.size b) [a, b] = T.ser a ++ T.ser b := by simp [boxOf, flat, ha, hb]
    have g1 : Box.get T ⟨T.ser a ++ T.ser b, 0⟩ h = .ok (some (a, ⟨T.ser a ++ T.ser b, 0 + T.size a⟩)) := by
      unfold Box.get Box.is_space_for
      rw [if_pos (by simp only [List.length_append, ha, hb, decide_eq_true_eq]; omega)]
      simp only [List.drop_zero, hc.back, Res.map]
    have g2 : Box.get T ⟨T.ser a ++ T.ser b, 0 + T.size a⟩ a = .ok none := by
      unfold Box.get Box.is_space_for
      rw [if_neg (by simp only [List.length_append, ha, hb, decide_eq_true_eq]; omega)]
    simp only [Box.from, hbuf, Box.gets, g1, g2, Res.bind, id, Res.map]

/-- **C128 is false for new objects with `size() == 0`**: for every class whose `deserialize` looks at its argument at all, a loop over a full box reads behind its end. -/
theorem C128_refuted_ub (h m : M) (next : M → M) (hl : (T.ser m).length = T.size m) (hb : ∀ rest, T.des (T.ser m ++ rest) = .ok (some m)) (hn : T.size (next m) = 0) (hh : T.size h ≤ T.size m) (hd : T.des [] = .ub) (n : Nat) :
    ∃ w, (Writer.init (T.size m)).puts T (T.size m) [m] = .ok ([m], w) ∧ w.out = [] ∧ Box.gets T next (Box.from w.box.buf) h (n + 2) = .ub := by
  have p1 : Box.put T (Box.clear (T.size m)) m = .ok (some ⟨T.ser m, T.size m⟩) := by
    unfold Box.put Box.is_space_for
    rw [if_pos (by simp [Box.clear]), if_pos (by simp [Box.clear, hl])]
    simp [Box.clear, hl]
  refine ⟨⟨⟨T.ser m, T.size m⟩, []⟩, ?_, rfl, ?_⟩
  · simp only [Writer.puts, Writer.put, Writer.init, p1, Res.bind, Res.map, if_true]
  · have g1 : Box.get T ⟨T.ser m, 0⟩ h = .ok (some (m, ⟨T.ser m, 0 + T.size m⟩)) := by
      have hb := hb []
      rw [List.append_nil] at hb
      unfold Box.get Box.is_space_for
      rw [if_pos (by simp only [hl, decide_eq_true_eq]; omega)]
      simp only [List.drop_zero, hb, Res.map]
    have g2 : Box.get T ⟨T.ser m, 0 + T.size m⟩ (next m) = .ub := by
      unfold Box.get Box.is_space_for
      rw [if_pos (by simp only [hl, hn, decide_eq_true_eq]; omega)]
      rw [Nat.zero_add, ← hl, List.drop_length, hd]
      rfl
    simp only [Box.from, Box.gets, g1, g2, Res.bind, Res.map]

/-- **C128 is false for classes that do not define `size()`** (the base class returns 0): messages of `k` bytes overwrite each other, all puts return true, and the box has only the last
one; a message larger than the box is written behind its end. -/
theorem C128_refuted_default (hs : ∀ m, T.size m = 0) (k : Nat) (hl : ∀ m, (T.ser m).length = k) :
    (k ≤ bs → ∀ ms m, (Writer.init bs).puts T bs (ms ++ [m]) = .ok (ms ++ [m], ⟨⟨T.ser m ++ List.replicate (bs - k) 0, 0⟩, []⟩)) ∧
      (bs < k → ∀ m, (Writer.init bs).put T bs m = .ub) := by
  constructor
  · intro hk ms m
    have one : ∀ (buf : List UInt8) (m : M), buf.length = bs → Box.put T ⟨buf, 0⟩ m = .ok (some ⟨T.ser m ++ buf.drop k, 0⟩) := by
      intro buf m hb
      unfold Box.put Box.is_space_for
      rw [if_pos (by simp [hs]), if_pos (by simp only [hl]; omega)]
      simp [hl, hs]
    have gen : ∀ (ms : List M) (buf : List UInt8), buf.length = bs → buf.drop k = List.replicate (bs - k) 0 →
        Writer.puts T bs ⟨⟨buf, 0⟩, []⟩ (ms ++ [m]) = .ok (ms ++ [m], ⟨⟨T.ser m ++ List.replicate (bs - k) 0, 0⟩, []⟩) := by
      intro ms
      induction ms with
      | nil =>
        intro buf hb hd
        simp only [List.nil_append, Writer.puts, Writer.put, one buf m hb, hd, Res.bind, Res.map, if_true]
      | cons x ms ih =>
        intro buf hb hd
        have := ih (T.ser x ++ buf.drop k) (by rw [List.length_append, List.length_drop, hl]; omega) (by rw [← hl x, List.drop_left, hl x, hd])
        simp only [List.cons_append, Writer.puts, Writer.put, one buf x hb, this, Res.bind, Res.map, if_true]
    exact gen ms _ (by simp) (by simp)
  · intro hk m
    have : Box.put T (Box.clear bs) m = .ub := by
      unfold Box.put Box.is_space_for
      rw [if_pos (by simp [hs, Box.clear]), if_neg (by simp only [Box.clear, hl, List.length_replicate]; omega)]
    simp only [Writer.put, Writer.init, this, Res.bind]

/-! ## examples -/

/-- Texts of one to 255 bytes: a byte with the length, then the bytes. -/
def Text := { t : List UInt8 // 1 ≤ t.length ∧ t.length ≤ 255 }

instance : DecidableEq Text := inferInstanceAs (DecidableEq { t : List UInt8 // 1 ≤ t.length ∧ t.length ≤ 255 })

def text : Class Text where
  size t := t.1.length + 1
  ser t := UInt8.ofNat t.1.length :: t.1
  des
    | [] => .ub
    | c :: r =>
      if h : 1 ≤ c.toNat then
        if h' : c.toNat ≤ r.length then .ok (some ⟨r.take c.toNat, by rw [List.length_take]; have := c.toNat_lt; omega⟩) else .ub
      else .ok none

theorem text_contract : Contract text 2 where
  len t := by simp [text]
  pos := by decide
  low t := by have := t.2.1; simp only [text]; omega
  back t rest := by
    obtain ⟨t, h1, h2⟩ := t
    have hc : (UInt8.ofNat t.length).toNat = t.length := by
      rw [UInt8.toNat_ofNat']
      exact Nat.mod_eq_of_lt (by omega)
    simp only [text, List.cons_append]
    rw [dif_pos (by rw [hc]; exact h1), dif_pos (by rw [hc, List.length_append]; omega)]
    congr 2
    apply Subtype.ext
    simp only [hc, List.take_left]
  zeros j hj := by
    obtain ⟨j, rfl⟩ : ∃ i, j = i + 1 := ⟨j - 1, by omega⟩
    rfl

def ab : Text := ⟨[97, 98], by decide⟩
def c : Text := ⟨[99], by decide⟩

def long : Text := ⟨[97, 98, 99, 100, 101], by decide⟩

/-- The premises of `C128_messages_partial`: texts of different sizes in boxes of five bytes, one of them too large. -/
example : ∃ w, (Writer.init 5).puts text 5 [ab, c, long, c, ab] = .ok ([ab, c, c, ab], w) ∧ read text 5 c (w.flush 5).out = .ok [ab, c, c, ab] :=
  C128_messages_partial text_contract c rfl [ab, c, long, c, ab]

example : ∃ w, (Writer.init 8).puts text 8 [c, c, ab] = .ok ([c, c, ab], w) ∧ w.out = [] ∧ Box.gets text id (Box.from w.box.buf) c 4 = .ok [c, c, ab] :=
  C128_same_object_partial text_contract c _ (by decide) (by decide) (by decide) 4 (by decide)

/-- The premises of `C128_refuted_lost`: of `ab` and `c` in a box of five bytes only `ab` comes out. -/
example : ∃ w, (Writer.init 5).puts text 5 [ab, c] = .ok ([ab, c], w) ∧ w.out = [] ∧ Box.gets text id (Box.from w.box.buf) c 5 = .ok [ab] :=
  C128_refuted_lost text_contract c ab c (by decide) (by decide) 3

/-- Texts that may be empty, with `size() == 0` for the empty one. -/
def text0 : Class (List UInt8) where
  size t := if t = [] then 0 else t.length + 1
  ser t := UInt8.ofNat t.length :: t
  des
    | [] => .ub
    | c :: r => if c = 0 then .ok none else if c.toNat ≤ r.length then .ok (some (r.take c.toNat)) else .ub

/-- The premises of `C128_refuted_ub`: a full box read with new, empty objects. -/
example : ∃ w, (Writer.init 2).puts text0 2 [[99]] = .ok ([[99]], w) ∧ w.out = [] ∧ Box.gets text0 (fun _ => []) (Box.from w.box.buf) [] 2 = .ub :=
  C128_refuted_ub [] [99] (fun _ => []) rfl (fun rest => by simp [text0]) rfl (by decide) rfl 0

example : (Writer.init 2).puts text0 2 [[99]] = .ok ([[99]], ⟨⟨[1, 99], 2⟩, []⟩) ∧ Box.gets text0 (fun _ => []) (Box.from [1, 99]) [] 2 = .ub := by decide +kernel

end Verif.VarBox
