import Verif.ShmQueue.Box

set_option linter.unusedSimpArgs false
set_option linter.unusedVariables false

namespace Verif.ShmQueue

section
variable {M : Type} {K bs : Nat} {ser : M → List UInt8} {des : List UInt8 → Option M}

/-- What the user's class has to satisfy: fixed size, and deserialize reads back what serialize wrote, whatever follows. -/
structure Codec (K : Nat) (ser : M → List UInt8) (des : List UInt8 → Option M) : Prop where
  len : ∀ m, (ser m).length = K
  back : ∀ m rest, des (ser m ++ rest) = some m

/-- The contents of a box with the messages `ms`. -/
def boxOf (bs : Nat) (ser : M → List UInt8) (ms : List M) : List UInt8 :=
  ms.flatMap ser ++ List.replicate (bs - (ms.flatMap ser).length) 0

theorem flat_len (h : ∀ m, (ser m).length = K) (ms : List M) : (ms.flatMap ser).length = ms.length * K := by
  induction ms with
  | nil => simp
  | cons m ms ih => simp [List.flatMap_cons, h m, ih, Nat.add_mul]; omega

theorem boxOf_len (h : ∀ m, (ser m).length = K) {ms : List M} (hf : ms.length * K ≤ bs) : (boxOf bs ser ms).length = bs := by
  unfold boxOf
  rw [List.length_append, List.length_replicate, flat_len h]
  omega

theorem put_fit (hl : ∀ m, (ser m).length = K) {ms : List M} {m : M} (hf : (ms.length + 1) * K ≤ bs) :
    Box.put K ser ⟨boxOf bs ser ms, ms.length * K⟩ m = some ⟨boxOf bs ser (ms ++ [m]), (ms ++ [m]).length * K⟩ := by
  rw [Nat.add_mul, Nat.one_mul] at hf
  have hb := boxOf_len (bs := bs) hl (ms := ms) (by omega)
  unfold Box.put Box.is_space_for
  simp only [hb]
  rw [if_pos (by simpa using hf), hl m]
  have h1 : (boxOf bs ser ms).take (ms.length * K) = ms.flatMap ser := by
    unfold boxOf
    rw [List.take_append_of_le_length (by rw [flat_len hl]; omega), List.take_of_length_le (by rw [flat_len hl]; omega)]
  have h2 : (boxOf bs ser ms).drop (ms.length * K + K) = List.replicate (bs - (ms.length * K + K)) 0 := by
    unfold boxOf
    rw [List.drop_append, flat_len hl, List.drop_of_length_le (by rw [flat_len hl]; omega), List.nil_append, List.drop_replicate]
    congr 1; omega
  rw [h1, h2]
  congr 2
  · unfold boxOf
    rw [List.flatMap_append]
    simp only [List.flatMap_cons, List.flatMap_nil, List.append_nil, List.length_append, flat_len hl, hl m]
  · simp [Nat.add_mul]

theorem put_full (hl : ∀ m, (ser m).length = K) {ms : List M} {m : M} (hf : ms.length * K ≤ bs) (hn : ¬ (ms.length + 1) * K ≤ bs) :
    Box.put K ser ⟨boxOf bs ser ms, ms.length * K⟩ m = none := by
  rw [Nat.add_mul, Nat.one_mul] at hn
  have hb := boxOf_len (bs := bs) hl hf
  unfold Box.put Box.is_space_for
  simp only [hb]
  rw [if_neg (by simpa using hn)]

theorem gets_from (hc : Codec K ser des) {pre : List UInt8} : ∀ (n : Nat) (ms : List M) (z : List UInt8),
    (n ≤ ms.length ∨ (∀ p : Nat, Box.get K des ⟨(pre ++ ms.flatMap ser) ++ z, pre.length + ms.length * K⟩ = none)) →
    Box.gets K des ⟨(pre ++ ms.flatMap ser) ++ z, pre.length⟩ n = ms.take n := by
  intro n
  induction n generalizing pre with
  | zero => intro ms z _; simp [Box.gets]
  | succ n ih =>
    intro ms z h
    cases ms with
    | nil =>
      rcases h with h | h
      · simp at h
      · have := h 0
        simp only [List.flatMap_nil, List.append_nil, List.length_nil, Nat.zero_mul, Nat.add_zero] at this ⊢
        simp only [Box.gets, this, List.take_nil]
    | cons m ms =>
      have hg : Box.get K des ⟨(pre ++ (m :: ms).flatMap ser) ++ z, pre.length⟩ =
          some (m, ⟨(pre ++ (m :: ms).flatMap ser) ++ z, pre.length + K⟩) := by
        unfold Box.get Box.is_space_for
        rw [if_pos]
        · rw [List.flatMap_cons]
          rw [show (pre ++ (ser m ++ ms.flatMap ser) ++ z).drop pre.length = ser m ++ (ms.flatMap ser ++ z) by
            rw [List.append_assoc, List.drop_left']
            · rw [List.append_assoc]
            · rfl]
          rw [hc.back]
        · simp [List.flatMap_cons, hc.len m]
      have heq : pre ++ (m :: ms).flatMap ser ++ z = (pre ++ ser m) ++ ms.flatMap ser ++ z := by simp [List.flatMap_cons]
      have hl2 : (pre ++ ser m).length = pre.length + K := by rw [List.length_append, hc.len]
      simp only [Box.gets, hg, List.take_succ_cons]
      congr 1
      rw [heq, ← hl2]
      refine ih ms z ?_
      rcases h with h | h
      · left
        simp only [List.length_cons] at h
        omega
      · right
        intro p
        have := h p
        rw [heq] at this
        rw [hl2, show pre.length + K + ms.length * K = pre.length + (m :: ms).length * K by
          simp only [List.length_cons, Nat.add_mul]; omega]
        exact this

/-- After the last message there is no further one, if deserialize rejects zero bytes. -/
theorem gets_boxOf (hc : Codec K ser des) {ms : List M} (hf : ms.length * K ≤ bs) (n : Nat)
    (hn : n ≤ ms.length ∨ ∀ j, des (List.replicate j 0) = none) : Box.gets K des (Box.from (boxOf bs ser ms)) n = ms.take n := by
  have := gets_from hc (pre := []) n ms (List.replicate (bs - (ms.flatMap ser).length) 0) ?_
  · exact this
  · rcases hn with hn | hn
    · exact Or.inl hn
    · right
      intro _
      unfold Box.get
      split
      · simp only [List.nil_append, List.length_nil, Nat.zero_add]
        rw [List.drop_append, flat_len hc.len, List.drop_of_length_le (by rw [flat_len hc.len]; omega), List.nil_append, List.drop_replicate,
          hn]
      · rfl

/-- C57: put any messages that fit into an empty box and read the box: the same messages come out in the same order, each put and
get returning true; and if deserialize rejects zero bytes, reading on gives nothing. -/
theorem C57_framing (hc : Codec K ser des) (ms : List M) (hf : ms.length * K ≤ bs) (ok : Nat → Bool) :
    ∃ buf : List UInt8, (Writer.init bs).puts K ser bs ok ms = (ms, ⟨⟨buf, ms.length * K⟩, [], 0⟩) ∧ buf.length = bs ∧
      Box.gets K des (Box.from buf) ms.length = ms ∧
      ((∀ j, des (List.replicate j 0) = none) → ∀ n, ms.length ≤ n → Box.gets K des (Box.from buf) n = ms) := by
  refine ⟨boxOf bs ser ms, ?_, boxOf_len hc.len hf, ?_, ?_⟩
  · have : ∀ (ms1 ms2 : List M), (ms1.length + ms2.length) * K ≤ bs →
        Writer.puts K ser bs ok ⟨⟨boxOf bs ser ms1, ms1.length * K⟩, [], 0⟩ ms2 =
          (ms2, ⟨⟨boxOf bs ser (ms1 ++ ms2), (ms1 ++ ms2).length * K⟩, [], 0⟩) := by
      intro ms1 ms2
      induction ms2 generalizing ms1 with
      | nil => intro _; simp [Writer.puts]
      | cons m ms2 ih =>
        intro h
        have h1 : (ms1.length + 1) * K ≤ bs := by
          refine Nat.le_trans (Nat.mul_le_mul_right K ?_) h
          simp only [List.length_cons]; omega
        simp only [Writer.puts, Writer.put, put_fit hc.len h1, if_true]
        rw [ih (ms1 ++ [m]) (by simpa [Nat.add_assoc, Nat.add_comm 1] using h)]
        simp
    have h0 := this [] ms (by simpa using hf)
    rw [List.nil_append] at h0
    rw [← h0]
    congr 1
    simp [Writer.init, Box.clear, boxOf]
  · rw [gets_boxOf hc hf _ (Or.inl (Nat.le_refl _)), List.take_length]
  · intro hz n hn
    rw [gets_boxOf hc hf n (Or.inr hz), List.take_of_length_le hn]

/-- What a reader finds in the boxes that went into the ring. -/
def read (K bs : Nat) (des : List UInt8 → Option M) (out : List (List UInt8)) : List M :=
  out.flatMap (fun buf => Box.gets K des (Box.from buf) bs)

theorem puts_all (hc : Codec K ser des) (hK : 1 ≤ K) (hKb : K ≤ bs) (hz : ∀ j, des (List.replicate j 0) = none) (ok : Nat → Bool)
    (hok : ∀ n, ok n = true) : ∀ (ms cur : List M) (out : List (List UInt8)) (k : Nat), cur.length * K ≤ bs →
      ∃ (w : Writer) (cur' : List M), Writer.puts K ser bs ok ⟨⟨boxOf bs ser cur, cur.length * K⟩, out, k⟩ ms = (ms, w) ∧
        w.box = ⟨boxOf bs ser cur', cur'.length * K⟩ ∧ cur'.length * K ≤ bs ∧
        read K bs des w.out ++ cur' = read K bs des out ++ cur ++ ms
  | [], cur, out, k, hf => ⟨_, cur, rfl, rfl, hf, by simp⟩
  | m :: ms, cur, out, k, hf => by
    by_cases h1 : (cur.length + 1) * K ≤ bs
    · simp only [Writer.puts, Writer.put, put_fit hc.len h1, if_true]
      obtain ⟨w, cur', hw, hb, hl, hr⟩ := puts_all hc hK hKb hz ok hok ms (cur ++ [m]) out k (by simpa using h1)
      refine ⟨w, cur', ?_, hb, hl, ?_⟩
      · rw [hw]
      · rw [hr]; simp
    · have hclear : Box.clear bs = ⟨boxOf bs ser ([] : List M), ([] : List M).length * K⟩ := by simp [Box.clear, boxOf]
      have hp : Box.put K ser (Box.clear bs) m = some ⟨boxOf bs ser [m], [m].length * K⟩ := by
        rw [hclear, put_fit hc.len (by simpa using hKb)]; simp
      simp only [Writer.puts, Writer.put, put_full hc.len hf h1, Writer.flush, hp, if_true, hok]
      obtain ⟨w, cur', hw, hb, hl, hr⟩ := puts_all hc hK hKb hz ok hok ms [m] (out ++ [boxOf bs ser cur]) (k + 1) (by simpa using hKb)
      refine ⟨w, cur', ?_, hb, hl, ?_⟩
      · rw [hw]
      · rw [hr]
        have hcl : cur.length ≤ bs := Nat.le_trans (Nat.le_mul_of_pos_right _ hK) hf
        have : read K bs des (out ++ [boxOf bs ser cur]) = read K bs des out ++ cur := by
          simp [read, gets_boxOf hc hf bs (Or.inr hz), List.take_of_length_le hcl]
        rw [this]
        simp

/-- C56, partial: if every flush finds room in the ring, then every put returns true and the boxes in the ring, after a last flush,
contain exactly the messages put, in order.  Missing: a flush that finds the ring full drops its box (C56_refuted). -/
theorem C56_put_partial (hc : Codec K ser des) (hK : 1 ≤ K) (hKb : K ≤ bs) (hz : ∀ j, des (List.replicate j 0) = none) (ok : Nat → Bool)
    (hok : ∀ n, ok n = true) (ms : List M) :
    ∃ w, (Writer.init bs).puts K ser bs ok ms = (ms, w) ∧ read K bs des (w.flush bs ok).out = ms := by
  obtain ⟨w, cur', hw, hb, hl, hr⟩ := puts_all hc hK hKb hz ok hok ms [] [] 0 (by simp)
  refine ⟨w, ?_, ?_⟩
  · rw [← hw]
    congr 1
    simp [Writer.init, Box.clear, boxOf]
  · have hcl : cur'.length ≤ bs := Nat.le_trans (Nat.le_mul_of_pos_right _ hK) hl
    have : read K bs des (w.flush bs ok).out = read K bs des w.out ++ cur' := by
      simp [Writer.flush, hok, read, hb, gets_boxOf hc hl bs (Or.inr hz), List.take_of_length_le hcl]
    rw [this, hr]
    simp [read]

end

/-- The messages of the examples: a byte of value at least 1. -/
def ser1 (m : Fin 255) : List UInt8 := [UInt8.ofNat (m.val + 1)]
def des1 : List UInt8 → Option (Fin 255)
  | [] => none
  | c :: _ => if h : 1 ≤ c.toNat then some ⟨c.toNat - 1, by have := c.toNat_lt; omega⟩ else none

theorem codec1 : Codec 1 ser1 des1 := by
  refine ⟨fun _ => rfl, ?_⟩
  intro m rest
  have h1 : (UInt8.ofNat (m.val + 1)).toNat = m.val + 1 := by
    have := m.isLt
    simp only [UInt8.toNat_ofNat', show (2 : Nat) ^ 8 = 256 from rfl]
    exact Nat.mod_eq_of_lt (by omega)
  simp only [ser1, List.singleton_append, des1]
  rw [dif_pos (by omega)]
  congr 1
  apply Fin.ext
  show (UInt8.ofNat (m.val + 1)).toNat - 1 = m.val
  rw [h1]; omega

theorem zeros1 (j : Nat) : des1 (List.replicate j 0) = none := by
  cases j with
  | zero => rfl
  | succ j => rfl

example : ∃ w, (Writer.init 2).puts 1 ser1 2 (fun _ => true) [5, 6, 7] = ([5, 6, 7], w) ∧ read 1 2 des1 (w.flush 2 (fun _ => true)).out = [5, 6, 7] :=
  C56_put_partial codec1 (by decide) (by decide) zeros1 _ (fun _ => rfl) _
example : (3 : Nat) * 1 ≤ 4 := by decide

/-- C56 fails: one flush that finds the ring full, all puts and the flush report success, and two messages are gone. -/
theorem C56_refuted : ∃ w, (Writer.init 2).puts 1 ser1 2 (fun n => n ≠ 0) [5, 6, 7] = ([5, 6, 7], w) ∧
    read 1 2 des1 (w.flush 2 (fun n => n ≠ 0)).out = [7] := by
  refine ⟨_, rfl, ?_⟩
  decide +kernel

/-- C56: a message larger than a box is never accepted; each attempt gives away an empty box. -/
theorem C56_put_too_large (hKb : bs < K) (ok : Nat → Bool) (hok : ∀ n, ok n = true) (ms : List M) :
    (Writer.init bs).puts K ser bs ok ms = ([], ⟨⟨List.replicate bs 0, 0⟩, List.replicate ms.length (List.replicate bs 0), ms.length⟩) := by
  have gen : ∀ (ms : List M) (out : List (List UInt8)) (n : Nat), Writer.puts K ser bs ok ⟨⟨List.replicate bs 0, 0⟩, out, n⟩ ms =
      ([], ⟨⟨List.replicate bs 0, 0⟩, out ++ List.replicate ms.length (List.replicate bs 0), n + ms.length⟩) := by
    intro ms
    induction ms with
    | nil => intro out n; simp [Writer.puts]
    | cons m ms ih =>
      intro out n
      have hp : ∀ m, Box.put K ser ⟨List.replicate bs 0, 0⟩ m = none := by
        intro m
        unfold Box.put
        rw [if_neg (by simp [Box.is_space_for]; omega)]
      simp only [Writer.puts, Writer.put, hp, Writer.flush, Box.clear, hok, if_true]
      rw [ih]
      simp [List.replicate_succ, Nat.add_comm, Nat.add_left_comm]
  have := gen ms [] 0
  simpa [Writer.init, Box.clear] using this

example : (2 : Nat) < 5 := by decide

end Verif.ShmQueue
