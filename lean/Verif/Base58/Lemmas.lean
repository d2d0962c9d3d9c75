import Verif.Base58.Model
import Verif.Base58.Spec
set_option linter.unusedSimpArgs false
set_option linter.unusedVariables false

namespace Verif.Base58
open Spec

/-! ### Positional numbers -/

theorem ofDigits_foldl (b : Nat) (ds : List Nat) (a : Nat) :
    ds.foldl (fun a d => a * b + d) a = a * b ^ ds.length + ofDigits b ds := by
  unfold ofDigits
  induction ds generalizing a with
  | nil => simp
  | cons d ds ih =>
    simp only [List.foldl_cons, List.length_cons]
    rw [ih, ih (0 * b + d), Nat.pow_succ]
    simp only [Nat.zero_mul, Nat.zero_add, Nat.add_mul]
    rw [Nat.mul_assoc, Nat.mul_comm b, Nat.add_assoc]

@[simp] theorem ofDigits_nil (b : Nat) : ofDigits b [] = 0 := rfl

theorem ofDigits_cons (b d : Nat) (ds : List Nat) :
    ofDigits b (d :: ds) = d * b ^ ds.length + ofDigits b ds := by
  have := ofDigits_foldl b ds (0 * b + d)
  simpa [ofDigits] using this

theorem ofDigits_lt {b : Nat} {ds : List Nat} (h : ∀ d ∈ ds, d < b) : ofDigits b ds < b ^ ds.length := by
  induction ds with
  | nil => simp
  | cons d ds ih =>
    rw [ofDigits_cons, List.length_cons, Nat.pow_succ]
    have h1 := ih (fun x hx => h x (by simp [hx]))
    have h2 : d < b := h d (by simp)
    calc d * b ^ ds.length + ofDigits b ds < d * b ^ ds.length + b ^ ds.length := by omega
      _ = (d + 1) * b ^ ds.length := by rw [Nat.add_mul, Nat.one_mul]
      _ ≤ b * b ^ ds.length := Nat.mul_le_mul_right _ h2
      _ = b ^ ds.length * b := Nat.mul_comm _ _

theorem ofDigits_inj_len {b : Nat} : ∀ {x y : List Nat}, (∀ d ∈ x, d < b) → (∀ d ∈ y, d < b) →
    x.length = y.length → ofDigits b x = ofDigits b y → x = y := by
  intro x
  induction x with
  | nil => intro y _ _ h _; exact (List.eq_nil_of_length_eq_zero (by simpa using h.symm)).symm
  | cons d x ih =>
    intro y hx hy hl hv
    cases y with
    | nil => simp at hl
    | cons e y =>
      simp only [List.length_cons, Nat.add_right_cancel_iff] at hl
      rw [ofDigits_cons, ofDigits_cons, hl] at hv
      have h1 := ofDigits_lt (fun z hz => hx z (List.mem_cons_of_mem _ hz))
      have h2 := ofDigits_lt (fun z hz => hy z (List.mem_cons_of_mem _ hz))
      rw [hl] at h1
      have hpos : 0 < b ^ y.length := by omega
      have hde : d = e := by
        have e1 := Nat.add_mul_div_right (ofDigits b x) d hpos
        have e2 := Nat.add_mul_div_right (ofDigits b y) e hpos
        rw [Nat.div_eq_of_lt h1] at e1
        rw [Nat.div_eq_of_lt h2] at e2
        rw [Nat.add_comm, hv, Nat.add_comm] at e1
        omega
      subst hde
      rw [ih (fun z hz => hx z (List.mem_cons_of_mem _ hz)) (fun z hz => hy z (List.mem_cons_of_mem _ hz)) hl
        (by omega)]

theorem numeral_lower {b : Nat} {d : Nat} {ds : List Nat} (hd : d ≠ 0) : b ^ ds.length ≤ ofDigits b (d :: ds) := by
  rw [ofDigits_cons]
  have : 1 * b ^ ds.length ≤ d * b ^ ds.length := Nat.mul_le_mul_right _ (by omega)
  omega

theorem numeral_length {b : Nat} (hb : 1 < b) {x y : List Nat} {n : Nat} (hx : Numeral b x n) (hy : Numeral b y n) :
    x.length ≤ y.length := by
  cases x with
  | nil => simp
  | cons d x =>
    have hd : d ≠ 0 := by have := hx.lead; simpa using this
    have h1 := numeral_lower (b := b) (ds := x) hd
    have h2 := ofDigits_lt hy.digits
    rw [hx.value] at h1
    rw [hy.value] at h2
    have := (Nat.pow_lt_pow_iff_right hb).mp (Nat.lt_of_le_of_lt h1 h2)
    simp only [List.length_cons]; omega

theorem numeral_unique {b : Nat} (hb : 1 < b) {x y : List Nat} {n : Nat} (hx : Numeral b x n) (hy : Numeral b y n) :
    x = y :=
  ofDigits_inj_len hx.digits hy.digits
    (Nat.le_antisymm (numeral_length hb hx hy) (numeral_length hb hy hx)) (hx.value.trans hy.value.symm)

theorem ofDigits_dropZeros (b : Nat) (ds : List Nat) : ofDigits b (ds.dropWhile (· == 0)) = ofDigits b ds := by
  induction ds with
  | nil => rfl
  | cons d ds ih =>
    rw [List.dropWhile_cons]
    split
    · rename_i h
      have : d = 0 := by simpa using h
      rw [ih, ofDigits_cons, this]; simp
    · rfl

theorem numeral_dropZeros {b : Nat} {ds : List Nat} {n : Nat} (hd : ∀ d ∈ ds, d < b) (hv : ofDigits b ds = n) :
    Numeral b (ds.dropWhile (· == 0)) n where
  digits := fun d h => hd d ((List.dropWhile_sublist _).mem h)
  lead := by
    intro h
    have := List.head?_dropWhile_not (fun (x : Nat) => x == 0) ds
    rw [h] at this
    simp at this
  value := by rw [ofDigits_dropZeros, hv]

/-! ### The multiply-and-add loops -/

/-- Value of a byte list in base `b`. -/
def bval (b : Nat) (l : List UInt8) : Nat := ofDigits b (l.map UInt8.toNat)

theorem bval_cons (b : Nat) (d : UInt8) (l : List UInt8) : bval b (d :: l) = d.toNat * b ^ l.length + bval b l := by
  simp [bval, ofDigits_cons]

def mstep (b m : Nat) (d : UInt8) (p : List UInt8 × Nat) : List UInt8 × Nat :=
  (UInt8.ofNat ((p.2 + m * d.toNat) % b) :: p.1, (p.2 + m * d.toNat) / b)

def mulAdd (b m : Nat) (l : List UInt8) (c : Nat) : List UInt8 × Nat := l.foldr (mstep b m) ([], c)

theorem foldr_mstep (b m : Nat) (l acc : List UInt8) (c : Nat) :
    l.foldr (mstep b m) (acc, c) = ((mulAdd b m l c).1 ++ acc, (mulAdd b m l c).2) := by
  unfold mulAdd
  induction l with
  | nil => rfl
  | cons d l ih => simp only [List.foldr_cons, ih, mstep, List.cons_append]

theorem mulAdd_snoc (b m : Nat) (l : List UInt8) (d : UInt8) (c : Nat) :
    mulAdd b m (l ++ [d]) c =
      ((mulAdd b m l ((c + m * d.toNat) / b)).1 ++ [UInt8.ofNat ((c + m * d.toNat) % b)],
       (mulAdd b m l ((c + m * d.toNat) / b)).2) := by
  rw [mulAdd, List.foldr_append]
  simp only [List.foldr_cons, List.foldr_nil, mstep]
  rw [foldr_mstep]

theorem mulAdd_length (b m : Nat) (l : List UInt8) (c : Nat) : (mulAdd b m l c).1.length = l.length := by
  unfold mulAdd
  induction l with
  | nil => rfl
  | cons d l ih => simp [mstep, ih]

theorem mulAdd_digits {b m : Nat} (hb : 0 < b) (hb2 : b ≤ 256) (l : List UInt8) (c : Nat) :
    ∀ d ∈ (mulAdd b m l c).1, d.toNat < b := by
  unfold mulAdd
  induction l with
  | nil => simp
  | cons d l ih =>
    intro x hx
    simp only [List.foldr_cons, mstep, List.mem_cons] at hx
    rcases hx with rfl | hx
    · rw [UInt8.toNat_ofNat']
      have := Nat.mod_lt ((List.foldr (mstep b m) ([], c) l).2 + m * d.toNat) hb
      omega
    · exact ih x hx

theorem mulAdd_value {b m : Nat} (hb : 0 < b) (hb2 : b ≤ 256) (l : List UInt8) (c : Nat) :
    bval b (mulAdd b m l c).1 + (mulAdd b m l c).2 * b ^ l.length = m * bval b l + c := by
  unfold mulAdd
  induction l with
  | nil => simp [bval]
  | cons d l ih =>
    simp only [List.foldr_cons, mstep]
    generalize hr : List.foldr (mstep b m) ([], c) l = r at ih
    have hl : r.1.length = l.length := by rw [← hr]; exact mulAdd_length b m l c
    rw [bval_cons, bval_cons, hl, List.length_cons]
    have h1 : (UInt8.ofNat ((r.2 + m * d.toNat) % b)).toNat = (r.2 + m * d.toNat) % b := by
      rw [UInt8.toNat_ofNat']
      have := Nat.mod_lt (r.2 + m * d.toNat) hb
      omega
    rw [h1]
    have h2 := Nat.div_add_mod (r.2 + m * d.toNat) b
    generalize (r.2 + m * d.toNat) / b = q at *
    generalize (r.2 + m * d.toNat) % b = s at *
    rw [Nat.pow_succ]
    generalize b ^ l.length = B at *
    have : s * B + (b * q) * B = (r.2 + m * d.toNat) * B := by rw [← h2, Nat.add_mul]; omega
    have e1 : q * (B * b) = (b * q) * B := by
      rw [Nat.mul_comm b q, Nat.mul_assoc, Nat.mul_comm b B]
    have e2 : (r.2 + m * d.toNat) * B = r.2 * B + m * (d.toNat * B) := by rw [Nat.add_mul, Nat.mul_assoc]
    rw [e1, Nat.mul_add]
    omega

theorem take_succ_snoc {buf : Buf} {i : Nat} (h : i < buf.length) : buf.take (i + 1) = buf.take i ++ [buf[i]] := by
  rw [List.take_succ_eq_append_getElem h]

theorem encInner_eq : ∀ (k : Nat) (buf : Buf) (c : Nat), k ≤ buf.length →
    encInner buf k c = if (mulAdd 58 256 (buf.take k) c).2 ≠ 0 then .ub
      else .ok ((mulAdd 58 256 (buf.take k) c).1 ++ buf.drop k) := by
  intro k
  induction k with
  | zero => intro buf c _; simp [encInner, mulAdd]
  | succ i ih =>
    intro buf c h
    rw [encInner, rd_eq (by omega), take_succ_snoc (by omega), mulAdd_snoc]
    simp only [Res.ok_bind, wr, show i < buf.length by omega, if_true]
    rw [ih _ _ (by simp; omega)]
    rw [List.take_set_of_le (by omega), List.drop_set]
    simp only [Nat.lt_irrefl, if_false, Nat.sub_self]
    have hd : ∀ v, (buf.drop i).set 0 v = v :: buf.drop (i + 1) := by
      intro v; rw [List.drop_eq_getElem_cons (by omega)]; rfl
    simp [hd]

theorem decInner_eq : ∀ (k : Nat) (buf : Buf) (c : Nat), k ≤ buf.length →
    decInner buf k c = .ok ((mulAdd 256 58 (buf.take k) c).1 ++ buf.drop k, (mulAdd 256 58 (buf.take k) c).2) := by
  intro k
  induction k with
  | zero => intro buf c _; simp [decInner, mulAdd]
  | succ i ih =>
    intro buf c h
    rw [decInner, rd_eq (by omega), take_succ_snoc (by omega), mulAdd_snoc]
    simp only [Res.ok_bind, wr, show i < buf.length by omega, if_true]
    rw [ih _ _ (by simp; omega)]
    rw [List.take_set_of_le (by omega), List.drop_set]
    simp only [Nat.lt_irrefl, if_false, Nat.sub_self]
    have hd : ∀ v, (buf.drop i).set 0 v = v :: buf.drop (i + 1) := by
      intro v; rw [List.drop_eq_getElem_cons (by omega)]; rfl
    simp [hd]

theorem startIdx_eq {n : Nat} (h : n ≤ 2147483648) : startIdx n = n := by simp [startIdx, h]

theorem bval_snoc_foldl (b : Nat) (l : List UInt8) (c : UInt8) : bval b (l ++ [c]) = bval b l * b + c.toNat := by
  simp [bval, ofDigits, List.foldl_append]

theorem encMain_spec (L : Nat) (hL : L ≤ 2147483648) :
    ∀ (data pre post buf : Buf), buf.length = L → (∀ d ∈ buf, d.toNat < 58) →
      bval 58 buf * 256 ^ data.length + bval 256 data < 58 ^ L →
      ∃ buf', encMain (pre ++ (data ++ post)) pre.length data.length buf L = .ok buf' ∧ buf'.length = L ∧
        (∀ d ∈ buf', d.toNat < 58) ∧ bval 58 buf' = bval 58 buf * 256 ^ data.length + bval 256 data := by
  intro data
  induction data with
  | nil => intro pre post buf h1 h2 _; exact ⟨buf, by simp [encMain], h1, h2, by simp [bval]⟩
  | cons c data ih =>
    intro pre post buf h1 h2 h3
    rw [List.length_cons, encMain, List.cons_append, rd_append_zero, rd_cons_zero]
    simp only [Res.ok_bind]
    rw [startIdx_eq hL, encInner_eq _ _ _ (by omega)]
    rw [List.take_of_length_le (by omega), List.drop_of_length_le (by omega)]
    have hv := mulAdd_value (b := 58) (m := 256) (by omega) (by omega) buf c.toNat
    have hl := mulAdd_length 58 256 buf c.toNat
    have hd := mulAdd_digits (b := 58) (m := 256) (by omega) (by omega) buf c.toNat
    generalize mulAdd 58 256 buf c.toNat = r at *
    have e1 : bval 58 buf * 256 ^ (data.length + 1) + (c.toNat * 256 ^ data.length + bval 256 data)
        = (256 * bval 58 buf + c.toNat) * 256 ^ data.length + bval 256 data := by
      rw [Nat.pow_succ, Nat.add_mul, Nat.mul_comm (256 ^ data.length) 256, ← Nat.mul_assoc,
        Nat.mul_comm _ 256]
      omega
    rw [bval_cons, List.length_cons, e1] at h3
    have hlt : 256 * bval 58 buf + c.toNat < 58 ^ L := by
      have : (256 * bval 58 buf + c.toNat) * 1 ≤ (256 * bval 58 buf + c.toNat) * 256 ^ data.length :=
        Nat.mul_le_mul_left _ (Nat.pos_of_ne_zero (by simp))
      omega
    have hr2 : r.2 = 0 := by
      rcases Nat.eq_zero_or_pos r.2 with h | h
      · exact h
      · have : 1 * 58 ^ buf.length ≤ r.2 * 58 ^ buf.length := Nat.mul_le_mul_right _ h
        rw [h1] at this hv
        omega
    have hval : bval 58 r.1 = 256 * bval 58 buf + c.toNat := by rw [hr2] at hv; omega
    simp only [hr2, ne_eq, not_true_eq_false, if_false, List.append_nil, Res.ok_bind]
    obtain ⟨buf', g1, g2, g3, g4⟩ := ih (pre ++ [c]) post r.1 (by omega) hd (by rw [hval]; exact h3)
    refine ⟨buf', ?_, g2, g3, ?_⟩
    · simpa using g1
    · rw [g4, hval, bval_cons, ← e1]

theorem skipZeros_spec : ∀ (l pre : Buf),
    skipZeros (pre ++ l) pre.length l.length
      = .ok (pre.length + (l.takeWhile (· == 0)).length, (l.dropWhile (· == 0)).length) := by
  intro l
  induction l with
  | nil => intro pre; simp [skipZeros]
  | cons d l ih =>
    intro pre
    rw [List.length_cons, skipZeros, rd_append_zero, rd_cons_zero, Res.ok_bind]
    by_cases h : d = 0
    · subst h
      have := ih (pre ++ [0])
      simp at this
      simp [this, Nat.add_assoc, Nat.add_comm 1]
    · simp [h]

theorem encWrite_spec (hstr : ∀ n, n < 58 → rd b58str n = .ok (chr58 n)) :
    ∀ (l pre out : Buf) (o outlen : Nat), (∀ d ∈ l, d.toNat < 58) → o + outlen ≤ out.length →
    encWrite (pre ++ l) pre.length l.length out o outlen
      = .ok (let t := (l.map (fun d => chr58 d.toNat)).take outlen
             (patch out o t, o + t.length, outlen - t.length)) := by
  intro l
  induction l with
  | nil => intro pre out o outlen _ _; simp [encWrite]
  | cons d l ih =>
    intro pre out o outlen hd ho
    rw [List.length_cons, encWrite]
    rcases outlen with _ | outlen
    · simp
    · rw [rd_append_zero, rd_cons_zero]
      simp only [Nat.add_one_ne_zero, if_false, Res.ok_bind, hstr _ (hd d (by simp))]
      rw [wr_eq (by omega)]
      have := ih (pre ++ [d]) (patch out o [chr58 d.toNat]) (o + 1) outlen
        (fun x hx => hd x (by simp [hx])) (by rw [patch_length (by simp; omega)]; omega)
      simp only [List.append_assoc, List.cons_append, List.nil_append, List.length_append, List.length_cons,
        List.length_nil] at this
      simp only [Res.ok_bind, Nat.add_sub_cancel]
      rw [this]
      have hp := patch_patch (b := out) (o := o) (e := [chr58 d.toNat])
        (f := (l.map (fun d => chr58 d.toNat)).take outlen) (by simp; omega)
      simp only [List.length_cons, List.length_nil, Nat.zero_add] at hp
      simp only [hp]
      simp
      omega

theorem encZeros_spec : ∀ (data pre post out : Buf) (o outlen : Nat), o + outlen ≤ out.length →
    encZeros (pre ++ (data ++ post)) pre.length data.length out o outlen
      = .ok (let z := min (data.takeWhile (· == 0)).length outlen
             (pre.length + z, data.length - z, patch out o (List.replicate z 49), o + z, outlen - z)) := by
  intro data
  induction data with
  | nil => intro pre post out o outlen _; simp [encZeros]
  | cons c data ih =>
    intro pre post out o outlen ho
    rw [List.length_cons, encZeros, List.cons_append, rd_append_zero, rd_cons_zero]
    rcases outlen with _ | outlen
    · simp
    · simp only [Nat.add_one_ne_zero, if_false, Res.ok_bind]
      by_cases h : c = 0
      · subst h
        rw [wr_eq (by omega)]
        have := ih (pre ++ [0]) post (patch out o [49]) (o + 1) outlen (by rw [patch_length (by simp; omega)]; omega)
        simp only [List.append_assoc, List.cons_append, List.nil_append, List.length_append, List.length_cons,
          List.length_nil, Nat.zero_add] at this
        simp only [Res.ok_bind, Nat.add_sub_cancel, ne_eq, not_true_eq_false, if_false]
        rw [this]
        have hp := patch_patch (b := out) (o := o) (e := [49])
          (f := List.replicate (min (data.takeWhile (· == 0)).length outlen) 49) (by simp; omega)
        simp only [List.length_cons, List.length_nil, Nat.zero_add] at hp
        simp only [hp]
        simp only [List.takeWhile_cons, BEq.rfl, if_true, List.length_cons, Nat.add_min_add_right, List.replicate_succ,
          List.singleton_append]
        generalize min (data.takeWhile (· == 0)).length outlen = z
        simp only [Res.ok.injEq, Prod.mk.injEq, and_true, true_and]
        omega
      · simp [h]

/-! ### Size estimates -/

theorem pow_bound_enc (n : Nat) : 256 ^ n ≤ 58 ^ (n * 138 / 100 + 1) := by
  have h50 : (256 : Nat) ^ 50 ≤ 58 ^ 69 := by decide +kernel
  have hr : ∀ r, r < 50 → 256 ^ r ≤ 58 ^ (r * 138 / 100 + 1) := by decide +kernel
  have hn := Nat.div_add_mod n 50
  have hlt := Nat.mod_lt n (show 50 > 0 by omega)
  generalize n / 50 = q at *
  generalize n % 50 = r at *
  subst hn
  have e : (50 * q + r) * 138 / 100 + 1 = 69 * q + (r * 138 / 100 + 1) := by omega
  rw [e, Nat.pow_add, Nat.pow_add, Nat.pow_mul, Nat.pow_mul]
  exact Nat.mul_le_mul (Nat.pow_le_pow_left h50 q) (hr r hlt)

theorem pow_bound_dec (n : Nat) : 58 ^ n ≤ 256 ^ (n * 733 / 1000 + 1) := by
  have h50 : (58 : Nat) ^ 1000 ≤ 256 ^ 733 := by decide +kernel
  have hr : ∀ r, r < 1000 → 58 ^ r ≤ 256 ^ (r * 733 / 1000 + 1) := by decide +kernel
  have hn := Nat.div_add_mod n 1000
  have hlt := Nat.mod_lt n (show 1000 > 0 by omega)
  generalize n / 1000 = q at *
  generalize n % 1000 = r at *
  subst hn
  have e : (1000 * q + r) * 733 / 1000 + 1 = 733 * q + (r * 733 / 1000 + 1) := by omega
  rw [e, Nat.pow_add, Nat.pow_add, Nat.pow_mul, Nat.pow_mul]
  exact Nat.mul_le_mul (Nat.pow_le_pow_left h50 q) (hr r hlt)

/-! ### Texts -/

theorem exists_numeral {b : Nat} (hb : 1 < b) (n : Nat) : ∃ ds, Numeral b ds n := by
  induction n using Nat.strongRecOn with
  | ind n ih =>
    rcases Nat.eq_zero_or_pos n with rfl | hn
    · exact ⟨[], by simp, by simp, rfl⟩
    · obtain ⟨ds, h1, h2, h3⟩ := ih (n / b) (Nat.div_lt_self hn hb)
      refine ⟨ds ++ [n % b], ?_, ?_, ?_⟩
      · intro d hd
        rcases List.mem_append.mp hd with h | h
        · exact h1 d h
        · simp at h; subst h; exact Nat.mod_lt _ (by omega)
      · cases ds with
        | nil =>
          have : n / b = 0 := by rw [← h3]; rfl
          have h4 := Nat.div_add_mod n b
          rw [this, Nat.mul_zero] at h4
          simp; omega
        | cons d ds => simpa using h2
      · have : ofDigits b (ds ++ [n % b]) = ofDigits b ds * b + n % b := by
          simp [ofDigits, List.foldl_append]
        rw [this, h3, Nat.mul_comm]
        exact Nat.div_add_mod n b

theorem exists_text (data : List UInt8) : ∃ t, Text data t := by
  obtain ⟨ds, h⟩ := exists_numeral (b := 58) (by omega)
    (ofDigits 256 ((data.dropWhile (· == 0)).map UInt8.toNat))
  refine ⟨_, (data.takeWhile (· == 0)).length, data.dropWhile (· == 0), ds, ?_, ?_, rfl, h⟩
  · have h1 := (List.takeWhile_append_dropWhile (p := (· == (0 : UInt8))) (l := data)).symm
    have h2 : data.takeWhile (· == 0) = List.replicate (data.takeWhile (· == 0)).length 0 := by
      rw [List.eq_replicate_iff]
      refine ⟨rfl, fun b hb => ?_⟩
      have := List.all_takeWhile (p := (· == (0 : UInt8))) (l := data)
      rw [List.all_eq_true] at this
      simpa using this b hb
    rw [← h2]; exact h1
  · intro h
    have := List.head?_dropWhile_not (fun (x : UInt8) => x == 0) data
    rw [h] at this
    simp at this

theorem takeWhile_replicate_append {z : UInt8} {n : Nat} {l : List UInt8} (h : l.head? ≠ some z) :
    (List.replicate n z ++ l).takeWhile (· == z) = List.replicate n z ∧
    (List.replicate n z ++ l).dropWhile (· == z) = l := by
  induction n with
  | zero =>
    cases l with
    | nil => simp
    | cons a l =>
      have : a ≠ z := by simpa using h
      simp [this]
  | succ n ih => simp [List.replicate_succ, ih]

theorem map_dropWhile_zero (l : List UInt8) :
    (l.map UInt8.toNat).dropWhile (· == 0) = (l.dropWhile (· == 0)).map UInt8.toNat := by
  induction l with
  | nil => rfl
  | cons a l ih =>
    have : (a.toNat == 0) = (a == 0) := by
      rw [Bool.eq_iff_iff]; simp [← UInt8.toNat_inj]
    simp only [List.map_cons, List.dropWhile_cons, this]
    split
    · exact ih
    · rfl

theorem bval_lt (l : List UInt8) : bval 256 l < 256 ^ l.length := by
  have := ofDigits_lt (b := 256) (ds := l.map UInt8.toNat) (by
    intro d hd
    obtain ⟨a, _, rfl⟩ := List.mem_map.mp hd
    exact a.toNat_lt)
  simpa [bval] using this

theorem bval_replicate_zero (b n : Nat) : bval b (List.replicate n 0) = 0 := by
  induction n with
  | zero => rfl
  | succ n ih => rw [List.replicate_succ, bval_cons, ih]; simp

theorem str58 : ∀ n, n < 58 → rd b58str n = .ok (chr58 n) := by decide +kernel

theorem b58Len_eq {m : Nat} (h : m * 138 / 100 + 1 < 2 ^ 31) : b58Len m = m * 138 / 100 + 1 := by
  unfold b58Len
  rw [Nat.mod_eq_of_lt (a := m * 138) (by omega), Nat.mod_eq_of_lt (by omega)]

/-- Scratch buffer after the main loop on `rest`: its non-zero part is the numeral. -/
theorem scratch {rest : List UInt8} {ds : List Nat} (hn : Numeral 58 ds (bval 256 rest)) (buf : Buf)
    (hd : ∀ d ∈ buf, d.toNat < 58) (hv : bval 58 buf = bval 256 rest) :
    (buf.dropWhile (· == 0)).map UInt8.toNat = ds := by
  have := numeral_dropZeros (b := 58) (ds := buf.map UInt8.toNat) (n := bval 256 rest)
    (by intro d h; obtain ⟨a, ha, rfl⟩ := List.mem_map.mp h; exact hd a ha) hv
  rw [map_dropWhile_zero] at this
  exact numeral_unique (by omega) this hn

theorem encode_spec (data t out : Buf) (outlen : Nat) (ht : Text data t)
    (hsz : data.length * 138 / 100 + 1 < 2 ^ 31) (ho : outlen ≤ out.length) :
    coda_base58_encode true data data.length out outlen
      = .ok (if outlen ≤ t.length then t.take outlen ++ out.drop outlen
             else t ++ [0] ++ out.drop (t.length + 1)) := by
  obtain ⟨z, body, ds, rfl, hbody, rfl, hn⟩ := ht
  obtain ⟨tw, dw⟩ := takeWhile_replicate_append (n := z) hbody
  have h1 := encZeros_spec (List.replicate z 0 ++ body) [] [] out 0 outlen (by omega)
  simp only [List.nil_append, List.append_nil, List.length_nil, tw, List.length_replicate, Nat.zero_add] at h1
  unfold coda_base58_encode
  rw [h1]
  simp only [Res.ok_bind, Bool.true_eq_false, if_false]
  generalize hk : min z outlen = k
  have hrest : List.replicate z 0 ++ body = List.replicate k 0 ++ (List.replicate (z - k) 0 ++ body) := by
    rw [← List.append_assoc, List.replicate_append_replicate, show k + (z - k) = z by omega]
  generalize hrs : List.replicate (z - k) 0 ++ body = rest at hrest
  have hrl : (List.replicate z 0 ++ body).length - k = rest.length := by
    rw [hrest]; simp
  rw [hrl]
  have hle : rest.length ≤ (List.replicate z 0 ++ body).length := by omega
  have hsz' : rest.length * 138 / 100 + 1 < 2 ^ 31 := by omega
  have hbv : bval 256 rest = bval 256 body := by
    rw [← hrs]
    generalize z - k = j
    induction j with
    | zero => rfl
    | succ j ih => rw [List.replicate_succ, List.cons_append, bval_cons, ih]; simp
  rw [b58Len_eq hsz']
  obtain ⟨buf, g1, g2, g3, g4⟩ := encMain_spec (rest.length * 138 / 100 + 1) (by omega) rest
    (List.replicate k 0) [] (List.replicate (rest.length * 138 / 100 + 1) 0) (by simp)
    (by intro d hd; rw [(List.mem_replicate.mp hd).2]; decide)
    (by
      rw [bval_replicate_zero]
      have := bval_lt rest
      have := pow_bound_enc rest.length
      omega)
  rw [List.append_nil, ← hrest, List.length_replicate] at g1
  rw [g1]
  simp only [Res.ok_bind]
  have hs := skipZeros_spec buf []
  simp only [List.nil_append, List.length_nil, Nat.zero_add, g2] at hs
  rw [hs]
  simp only [Res.ok_bind]
  have hsplit := (List.takeWhile_append_dropWhile (p := (· == (0 : UInt8))) (l := buf)).symm
  have hsc := scratch (rest := body) hn buf g3 (by rw [g4, bval_replicate_zero, hbv]; simp)
  have hw := encWrite_spec str58 (buf.dropWhile (· == 0)) (buf.takeWhile (· == 0))
    (patch out 0 (List.replicate k 49)) k (outlen - k)
    (fun d hd => g3 d ((List.dropWhile_sublist _).mem hd))
    (by rw [patch_length (by simp; omega)]; omega)
  rw [← hsplit] at hw
  rw [hw]
  have hmap : (buf.dropWhile (· == 0)).map (fun d => chr58 d.toNat) = ds.map chr58 := by
    rw [← hsc, List.map_map]; rfl
  rw [hmap]
  simp only [Res.ok_bind]
  have hp := patch_patch (b := out) (o := 0) (e := List.replicate k 49)
    (f := (ds.map chr58).take (outlen - k)) (by simp; omega)
  rw [List.length_replicate, Nat.zero_add] at hp
  rw [hp]
  have htake : List.replicate k 49 ++ (ds.map chr58).take (outlen - k)
      = (List.replicate z (UInt8.ofNat '1'.toNat) ++ ds.map chr58).take outlen := by
    rw [List.take_append, List.take_replicate, List.length_replicate, Nat.min_comm, hk]
    rcases Nat.le_total z outlen with h | h
    · rw [show k = z by omega]; rfl
    · rw [show k = outlen by omega, Nat.sub_self, Nat.sub_eq_zero_of_le h]; rfl
  rw [htake]
  generalize hT : List.replicate z (UInt8.ofNat '1'.toNat) ++ ds.map chr58 = T at *
  have hlen : k + ((ds.map chr58).take (outlen - k)).length = min outlen T.length := by
    have := congrArg List.length htake
    simpa using this
  have hlen2 : outlen - k - ((ds.map chr58).take (outlen - k)).length = outlen - min outlen T.length := by omega
  rw [hlen, hlen2]
  by_cases hc : outlen ≤ T.length
  · rw [Nat.min_eq_left hc]; simp [hc, patch, Nat.min_eq_left hc]
  · have hne : outlen - min outlen T.length ≠ 0 := by omega
    simp only [hne, ne_eq, not_false_eq_true, if_true, hc, if_false]
    rw [List.take_of_length_le (by omega), show min outlen T.length = T.length by omega,
      wr_patch (by simp) (by omega)]
    simp [patch]

/-! ### Decoder -/

theorem tab_chr : ∀ n, n < 58 → tab (chr58 n) = .ok (n : Int) ∧ coda_isbase58 (chr58 n) = .ok true := by
  decide +kernel

theorem isbase58_iff (c : UInt8) : ∃ r, coda_isbase58 c = .ok r ∧ (r = true ↔ Alpha c) := by
  have key : ∀ c : Fin 256, coda_isbase58 (UInt8.ofNat c.val)
      = .ok ((List.range 58).any (fun n => UInt8.ofNat c.val == chr58 n)) := by decide +kernel
  have := key ⟨c.toNat, c.toNat_lt⟩
  simp only [UInt8.ofNat_toNat] at this
  exact ⟨_, this, by simp [Alpha, List.any_eq_true]⟩

theorem not_alpha {c : UInt8} (h : ¬ Alpha c) : coda_isbase58 c = .ok false := by
  obtain ⟨r, h1, h2⟩ := isbase58_iff c
  cases r with
  | false => exact h1
  | true => exact absurd (h2.mp rfl) h

/-- Where the decoder's loop stops: at the end or at a non-alphabet character. -/
def Stop (tail : List UInt8) : Prop := ∀ c, tail.head? = some c → ¬ Alpha c

theorem decMain_spec (L : Nat) (hL : L ≤ 2147483648) (tail : List UInt8) (htail : Stop tail) :
    ∀ (ds : List Nat) (pre buf : Buf), (∀ d ∈ ds, d < 58) → buf.length = L →
      bval 256 buf * 58 ^ ds.length + ofDigits 58 ds < 256 ^ L →
      ∃ buf', decMain (pre ++ (ds.map chr58 ++ tail)) pre.length (ds.length + tail.length) buf L
          = .ok (.done buf' tail.length) ∧ buf'.length = L ∧
        bval 256 buf' = bval 256 buf * 58 ^ ds.length + ofDigits 58 ds := by
  intro ds
  induction ds with
  | nil =>
    intro pre buf _ h1 _
    refine ⟨buf, ?_, h1, by simp⟩
    cases tail with
    | nil => simp [decMain]
    | cons c tail =>
      have := htail c rfl
      simp [decMain, rd_append_zero, not_alpha this]
  | cons d ds ih =>
    intro pre buf hd h1 h3
    have hd58 := hd d (by simp)
    obtain ⟨t1, t2⟩ := tab_chr d hd58
    rw [List.length_cons, Nat.add_right_comm, decMain, List.map_cons, List.cons_append, rd_append_zero, rd_cons_zero]
    simp only [Res.ok_bind, t1, t2, Bool.true_eq_false, if_false, Int.toNat_natCast]
    rw [startIdx_eq hL, decInner_eq _ _ _ (by omega)]
    rw [List.take_of_length_le (by omega), List.drop_of_length_le (by omega)]
    have hv := mulAdd_value (b := 256) (m := 58) (by omega) (by omega) buf d
    have hl := mulAdd_length 256 58 buf d
    generalize mulAdd 256 58 buf d = r at *
    have e1 : bval 256 buf * 58 ^ (ds.length + 1) + (d * 58 ^ ds.length + ofDigits 58 ds)
        = (58 * bval 256 buf + d) * 58 ^ ds.length + ofDigits 58 ds := by
      rw [Nat.pow_succ, Nat.add_mul, Nat.mul_comm (58 ^ ds.length) 58, ← Nat.mul_assoc, Nat.mul_comm _ 58]
      omega
    rw [ofDigits_cons, List.length_cons, e1] at h3
    have hlt : 58 * bval 256 buf + d < 256 ^ L := by
      have : (58 * bval 256 buf + d) * 1 ≤ (58 * bval 256 buf + d) * 58 ^ ds.length :=
        Nat.mul_le_mul_left _ (Nat.pos_of_ne_zero (by simp))
      omega
    have hr2 : r.2 = 0 := by
      rcases Nat.eq_zero_or_pos r.2 with h | h
      · exact h
      · have : 1 * 256 ^ buf.length ≤ r.2 * 256 ^ buf.length := Nat.mul_le_mul_right _ h
        rw [h1] at this hv
        omega
    have hval : bval 256 r.1 = 58 * bval 256 buf + d := by rw [hr2] at hv; omega
    simp only [hr2, ne_eq, not_true_eq_false, if_false, List.append_nil, Res.ok_bind]
    obtain ⟨buf', g1, g2, g4⟩ := ih (pre ++ [chr58 d]) r.1 (fun x hx => hd x (by simp [hx])) (by omega)
      (by rw [hval]; exact h3)
    refine ⟨buf', ?_, g2, ?_⟩
    · simpa using g1
    · rw [g4, hval, ofDigits_cons, ← e1]

theorem decOnes_spec : ∀ (data pre post out : Buf) (o : Nat),
    o + (data.takeWhile (· == 49)).length ≤ out.length →
    decOnes (pre ++ (data ++ post)) pre.length data.length out o
      = .ok (let z := (data.takeWhile (· == 49)).length
             (pre.length + z, data.length - z, patch out o (List.replicate z 0), o + z)) := by
  intro data
  induction data with
  | nil => intro pre post out o _; simp [decOnes]
  | cons c data ih =>
    intro pre post out o ho
    rw [List.length_cons, decOnes, List.cons_append, rd_append_zero, rd_cons_zero]
    simp only [Res.ok_bind]
    by_cases h : c = 49
    · subst h
      simp only [List.takeWhile_cons, BEq.rfl, if_true, List.length_cons] at ho
      rw [wr_eq (by omega)]
      have := ih (pre ++ [49]) post (patch out o [0]) (o + 1) (by rw [patch_length (by simp; omega)]; omega)
      simp only [List.append_assoc, List.cons_append, List.nil_append, List.length_append, List.length_cons,
        List.length_nil, Nat.zero_add] at this
      simp only [Res.ok_bind, ne_eq, not_true_eq_false, if_false]
      rw [this]
      have hp := patch_patch (b := out) (o := o) (e := [0])
        (f := List.replicate (data.takeWhile (· == 49)).length 0) (by simp; omega)
      simp only [List.length_cons, List.length_nil, Nat.zero_add] at hp
      simp only [hp]
      simp only [List.takeWhile_cons, BEq.rfl, if_true, List.length_cons, List.replicate_succ, List.singleton_append]
      simp only [Res.ok.injEq, Prod.mk.injEq, and_true, true_and]
      omega
    · simp [h]

theorem decWrite_spec : ∀ (l pre out : Buf) (o : Nat), o + l.length ≤ out.length →
    decWrite (pre ++ l) pre.length l.length out o = .ok (patch out o l) := by
  intro l
  induction l with
  | nil => intro pre out o _; simp [decWrite]
  | cons d l ih =>
    intro pre out o ho
    simp only [List.length_cons] at ho
    rw [List.length_cons, decWrite, rd_append_zero, rd_cons_zero]
    simp only [Res.ok_bind]
    rw [wr_eq (by omega)]
    have := ih (pre ++ [d]) (patch out o [d]) (o + 1) (by rw [patch_length (by simp; omega)]; omega)
    simp only [List.append_assoc, List.cons_append, List.nil_append, List.length_append, List.length_cons,
      List.length_nil, Nat.zero_add] at this
    simp only [Res.ok_bind]
    rw [this]
    have hp := patch_patch (b := out) (o := o) (e := [d]) (f := l) (by simp; omega)
    simp only [List.length_cons, List.length_nil, Nat.zero_add] at hp
    rw [hp]; rfl

theorem b256Len_eq {m : Nat} (h : m * 733 / 1000 + 1 < 2 ^ 31) : b256Len m = m * 733 / 1000 + 1 := by
  unfold b256Len
  rw [Nat.mod_eq_of_lt (a := m * 733) (by omega), Nat.mod_eq_of_lt (by omega)]

theorem chr58_zero_iff : ∀ n, n < 58 → (chr58 n = 49 ↔ n = 0) := by decide +kernel

theorem chr58_inj : ∀ m, m < 58 → ∀ n, n < 58 → chr58 m = chr58 n → m = n := by
  intro m hm n hn h
  have h1 := (tab_chr m hm).1
  rw [h, (tab_chr n hn).1] at h1
  injection h1 with h1
  omega

/-- Leading '1's and the rest of a text that stops at `tail`. -/
theorem ones_split {z : Nat} {ds : List Nat} {tail : List UInt8} (hd : ∀ d ∈ ds, d < 58)
    (hl : ds.head? ≠ some 0) (htail : Stop tail) :
    ((List.replicate z 49 ++ (ds.map chr58 ++ tail)).takeWhile (· == 49)) = List.replicate z 49 := by
  apply (takeWhile_replicate_append ?_).1
  cases ds with
  | nil =>
    simp only [List.map_nil, List.nil_append]
    intro h
    exact htail 49 h ⟨0, by decide, by decide⟩
  | cons d ds =>
    simp only [List.map_cons, List.cons_append, List.head?_cons, ne_eq, Option.some.injEq]
    intro h
    have := (chr58_zero_iff d (hd d (by simp))).mp h
    exact hl (by simp [this])

theorem decode_spec (z : Nat) (ds : List Nat) (tail out : Buf) (hd : ∀ d ∈ ds, d < 58)
    (hl : ds.head? ≠ some 0) (htail : Stop tail)
    (hsz : (ds.length + tail.length) * 733 / 1000 + 1 < 2 ^ 31) (body : List UInt8)
    (hbody : Numeral 256 (body.map UInt8.toNat) (ofDigits 58 ds))
    (ho : z + (if tail = [] then body.length else 0) ≤ out.length) :
    coda_base58_decode true (List.replicate z 49 ++ (ds.map chr58 ++ tail)) (z + (ds.length + tail.length)) out
      = .ok (if tail = [] then ⟨(z + body.length : Nat), patch out 0 (List.replicate z 0 ++ body)⟩
             else ⟨-((z + ds.length : Nat) : Int), patch out 0 (List.replicate z 0)⟩) := by
  have tw := ones_split (z := z) hd hl htail
  have h1 := decOnes_spec (List.replicate z 49 ++ (ds.map chr58 ++ tail)) [] [] out 0 (by
    rw [tw]; simp; omega)
  simp only [List.nil_append, List.append_nil, List.length_nil, tw, List.length_replicate, Nat.zero_add,
    List.length_append, List.length_map, Nat.add_sub_cancel_left] at h1
  unfold coda_base58_decode
  rw [h1]
  simp only [Res.ok_bind, Bool.true_eq_false, if_false]
  rw [b256Len_eq hsz]
  have hlt : ofDigits 58 ds < 256 ^ ((ds.length + tail.length) * 733 / 1000 + 1) := by
    have a1 := ofDigits_lt hd
    have a2 := pow_bound_dec ds.length
    have a3 : 256 ^ (ds.length * 733 / 1000 + 1) ≤ 256 ^ ((ds.length + tail.length) * 733 / 1000 + 1) :=
      Nat.pow_le_pow_right (by omega) (by omega)
    omega
  obtain ⟨buf, g1, g2, g4⟩ := decMain_spec ((ds.length + tail.length) * 733 / 1000 + 1) (by omega) tail htail ds
    (List.replicate z 49) (List.replicate ((ds.length + tail.length) * 733 / 1000 + 1) 0) hd (by simp)
    (by rw [bval_replicate_zero]; simpa using hlt)
  rw [List.length_replicate] at g1
  rw [g1]
  simp only [Res.ok_bind]
  by_cases ht : tail = []
  · subst ht
    simp only [List.length_nil, ne_eq, not_true_eq_false, if_false, if_true] at *
    have hs := skipZeros_spec buf []
    simp only [List.nil_append, List.length_nil, Nat.zero_add, g2] at hs
    rw [hs]
    simp only [Res.ok_bind]
    have hb2 : buf.dropWhile (· == 0) = body := by
      have hnum := numeral_dropZeros (b := 256) (ds := buf.map UInt8.toNat) (n := ofDigits 58 ds)
        (by intro d h; obtain ⟨a, _, rfl⟩ := List.mem_map.mp h; exact a.toNat_lt)
        (by have := g4; rw [bval_replicate_zero] at this; simpa [bval] using this)
      rw [map_dropWhile_zero] at hnum
      have := numeral_unique (by omega) hnum hbody
      exact (List.map_inj_right (fun a b => UInt8.toNat_inj.mp)).mp this
    have hsplit := (List.takeWhile_append_dropWhile (p := (· == (0 : UInt8))) (l := buf)).symm
    have hw := decWrite_spec (buf.dropWhile (· == 0)) (buf.takeWhile (· == 0)) (patch out 0 (List.replicate z 0)) z
      (by rw [patch_length (by simp; omega), hb2]; exact ho)
    rw [← hsplit] at hw
    rw [hw, hb2]
    have hp := patch_patch (b := out) (o := 0) (e := List.replicate z 0) (f := body) (by simp; omega)
    rw [List.length_replicate, Nat.zero_add] at hp
    simp [hp]
  · have : tail.length ≠ 0 := by simpa using ht
    simp only [ht, ne_eq, this, not_false_eq_true, if_true, if_false]
    congr 2
    omega

/-! ### Text relation -/

theorem text_length {data t : List UInt8} (h : Text data t) :
    t.length ≤ (data.takeWhile (· == 0)).length + (data.dropWhile (· == 0)).length * 138 / 100 + 1 := by
  obtain ⟨z, body, ds, rfl, hbody, rfl, hn⟩ := h
  obtain ⟨tw, dw⟩ := takeWhile_replicate_append (n := z) hbody
  rw [tw, dw]
  simp only [List.length_append, List.length_replicate, List.length_map]
  cases ds with
  | nil => simp; omega
  | cons d ds =>
    have hd : d ≠ 0 := by have := hn.lead; simpa using this
    have h1 := numeral_lower (b := 58) (ds := ds) hd
    rw [hn.value] at h1
    have h2 := bval_lt body
    have h3 := pow_bound_enc body.length
    have : 58 ^ ds.length < 58 ^ (body.length * 138 / 100 + 1) := by
      unfold bval at h2; omega
    have := (Nat.pow_lt_pow_iff_right (by omega)).mp this
    simp only [List.length_cons]; omega

theorem text_unique {data t t' : List UInt8} (h : Text data t) (h' : Text data t') : t = t' := by
  obtain ⟨z, body, ds, rfl, hbody, rfl, hn⟩ := h
  obtain ⟨z', body', ds', heq, hbody', rfl, hn'⟩ := h'
  obtain ⟨tw, dw⟩ := takeWhile_replicate_append (n := z) hbody
  obtain ⟨tw', dw'⟩ := takeWhile_replicate_append (n := z') hbody'
  rw [heq] at tw dw
  rw [tw'] at tw
  rw [dw'] at dw
  have hz : z = z' := by have := congrArg List.length tw; simpa using this.symm
  subst hz dw
  rw [numeral_unique (by omega) hn hn']

/-- Decomposition of an arbitrary character string. -/
theorem decompose (t : List UInt8) : ∃ (z : Nat) (ds : List Nat) (tail : List UInt8),
    t = List.replicate z 49 ++ (ds.map chr58 ++ tail) ∧ (∀ d ∈ ds, d < 58) ∧ ds.head? ≠ some 0 ∧ Stop tail := by
  induction t with
  | nil => exact ⟨0, [], [], rfl, by simp, by simp, by simp [Stop]⟩
  | cons c t ih =>
    obtain ⟨z, ds, tail, rfl, h1, h2, h3⟩ := ih
    by_cases hc : Alpha c
    · obtain ⟨n, hn, rfl⟩ := hc
      by_cases h0 : n = 0
      · subst h0
        refine ⟨z + 1, ds, tail, ?_, h1, h2, h3⟩
        rw [List.replicate_succ]; rfl
      · refine ⟨0, n :: (List.replicate z 0 ++ ds), tail, ?_, ?_, by simpa using h0, h3⟩
        · have : (chr58 0) = 49 := by decide
          simp [this]
        · intro d hd
          simp only [List.mem_cons, List.mem_append, List.mem_replicate] at hd
          rcases hd with rfl | ⟨_, rfl⟩ | hd
          · exact hn
          · omega
          · exact h1 d hd
    · refine ⟨0, [], c :: (List.replicate z 49 ++ (ds.map chr58 ++ tail)), rfl, by simp, by simp, ?_⟩
      intro x hx
      simp at hx
      exact hx ▸ hc

theorem exists_bytes (n : Nat) : ∃ body : List UInt8, Numeral 256 (body.map UInt8.toNat) n := by
  obtain ⟨ds, h1, h2, h3⟩ := exists_numeral (b := 256) (by omega) n
  have e : (ds.map UInt8.ofNat).map UInt8.toNat = ds := by
    rw [List.map_map]
    conv => rhs; rw [← List.map_id ds]
    apply List.map_congr_left
    intro d hd
    simp [Nat.mod_eq_of_lt (h1 d hd)]
  exact ⟨ds.map UInt8.ofNat, by rw [e]; exact ⟨h1, h2, h3⟩⟩

theorem numeral_head {b n : Nat} {body : List UInt8} (h : Numeral b (body.map UInt8.toNat) n) :
    body.head? ≠ some 0 := by
  have := h.lead
  cases body with
  | nil => simp
  | cons a l =>
    intro h
    simp at h
    subst h
    simp at this

theorem bytes_length {ds : List Nat} {body : List UInt8} (hd : ∀ d ∈ ds, d < 58)
    (h : Numeral 256 (body.map UInt8.toNat) (ofDigits 58 ds)) : body.length ≤ ds.length * 733 / 1000 + 1 := by
  cases body with
  | nil => simp
  | cons a l =>
    have ha : a.toNat ≠ 0 := by have := h.lead; simpa using this
    have h1 := numeral_lower (b := 256) (ds := l.map UInt8.toNat) ha
    have hv := h.value
    rw [List.map_cons] at hv
    rw [hv, List.length_map] at h1
    have h2 := ofDigits_lt hd
    have h3 := pow_bound_dec ds.length
    have := (Nat.pow_lt_pow_iff_right (a := 256) (by omega)).mp
      (show 256 ^ l.length < 256 ^ (ds.length * 733 / 1000 + 1) by omega)
    simp only [List.length_cons]; omega

theorem countLead_spec (z : UInt8) : ∀ (data pre : Buf),
    countLead z (pre ++ data) pre.length data.length
      = .ok (pre.length + (data.takeWhile (· == z)).length, (data.dropWhile (· == z)).length) := by
  intro l
  induction l with
  | nil => intro pre; simp [countLead]
  | cons d l ih =>
    intro pre
    rw [List.length_cons, countLead, rd_append_zero, rd_cons_zero, Res.ok_bind]
    by_cases h : d = z
    · subst h
      have := ih (pre ++ [d])
      simp at this
      simp [this, Nat.add_assoc, Nat.add_comm 1]
    · simp [h]

end Verif.Base58
