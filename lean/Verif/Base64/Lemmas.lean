import Verif.Base64.Model
import Verif.Base64.Spec
set_option linter.unusedSimpArgs false
set_option linter.unusedVariables false

namespace Verif.Base64
open Spec

theorem toNat_lt (a : UInt8) : a.toNat < 256 := a.toNat_lt

theorem shl_add_and (a x : Nat) : ((a <<< 4) + x) &&& 0x3f = (a * 16 + x) % 64 := by
  rw [Nat.shiftLeft_eq, show (0x3f : Nat) = 2 ^ 6 - 1 by rfl, Nat.and_two_pow_sub_one_eq_mod]

theorem shl2_add_and (a x : Nat) : ((a <<< 2) + x) &&& 0x3f = (a * 4 + x) % 64 := by
  rw [Nat.shiftLeft_eq, show (0x3f : Nat) = 2 ^ 6 - 1 by rfl, Nat.and_two_pow_sub_one_eq_mod]

theorem shr_and (a : Nat) : (a >>> 2) &&& 0x3f = a / 4 % 64 := by
  rw [Nat.shiftRight_eq_div_pow, show (0x3f : Nat) = 2 ^ 6 - 1 by rfl, Nat.and_two_pow_sub_one_eq_mod]

theorem and3f (a : Nat) : a &&& 0x3f = a % 64 := by
  rw [show (0x3f : Nat) = 2 ^ 6 - 1 by rfl, Nat.and_two_pow_sub_one_eq_mod]

theorem encLoop_spec (str : Buf) (chr : Nat → UInt8) (pad : UInt8)
    (hstr : ∀ n, n < 64 → rd str n = .ok (chr n)) :
    ∀ (data pre post out : Buf) (o outlen : Nat), o + outlen ≤ out.length →
    encLoop str pad (pre ++ (data ++ post)) pre.length data.length out o outlen
      = .ok (patch out o ((text chr pad data).take outlen),
             o + ((text chr pad data).take outlen).length,
             outlen - ((text chr pad data).take outlen).length) := by
  have hs : ∀ n, rd str (n % 64) = .ok (chr (n % 64)) := fun n => hstr _ (Nat.mod_lt _ (by omega))
  intro data
  induction data using text.induct with
  | case1 => intro pre post out o outlen h; unfold encLoop; simp [text]
  | case2 a =>
    intro pre post out o outlen h
    have ha := toNat_lt a
    have e0 : digit (a.toNat * 65536) 0 = a.toNat / 4 % 64 := by simp only [digit]; omega
    have e1 : digit (a.toNat * 65536) 1 = a.toNat * 16 % 64 := by simp only [digit]; omega
    unfold encLoop
    rcases outlen with _ | _ | _ | _ | _ | outlen
    · simp
    all_goals
      have w0 : ∀ v, wr out o v = .ok (patch out o [v]) := fun v => wr_eq (by omega)
      simp (disch := (first | omega | (simp; done) | (simp; omega))) [
        rd_append_right, rd_append_zero, shl_add_and, shl2_add_and, shr_and, and3f, hs, wr_patch, w0, text,
        encLoop, Nat.shiftRight_eq_div_pow, Nat.shiftLeft_eq, e0, e1]
  | case3 a b =>
    intro pre post out o outlen h
    have ha := toNat_lt a
    have hb := toNat_lt b
    have e0 : digit (a.toNat * 65536 + b.toNat * 256) 0 = a.toNat / 4 % 64 := by simp only [digit]; omega
    have e1 : digit (a.toNat * 65536 + b.toNat * 256) 1 = (a.toNat * 16 + b.toNat / 16) % 64 := by
      simp only [digit]; omega
    have e2 : digit (a.toNat * 65536 + b.toNat * 256) 2 = (b.toNat * 4) % 64 := by
      simp only [digit]; omega
    unfold encLoop
    rcases outlen with _ | _ | _ | _ | _ | outlen
    · simp
    all_goals
      have w0 : ∀ v, wr out o v = .ok (patch out o [v]) := fun v => wr_eq (by omega)
      simp (disch := (first | omega | (simp; done) | (simp; omega))) [
        rd_append_right, rd_append_zero, shl_add_and, shl2_add_and, shr_and, and3f, hs, wr_patch, w0, text,
        encLoop, Nat.shiftRight_eq_div_pow, Nat.shiftLeft_eq, e0, e1, e2]
  | case4 a b c rest ih =>
    intro pre post out o outlen h
    have ha := toNat_lt a
    have hb := toNat_lt b
    have hc := toNat_lt c
    have e0 : digit (a.toNat * 65536 + b.toNat * 256 + c.toNat) 0 = a.toNat / 4 % 64 := by
      simp only [digit]; omega
    have e1 : digit (a.toNat * 65536 + b.toNat * 256 + c.toNat) 1
        = (a.toNat * 16 + b.toNat / 16) % 64 := by
      simp only [digit]; omega
    have e2 : digit (a.toNat * 65536 + b.toNat * 256 + c.toNat) 2
        = (b.toNat * 4 + c.toNat / 64) % 64 := by
      simp only [digit]; omega
    have e3 : digit (a.toNat * 65536 + b.toNat * 256 + c.toNat) 3 = c.toNat % 64 := by
      simp only [digit]; omega
    unfold encLoop
    rcases outlen with _ | _ | _ | _ | _ | outlen
    · simp
    case succ.succ.succ.succ.succ =>
      have w0 : ∀ v, wr out o v = .ok (patch out o [v]) := fun v => wr_eq (by omega)
      simp (disch := (first | omega | (simp; done) | (simp; omega))) [
        rd_append_right, rd_append_zero, shl_add_and, shl2_add_and, shr_and, and3f, hs, wr_patch, w0, text,
        Nat.shiftRight_eq_div_pow, Nat.shiftLeft_eq, e0, e1, e2, e3]
      rcases hr : rest with _ | ⟨x, r⟩
      · unfold encLoop; simp [text]
      · have := ih (pre ++ [a, b, c]) post (patch out o [chr (a.toNat / 4 % 64), chr ((a.toNat * 16 + b.toNat / 16) % 64), chr ((b.toNat * 4 + c.toNat / 64) % 64), chr (c.toNat % 64)])
          (o + 4) (outlen + 1) (by rw [patch_length (by simp; omega)]; omega)
        rw [hr] at this
        simp at this
        simp (disch := (first | omega | (simp; done) | (simp; omega))) [wr_patch]
        rw [this]
        have hp := fun f => patch_patch (b := out) (o := o) (f := f) (e := [chr (a.toNat / 4 % 64), chr ((a.toNat * 16 + b.toNat / 16) % 64), chr ((b.toNat * 4 + c.toNat / 64) % 64), chr (c.toNat % 64)]) (by simp; omega)
        simp at hp
        simp [hp]
        omega
    all_goals
      have w0 : ∀ v, wr out o v = .ok (patch out o [v]) := fun v => wr_eq (by omega)
      simp (disch := (first | omega | (simp; done) | (simp; omega))) [
        rd_append_right, rd_append_zero, shl_add_and, shl2_add_and, shr_and, and3f, hs, wr_patch, w0, text,
        Nat.shiftRight_eq_div_pow, Nat.shiftLeft_eq, e0, e1, e2, e3]

/-! ### Decoder -/

/-- Value of a character according to a table. -/
def val (tbl : List Int) (c : UInt8) : Option Nat :=
  match tbl[c.toNat]? with
  | some v => if 0 ≤ v then some v.toNat else none
  | none => none

def byte0 (a b : Nat) : UInt8 := toChar ((a <<< 2) ||| (b >>> 4))
def byte1 (b c : Nat) : UInt8 := toChar (((b <<< 4) &&& 0xf0) ||| (c >>> 2))
def byte2 (c d : Nat) : UInt8 := toChar (((c <<< 6) &&& 0xc0) ||| d)

/-- Output (with unlimited room) and success flag of the decoder. -/
def decOut (val : UInt8 → Option Nat) (pad : UInt8) : List UInt8 → List UInt8 × Bool
  | [] => ([], true)
  | [_] => ([], false)
  | [c0, c1] =>
    match val c0, val c1 with
    | some a, some b => ([byte0 a b], false)
    | _, _ => ([], false)
  | [c0, c1, c2] =>
    match val c0, val c1 with
    | some a, some b =>
      if c2 = pad then ([byte0 a b], false) else
      match val c2 with
      | none => ([byte0 a b], false)
      | some c => ([byte0 a b, byte1 b c], false)
    | _, _ => ([], false)
  | c0 :: c1 :: c2 :: c3 :: t =>
    match val c0, val c1 with
    | some a, some b =>
      if c2 = pad then ([byte0 a b], decide (t = [] ∧ c3 = pad)) else
      match val c2 with
      | none => ([byte0 a b], false)
      | some c =>
        if c3 = pad then ([byte0 a b, byte1 b c], decide (t = [])) else
        match val c3 with
        | none => ([byte0 a b, byte1 b c], false)
        | some d => (byte0 a b :: byte1 b c :: byte2 c d :: (decOut val pad t).1, (decOut val pad t).2)
    | _, _ => ([], false)

/-- Output state after `e` has been offered to a buffer `out` with `room` bytes at `o`. -/
def S (out : Buf) (o room : Nat) (e : List UInt8) : Buf × Nat × Nat :=
  (patch out o (e.take room), o + min room e.length, room - min room e.length)

theorem emit_S {out : Buf} {o room : Nat} {e : List UInt8} {v : UInt8} (h : o + room ≤ out.length) :
    emit (S out o room e).1 (S out o room e).2.1 (S out o room e).2.2 v = .ok ((S out o room (e ++ [v])).1,
      (S out o room (e ++ [v])).2.1, (S out o room (e ++ [v])).2.2) := by
  unfold emit S
  by_cases hr : room ≤ e.length
  · have : room - min room e.length = 0 := by omega
    have h2 : min room (e.length + 1) = min room e.length := by omega
    simp [this, hr, h2, List.take_append_of_le_length hr]
  · have h1 : room - min room e.length ≠ 0 := by omega
    have h2 : min room (e.length + 1) = e.length + 1 := by omega
    have h3 : min room e.length = e.length := by omega
    simp only [h1, h2, h3]
    rw [List.take_of_length_le (by omega), wr_patch (by omega) (by omega)]
    simp [h2]
    rw [List.take_of_length_le (by simp; omega)]
    have : room - e.length ≠ 0 := by omega
    simp [this]
    omega

theorem tab_val {tbl : List Int} (hlen : tbl.length = 256) (c : UInt8) :
    ∃ v, tab tbl c = .ok v ∧ isAlpha tbl c = .ok (val tbl c).isSome ∧ ∀ n, val tbl c = some n → v.toNat = n := by
  have hc := toNat_lt c
  have : c.toNat < tbl.length := by omega
  refine ⟨tbl[c.toNat], ?_, ?_, ?_⟩
  · simp [tab, this]
  · simp [isAlpha, tab, val, this]; split <;> simp_all
  · intro n; simp [val, this]

theorem decLoop_spec (tbl : List Int) (pad : UInt8) (hlen : tbl.length = 256) (out : Buf) (o room : Nat)
    (h : o + room ≤ out.length) :
    ∀ (data e pre post : List UInt8), ∃ n,
      decLoop tbl pad (pre ++ (data ++ post)) pre.length data.length
        (S out o room e).1 (S out o room e).2.1 (S out o room e).2.2
      = .ok ⟨(S out o room (e ++ (decOut (val tbl) pad data).1)).1,
             (S out o room (e ++ (decOut (val tbl) pad data).1)).2.1,
             (S out o room (e ++ (decOut (val tbl) pad data).1)).2.2, n⟩
      ∧ (n = 0 ↔ (decOut (val tbl) pad data).2 = true) := by
  intro data
  induction hn : data.length using Nat.strongRecOn generalizing data with
  | ind n ih =>
  subst hn
  intro e pre post
  match data with
  | [] => unfold decLoop; simp [decOut]
  | [c0] => unfold decLoop; simp [decOut]
  | [c0, c1] =>
    obtain ⟨v0, t0, a0, n0⟩ := tab_val hlen c0
    obtain ⟨v1, t1, a1, n1⟩ := tab_val hlen c1
    unfold decLoop
    rcases h0 : val tbl c0 with _ | a <;> rcases h1 : val tbl c1 with _ | b <;>
    simp [rd_append_right, rd_append_zero, t0, a0, t1, a1, h0, h1, decOut]
    simp [emit_S h, n0 _ h0, n1 _ h1, byte0]
  | [c0, c1, c2] =>
    obtain ⟨v0, t0, a0, n0⟩ := tab_val hlen c0
    obtain ⟨v1, t1, a1, n1⟩ := tab_val hlen c1
    obtain ⟨v2, t2, a2, n2⟩ := tab_val hlen c2
    unfold decLoop
    rcases h0 : val tbl c0 with _ | a <;> rcases h1 : val tbl c1 with _ | b <;>
    simp [rd_append_right, rd_append_zero, t0, a0, t1, a1, h0, h1, decOut]
    simp [emit_S h, n0 _ h0, n1 _ h1, byte0]
    by_cases hp : c2 = pad
    · simp [hp]
    rcases h2 : val tbl c2 with _ | c <;> simp [hp, h2, a2, t2]
    simp [emit_S h, n2 _ h2, byte1]
  | c0 :: c1 :: c2 :: c3 :: t =>
    obtain ⟨v0, t0, a0, n0⟩ := tab_val hlen c0
    obtain ⟨v1, t1, a1, n1⟩ := tab_val hlen c1
    obtain ⟨v2, t2, a2, n2⟩ := tab_val hlen c2
    obtain ⟨v3, t3, a3, n3⟩ := tab_val hlen c3
    have ih' := fun e => ih t.length (by simp; omega) t rfl e (pre ++ [c0, c1, c2, c3]) post
    simp only [List.length_append, List.append_assoc, List.length_cons, List.length_nil,
      List.cons_append, List.nil_append, Nat.zero_add, Nat.reduceAdd] at ih'
    unfold decLoop
    rcases h0 : val tbl c0 with _ | a <;> rcases h1 : val tbl c1 with _ | b <;>
    simp [rd_append_right, rd_append_zero, t0, a0, t1, a1, h0, h1, decOut]
    simp [emit_S h, n0 _ h0, n1 _ h1]
    by_cases hp : c2 = pad
    · simp [hp]
      by_cases ht : t = []
      · subst ht
        by_cases h3 : c3 = pad
        · simp [h3]; unfold decLoop; simp [byte0]
        · simp [h3, byte0]
      · have : t.length ≠ 0 := by simpa using ht
        simp [ht, byte0]
    rcases h2 : val tbl c2 with _ | c <;> simp [hp, h2, a2, t2]
    · simp [byte0]
    simp [emit_S h, n2 _ h2]
    by_cases hp3 : c3 = pad
    · by_cases ht : t = []
      · subst ht
        simp [hp3]; unfold decLoop; simp [byte0, byte1]
      · have : t.length ≠ 0 := by simpa using ht
        simp [hp3, ht, byte0, byte1]
    rcases h3 : val tbl c3 with _ | d <;> simp [hp3, h3, a3, t3]
    · simp [byte0, byte1]
    simp [emit_S h, n3 _ h3]
    have := ih' (e ++ [byte0 a b, byte1 b c, byte2 c d])
    simpa [byte0, byte1, byte2] using this

/-! ### Link to the specification -/

/-- What the generic theorems need to know about an alphabet and its inverse table. -/
structure Codec (tbl : List Int) (str : Buf) (chr : Nat → UInt8) (pad : UInt8) : Prop where
  len : tbl.length = 256
  str : ∀ n, n < 64 → rd str n = .ok (chr n)
  val_some : ∀ c n, val tbl c = some n → n < 64 ∧ chr n = c
  val_chr : ∀ n, n < 64 → val tbl (chr n) = some n
  pad : ∀ n, n < 64 → chr n ≠ pad

theorem byte0_eq {a b : Nat} (c d : Nat) (ha : a < 64) (hb : b < 64) (hc : c < 64) (hd : d < 64) :
    byte0 a b = byte ((a * 64 ^ 3 + b * 64 ^ 2 + c * 64 + d) / 256 ^ 2) := by
  have : b >>> 4 < 2 ^ 2 := by rw [Nat.shiftRight_eq_div_pow]; omega
  unfold byte0 byte toChar
  rw [← Nat.shiftLeft_add_eq_or_of_lt this, Nat.shiftLeft_eq, Nat.shiftRight_eq_div_pow]
  congr 1
  omega

theorem byte1_eq {b c : Nat} (a d : Nat) (ha : a < 64) (hb : b < 64) (hc : c < 64) (hd : d < 64) :
    byte1 b c = byte ((a * 64 ^ 3 + b * 64 ^ 2 + c * 64 + d) / 256) := by
  have h1 : ∀ b, b < 64 → (b <<< 4) &&& 0xf0 = (b % 16) <<< 4 := by decide
  have : c >>> 2 < 2 ^ 4 := by rw [Nat.shiftRight_eq_div_pow]; omega
  unfold byte1 byte toChar
  rw [h1 b hb, ← Nat.shiftLeft_add_eq_or_of_lt this, Nat.shiftLeft_eq, Nat.shiftRight_eq_div_pow]
  congr 1
  omega

theorem byte2_eq {c d : Nat} (a b : Nat) (ha : a < 64) (hb : b < 64) (hc : c < 64) (hd : d < 64) :
    byte2 c d = byte (a * 64 ^ 3 + b * 64 ^ 2 + c * 64 + d) := by
  have h1 : ∀ b, b < 64 → (b <<< 6) &&& 0xc0 = (b % 4) <<< 6 := by decide
  have : d < 2 ^ 6 := by omega
  unfold byte2 byte toChar
  rw [h1 c hc, ← Nat.shiftLeft_add_eq_or_of_lt this, Nat.shiftLeft_eq]
  congr 1
  omega

theorem decOut_of_denotes {tbl str chr pad} (C : Codec tbl str chr pad) {t b : List UInt8}
    (h : Denotes chr pad t b) : decOut (val tbl) pad t = (b, true) := by
  induction h with
  | nil => rfl
  | quad p q r s t b hp hq hr hs _ ih =>
    simp [decOut, C.val_chr, hp, hq, hr, hs, C.pad, ih, byte0_eq r s hp hq hr hs,
      byte1_eq p s hp hq hr hs, byte2_eq p q hp hq hr hs]
  | pad1 p q r hp hq hr =>
    simp [decOut, C.val_chr, hp, hq, hr, C.pad, byte0_eq r 0 hp hq hr (by omega),
      byte1_eq p 0 hp hq hr (by omega)]
  | pad2 p q hp hq =>
    simp [decOut, C.val_chr, hp, hq, byte0_eq 0 0 hp hq (by omega) (by omega)]

theorem denotes_of_decOut {tbl str chr pad} (C : Codec tbl str chr pad) :
    ∀ t : List UInt8, (decOut (val tbl) pad t).2 = true → Denotes chr pad t (decOut (val tbl) pad t).1 := by
  intro t
  induction hn : t.length using Nat.strongRecOn generalizing t with
  | ind n ih =>
  subst hn
  match t with
  | [] => intro _; exact .nil
  | [c0] => simp [decOut]
  | [c0, c1] => simp only [decOut]; split <;> simp
  | [c0, c1, c2] => simp only [decOut]; (repeat' split) <;> simp
  | c0 :: c1 :: c2 :: c3 :: t =>
    rcases h0 : val tbl c0 with _ | a
    · simp [decOut, h0]
    rcases h1 : val tbl c1 with _ | b
    · simp [decOut, h0, h1]
    obtain ⟨ha, rfl⟩ := C.val_some _ _ h0
    obtain ⟨hb, rfl⟩ := C.val_some _ _ h1
    by_cases hp : c2 = pad
    · subst hp
      simp only [decOut, h0, h1, if_true, decide_eq_true_eq]
      rintro ⟨rfl, rfl⟩
      have := Denotes.pad2 (chr := chr) (pad := c3) a b ha hb
      rwa [show a * 64 ^ 3 + b * 64 ^ 2 = a * 64 ^ 3 + b * 64 ^ 2 + 0 * 64 + 0 by omega,
        ← byte0_eq 0 0 ha hb (by omega) (by omega)] at this
    rcases h2 : val tbl c2 with _ | c
    · simp [decOut, h0, h1, h2, hp]
    obtain ⟨hc, rfl⟩ := C.val_some _ _ h2
    by_cases hp3 : c3 = pad
    · subst hp3
      simp only [decOut, h0, h1, h2, hp, if_true, if_false, decide_eq_true_eq]
      rintro rfl
      have := Denotes.pad1 (chr := chr) (pad := c3) a b c ha hb hc
      rwa [show a * 64 ^ 3 + b * 64 ^ 2 + c * 64 = a * 64 ^ 3 + b * 64 ^ 2 + c * 64 + 0 by omega,
        ← byte0_eq c 0 ha hb hc (by omega), ← byte1_eq a 0 ha hb hc (by omega)] at this
    rcases h3 : val tbl c3 with _ | d
    · simp [decOut, h0, h1, h2, h3, hp, hp3]
    obtain ⟨hd, rfl⟩ := C.val_some _ _ h3
    simp only [decOut, h0, h1, h2, h3, hp, hp3, if_false]
    intro ht
    have := Denotes.quad (chr := chr) (pad := pad) a b c d t _ ha hb hc hd (ih t.length (by simp; omega) t rfl ht)
    rwa [← byte0_eq c d ha hb hc hd, ← byte1_eq a d ha hb hc hd, ← byte2_eq a b ha hb hc hd] at this

theorem decOut_iff {tbl str chr pad} (C : Codec tbl str chr pad) (t b : List UInt8) :
    decOut (val tbl) pad t = (b, true) ↔ Denotes chr pad t b := by
  constructor
  · intro h
    have := denotes_of_decOut C t (by rw [h])
    rwa [h] at this
  · exact decOut_of_denotes C

theorem text_length (chr pad) : ∀ d : List UInt8, (text chr pad d).length = textLen d.length := by
  intro d
  induction d using text.induct with
  | case1 => rfl
  | case2 => simp [text, textLen]
  | case3 => simp [text, textLen]
  | case4 a b c r ih => simp only [text, List.length_cons, ih, textLen]; omega

theorem digit_lt (n k : Nat) : digit n k < 64 := Nat.mod_lt _ (by omega)

theorem byte_toNat (a : UInt8) {n : Nat} (h : n % 256 = a.toNat) : byte n = a := by
  unfold byte; rw [h]; simp

theorem denotes_text {chr : Nat → UInt8} {pad} : ∀ d : List UInt8, Denotes chr pad (text chr pad d) d := by
  intro d
  induction d using text.induct with
  | case1 => exact .nil
  | case2 a =>
    have ha := toNat_lt a
    have := Denotes.pad2 (chr := chr) (pad := pad) _ _ (digit_lt (a.toNat * 256 ^ 2) 0) (digit_lt (a.toNat * 256 ^ 2) 1)
    rwa [byte_toNat a (by simp only [digit]; omega)] at this
  | case3 a b =>
    have ha := toNat_lt a
    have hb := toNat_lt b
    generalize hn : a.toNat * 256 ^ 2 + b.toNat * 256 = n
    have := Denotes.pad1 (chr := chr) (pad := pad) _ _ _ (digit_lt n 0) (digit_lt n 1) (digit_lt n 2)
    rw [byte_toNat a (by simp only [digit]; omega), byte_toNat b (by simp only [digit]; omega)] at this
    simpa only [text, hn] using this
  | case4 a b c r ih =>
    have ha := toNat_lt a
    have hb := toNat_lt b
    have hc := toNat_lt c
    generalize hn : a.toNat * 256 ^ 2 + b.toNat * 256 + c.toNat = n
    have := Denotes.quad (chr := chr) (pad := pad) _ _ _ _ _ _ (digit_lt n 0) (digit_lt n 1) (digit_lt n 2) (digit_lt n 3) ih
    rw [byte_toNat a (by simp only [digit]; omega), byte_toNat b (by simp only [digit]; omega),
      byte_toNat c (by simp only [digit]; omega)] at this
    simpa only [text, hn] using this

/-! ### Whole functions -/

theorem encode_spec {str : Buf} {chr : Nat → UInt8} (pad : UInt8)
    (hstr : ∀ n, n < 64 → rd str n = .ok (chr n)) (inb out : Buf) (inlen outlen : Nat)
    (hi : inlen ≤ inb.length) (ho : outlen ≤ out.length) :
    encode str pad inb inlen out outlen = .ok (
      let t := text chr pad (inb.take inlen)
      if outlen ≤ t.length then t.take outlen ++ out.drop outlen
      else t ++ [0] ++ out.drop (t.length + 1)) := by
  have := encLoop_spec str chr pad hstr (inb.take inlen) [] (inb.drop inlen) out 0 outlen (by omega)
  simp only [List.nil_append, List.take_append_drop, List.length_take, List.length_nil, Nat.min_eq_left hi] at this
  unfold encode
  rw [this]
  simp only [Res.ok_bind]
  generalize text chr pad (inb.take inlen) = t
  by_cases h : outlen ≤ t.length
  · simp [h, patch, Nat.min_eq_left h]
  · have h1 : min outlen t.length = t.length := by omega
    have h2 : outlen - t.length ≠ 0 := by omega
    simp only [h1, h2, if_true, Nat.zero_add, h, if_false, ne_eq, not_false_eq_true]
    rw [List.take_of_length_le (by omega), wr_patch (by omega) (by omega)]
    simp [patch]

theorem decode_spec {tbl : List Int} (pad : UInt8) (hlen : tbl.length = 256) (inb out : Buf)
    (inlen outlen : Nat) (hi : inlen ≤ inb.length) (ho : outlen ≤ out.length) :
    decode tbl pad inb inlen out outlen = .ok (
      let d := decOut (val tbl) pad (inb.take inlen)
      ⟨d.2, d.1.take outlen ++ out.drop (min outlen d.1.length), min outlen d.1.length⟩) := by
  obtain ⟨n, h1, h2⟩ := decLoop_spec tbl pad hlen out 0 outlen (by omega) (inb.take inlen) [] [] (inb.drop inlen)
  simp only [List.nil_append, List.take_append_drop, List.length_take, List.length_nil, Nat.min_eq_left hi] at h1
  have e : S out 0 outlen [] = (out, 0, outlen) := by simp [S]
  rw [e] at h1
  simp only at h1
  unfold decode
  rw [h1]
  simp only [Res.ok_bind, S]
  congr 2
  · rw [Bool.eq_iff_iff]; simp [h2]
  · simp [patch]
  · omega

theorem codec64 : Codec b64 b64str base64Char base64Pad where
  len := by decide +kernel
  str := by decide +kernel
  val_some := by
    have : ∀ c : Fin 256, ∀ n, val b64 (UInt8.ofNat c.val) = some n → n < 64 ∧ base64Char n = UInt8.ofNat c.val := by
      intro c n h
      have : ∀ c : Fin 256, (val b64 (UInt8.ofNat c.val)).all
          (fun n => decide (n < 64) && base64Char n == UInt8.ofNat c.val) = true := by decide +kernel
      have := this c
      rw [h] at this
      simpa using this
    intro c n
    simpa using this ⟨c.toNat, toNat_lt c⟩ n
  val_chr := by decide +kernel
  pad := by decide +kernel

theorem codecW : Codec web64 web64str web64Char web64Pad where
  len := by decide +kernel
  str := by decide +kernel
  val_some := by
    have : ∀ c : Fin 256, ∀ n, val web64 (UInt8.ofNat c.val) = some n → n < 64 ∧ web64Char n = UInt8.ofNat c.val := by
      intro c n h
      have : ∀ c : Fin 256, (val web64 (UInt8.ofNat c.val)).all
          (fun n => decide (n < 64) && web64Char n == UInt8.ofNat c.val) = true := by decide +kernel
      have := this c
      rw [h] at this
      simpa using this
    intro c n
    simpa using this ⟨c.toNat, toNat_lt c⟩ n
  val_chr := by decide +kernel
  pad := by decide +kernel

/-! ### Generic statements, instantiated in `Props` -/

theorem enc_prefix {t out : Buf} {outlen : Nat} (hfit : t.length ≤ outlen) :
    (if outlen ≤ t.length then t.take outlen ++ out.drop outlen
      else t ++ [0] ++ out.drop (t.length + 1)).take t.length = t := by
  split
  · rw [List.take_append_of_le_length (by simp; omega), List.take_take,
      Nat.min_eq_left hfit, List.take_of_length_le (Nat.le_refl _)]
  · simp

theorem encode_rfc {tbl str chr pad} (C : Codec tbl str chr pad) (data out : Buf) (outlen : Nat)
    (ho : outlen ≤ out.length) (hfit : textLen data.length ≤ outlen) :
    ∃ enc, encode str pad data data.length out outlen = .ok enc ∧ enc.length = out.length ∧
      enc.take (textLen data.length) = text chr pad data := by
  have hlen := text_length chr pad data
  refine ⟨_, encode_spec _ C.str data out data.length outlen (Nat.le_refl _) ho, ?_, ?_⟩
  · simp only [List.take_length]; split <;> simp <;> omega
  · rw [← hlen] at hfit ⊢
    simp only [List.take_length]
    exact enc_prefix hfit

theorem encode_buffer {tbl str chr pad} (C : Codec tbl str chr pad) (inb out : Buf) (inlen outlen : Nat)
    (hi : inlen ≤ inb.length) (ho : outlen ≤ out.length) :
    ∃ enc, encode str pad inb inlen out outlen = .ok enc ∧
      enc.length = out.length ∧
      (outlen ≤ textLen inlen →
        enc = (text chr pad (inb.take inlen)).take outlen ++ out.drop outlen) ∧
      (textLen inlen < outlen →
        enc = text chr pad (inb.take inlen) ++ [0] ++ out.drop (textLen inlen + 1)) := by
  have hlen := text_length chr pad (inb.take inlen)
  rw [List.length_take, Nat.min_eq_left hi] at hlen
  refine ⟨_, encode_spec _ C.str inb out inlen outlen hi ho, ?_, ?_, ?_⟩
  · simp only; split <;> simp <;> omega
  · intro h; simp [hlen, h]
  · intro h; simp [hlen, Nat.not_le.mpr h]

theorem decode_language {tbl str chr pad} (C : Codec tbl str chr pad) (t out : Buf) (cap : Nat)
    (hc : cap ≤ out.length) :
    ∃ d, decode tbl pad t t.length out cap = .ok d ∧
      (d.ret = true ↔ ∃ b, Denotes chr pad t b) ∧
      (∀ b, Denotes chr pad t b → b.length ≤ cap →
        d.outlen = b.length ∧ d.out.take b.length = b) := by
  refine ⟨_, decode_spec _ C.len t out t.length cap (Nat.le_refl _) hc, ?_, ?_⟩
  · simp only [List.take_length]
    constructor
    · intro h; exact ⟨_, denotes_of_decOut C t h⟩
    · rintro ⟨b, hb⟩
      rw [decOut_of_denotes C hb]
  · intro b hb hcap
    simp only [List.take_length, decOut_of_denotes C hb, Nat.min_eq_right hcap, List.take_of_length_le hcap,
      List.take_left, and_self]

theorem roundtrip {tbl str chr pad} (C : Codec tbl str chr pad) (data out buf : Buf) (outlen cap : Nat)
    (ho : outlen ≤ out.length) (hfit : textLen data.length ≤ outlen)
    (hc : cap ≤ buf.length) (hcap : data.length ≤ cap) :
    ∃ enc d, encode str pad data data.length out outlen = .ok enc ∧
      decode tbl pad enc (textLen data.length) buf cap = .ok d ∧
      d.ret = true ∧ d.outlen = data.length ∧ d.out.take data.length = data := by
  obtain ⟨enc, h1, h2, h3⟩ := encode_rfc C data out outlen ho hfit
  refine ⟨_, _, h1, decode_spec pad C.len _ buf _ cap (by omega) hc, ?_⟩
  simp only [h3, decOut_of_denotes C (denotes_text data), Nat.min_eq_right hcap,
      List.take_of_length_le hcap, List.take_left, and_self]

theorem denotes_length {chr pad} {t b : List UInt8} (h : Denotes chr pad t b) : b.length ≤ 3 * (t.length / 4) := by
  induction h with
  | nil => simp
  | quad p q r s t b _ _ _ _ _ ih => simp only [List.length_cons]; omega
  | pad1 => simp
  | pad2 => simp

theorem chr_inj {tbl str chr pad} (C : Codec tbl str chr pad) {m n : Nat} (hm : m < 64) (hn : n < 64)
    (h : chr m = chr n) : m = n := by
  have h1 := C.val_chr m hm
  rw [h, C.val_chr n hn] at h1
  exact (Option.some.inj h1).symm

theorem byte_toNat' (n : Nat) : (byte n).toNat = n % 256 := by
  unfold byte; simp

theorem reencode {tbl str chr pad} (C : Codec tbl str chr pad) {t b : List UInt8}
    (h : Denotes chr pad t b) : text chr pad b = t ↔ Canonical chr pad t := by
  induction h with
  | nil => simp [text, Canonical]
  | quad p q r s t b hp hq hr hs hd ih =>
    have e0 : ∀ n, n = p * 64 ^ 3 + q * 64 ^ 2 + r * 64 + s →
        digit ((byte (n / 256 ^ 2)).toNat * 256 ^ 2 + (byte (n / 256)).toNat * 256 + (byte n).toNat) 0 = p ∧
        digit ((byte (n / 256 ^ 2)).toNat * 256 ^ 2 + (byte (n / 256)).toNat * 256 + (byte n).toNat) 1 = q ∧
        digit ((byte (n / 256 ^ 2)).toNat * 256 ^ 2 + (byte (n / 256)).toNat * 256 + (byte n).toNat) 2 = r ∧
        digit ((byte (n / 256 ^ 2)).toNat * 256 ^ 2 + (byte (n / 256)).toNat * 256 + (byte n).toNat) 3 = s := by
      intro n hn
      simp only [byte_toNat', digit]
      omega
    obtain ⟨a0, a1, a2, a3⟩ := e0 _ rfl
    simp only [text, a0, a1, a2, a3, List.cons.injEq, true_and]
    rw [ih]
    unfold Canonical
    rcases hd with _ | ⟨p', q', r', s', t', b', _, _, _, _, _⟩ | ⟨p', q', r', _, _, _⟩ | ⟨p', q', _, _⟩
    · simp
      intro p1 q1 r1 s1 _ _ h3 h4 h5
      exact absurd (h4.trans h5) (C.pad s hs)
    · simp
    · simp
    · simp
  | pad1 p q r hp hq hr =>
    generalize hn : p * 64 ^ 3 + q * 64 ^ 2 + r * 64 = n
    have a0 : digit ((byte (n / 256 ^ 2)).toNat * 256 ^ 2 + (byte (n / 256)).toNat * 256) 0 = p := by
      simp only [byte_toNat', digit]; omega
    have a1 : digit ((byte (n / 256 ^ 2)).toNat * 256 ^ 2 + (byte (n / 256)).toNat * 256) 1 = q := by
      simp only [byte_toNat', digit]; omega
    have a2 : digit ((byte (n / 256 ^ 2)).toNat * 256 ^ 2 + (byte (n / 256)).toNat * 256) 2 = r / 4 * 4 := by
      simp only [byte_toNat', digit]; omega
    have hr' := C.pad r hr
    simp only [text, a0, a1, a2, List.cons.injEq, true_and, and_true, Canonical, List.length_cons,
      List.length_nil, Nat.reduceAdd, Nat.sub_self, List.drop_zero]
    constructor
    · intro h p1 q1 r1 s1
      rintro ⟨rfl, rfl, rfl, rfl⟩ _
      refine ⟨fun h => absurd h hr', fun _ => ⟨r / 4, by omega, ?_⟩⟩
      rw [← h, Nat.mul_comm]
    · intro h
      obtain ⟨j, hj, h2⟩ := (h _ _ _ _ ⟨rfl, rfl, rfl, rfl⟩ rfl).2 hr'
      have := chr_inj C hr (by omega) h2
      rw [show r / 4 * 4 = r by omega]
  | pad2 p q hp hq =>
    generalize hn : p * 64 ^ 3 + q * 64 ^ 2 = n
    have a0 : digit ((byte (n / 256 ^ 2)).toNat * 256 ^ 2) 0 = p := by
      simp only [byte_toNat', digit]; omega
    have a1 : digit ((byte (n / 256 ^ 2)).toNat * 256 ^ 2) 1 = q / 16 * 16 := by
      simp only [byte_toNat', digit]; omega
    simp only [text, a0, a1, List.cons.injEq, true_and, and_true, Canonical, List.length_cons,
      List.length_nil, Nat.reduceAdd, Nat.sub_self, List.drop_zero]
    constructor
    · intro h p1 q1 r1 s1
      rintro ⟨rfl, rfl, rfl, rfl⟩ _
      refine ⟨fun _ => ⟨q / 16, by omega, ?_⟩, fun h => absurd rfl h⟩
      rw [← h, Nat.mul_comm]
    · intro h
      obtain ⟨j, hj, h2⟩ := (h _ _ _ _ ⟨rfl, rfl, rfl, rfl⟩ rfl).1 rfl
      have := chr_inj C hq (by omega) h2
      rw [show q / 16 * 16 = q by omega]

theorem text_mem {chr : Nat → UInt8} {pad : UInt8} : ∀ (d : List UInt8), ∀ c ∈ text chr pad d,
    c = pad ∨ ∃ n, n < 64 ∧ c = chr n := by
  intro d
  induction d using text.induct with
  | case1 => simp [text]
  | case2 a =>
    intro c hc
    simp only [text, List.mem_cons, List.not_mem_nil, or_false] at hc
    rcases hc with rfl | rfl | rfl | rfl
    · exact .inr ⟨_, digit_lt _ _, rfl⟩
    · exact .inr ⟨_, digit_lt _ _, rfl⟩
    · exact .inl rfl
    · exact .inl rfl
  | case3 a b =>
    intro c hc
    simp only [text, List.mem_cons, List.not_mem_nil, or_false] at hc
    rcases hc with rfl | rfl | rfl | rfl
    · exact .inr ⟨_, digit_lt _ _, rfl⟩
    · exact .inr ⟨_, digit_lt _ _, rfl⟩
    · exact .inr ⟨_, digit_lt _ _, rfl⟩
    · exact .inl rfl
  | case4 a b c r ih =>
    intro x hx
    simp only [text, List.mem_cons] at hx
    rcases hx with rfl | rfl | rfl | rfl | hx
    · exact .inr ⟨_, digit_lt _ _, rfl⟩
    · exact .inr ⟨_, digit_lt _ _, rfl⟩
    · exact .inr ⟨_, digit_lt _ _, rfl⟩
    · exact .inr ⟨_, digit_lt _ _, rfl⟩
    · exact ih x hx


end Verif.Base64
