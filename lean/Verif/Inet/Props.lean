/-
  C65: coda_inet_addr.
-/
import Verif.Inet.Lemmas

namespace Verif.Inet

def txt (s : String) : List UInt8 := s.toUTF8.toList

/-- C65: the dotted decimal text of every IPv4 address yields that address in network byte order. -/
theorem C65_text (a b c d : Nat) (ha : a < 256) (hb : b < 256) (hc : c < 256) (hd : d < 256) :
    inet_addr (dotted (dec a) (dec b) (dec c) (dec d)) = net a b c d := by
  have h := accept (dec a) (dec b) (dec c) (dec d) (dec_spec a).1 (dec_spec b).1 (dec_spec c).1 (dec_spec d).1
  simp only [(dec_spec _).2] at h
  rw [Nat.mod_eq_of_lt (a := a) (by omega), Nat.mod_eq_of_lt (a := b) (by omega), Nat.mod_eq_of_lt (a := c) (by omega),
    Nat.mod_eq_of_lt (a := d) (by omega)] at h
  exact h ha hb hc hd

example : dotted (dec 192) (dec 168) (dec 0) (dec 1) = txt "192.168.0.1" ∧ inet_addr (txt "192.168.0.1") = 0x0100a8c0 := by decide +kernel

/-- C65, partial: for every text in which no run of digits is longer than 19: anything that is not four components of digits with values
below 256, separated by exactly three dots, yields INADDR_NONE.  Missing: longer components, for which it is false (`C65_refuted`). -/
theorem C65_reject_partial (data : List UInt8) (hl : data.length < 2 ^ 64)
    (hrun : ∀ p q r : List UInt8, data = p ++ q ++ r → (∀ c ∈ q, isDigit c = true) → q.length ≤ 19)
    (h : inet_addr data ≠ NONE) : ∃ a b c d : List UInt8, data = dotted a b c d ∧
      (∀ x ∈ a ++ b ++ c ++ d, isDigit x = true) ∧ val a < 256 ∧ val b < 256 ∧ val c < 256 ∧ val d < 256 ∧
      inet_addr data = net (val a) (val b) (val c) (val d) := by
  obtain ⟨a, b, c, d, h1, ha, hb, hc, hd, va, vb, vc, vd⟩ := reject data hl h
  have la := val_small a ha (hrun [] a (46 :: b ++ 46 :: c ++ 46 :: d) (by rw [h1]; simp [dotted]) ha)
  have lb := val_small b hb (hrun (a ++ [46]) b (46 :: c ++ 46 :: d) (by rw [h1]; simp [dotted]) hb)
  have lc := val_small c hc (hrun (a ++ 46 :: b ++ [46]) c (46 :: d) (by rw [h1]; simp [dotted]) hc)
  have ld := val_small d hd (hrun (a ++ 46 :: b ++ 46 :: c ++ [46]) d [] (by rw [h1]; simp [dotted]) hd)
  have hacc := accept a b c d ha hb hc hd va vb vc vd
  rw [Nat.mod_eq_of_lt la, Nat.mod_eq_of_lt lb, Nat.mod_eq_of_lt lc, Nat.mod_eq_of_lt ld] at hacc
  rw [Nat.mod_eq_of_lt la] at va
  rw [Nat.mod_eq_of_lt lb] at vb
  rw [Nat.mod_eq_of_lt lc] at vc
  rw [Nat.mod_eq_of_lt ld] at vd
  refine ⟨a, b, c, d, h1, ?_, va, vb, vc, vd, by rw [h1]; exact hacc⟩
  intro x hx
  simp only [List.mem_append] at hx
  rcases hx with ((hx | hx) | hx) | hx
  · exact ha x hx
  · exact hb x hx
  · exact hc x hx
  · exact hd x hx

/-- C65 for every buffer whatsoever: the result is INADDR_NONE unless the text is four components of digits separated by exactly three dots, and
then it depends on the values of the components modulo 2^64 only. -/
theorem C65_all_texts (data : List UInt8) (hl : data.length < 2 ^ 64) : inet_addr data = NONE ∨
    ∃ a b c d : List UInt8, data = dotted a b c d ∧ (∀ x ∈ a ++ b ++ c ++ d, isDigit x = true) ∧
      inet_addr data = net (val a % 2 ^ 64) (val b % 2 ^ 64) (val c % 2 ^ 64) (val d % 2 ^ 64) := by
  by_cases h : inet_addr data = NONE
  · exact Or.inl h
  · obtain ⟨a, b, c, d, h1, ha, hb, hc, hd, va, vb, vc, vd⟩ := reject data hl h
    refine Or.inr ⟨a, b, c, d, h1, ?_, by rw [h1]; exact accept a b c d ha hb hc hd va vb vc vd⟩
    intro x hx
    simp only [List.mem_append] at hx
    rcases hx with ((hx | hx) | hx) | hx
    · exact ha x hx
    · exact hb x hx
    · exact hc x hx
    · exact hd x hx

/-- Short digit runs: the hypothesis of the partial theorem on a real address, and rejected texts. -/
example : inet_addr (txt "10.20.30.40") = net 10 20 30 40 ∧ inet_addr (txt "10.20.30.40") ≠ NONE ∧ inet_addr (txt "10.20.30") = NONE ∧
    inet_addr (txt "10.20.30.40.50") = NONE ∧ inet_addr (txt "10.20.30.256") = NONE ∧ inet_addr (txt "10.20.30.4a") = NONE := by decide +kernel

/-- C65 is false: a component of 2^64 is taken for 0. -/
theorem C65_refuted : inet_addr (txt "18446744073709551626.0.0.1") = net 10 0 0 1 := by decide +kernel

/-- C65 is false for all texts with a component that is 256 or more but less than 256 above a multiple of 2^64, the others too: they are taken for another address. -/
theorem C65_refuted_all (a b c d : List UInt8) (hx : ∀ x ∈ a ++ b ++ c ++ d, isDigit x = true)
    (va : val a % 2 ^ 64 < 256) (vb : val b % 2 ^ 64 < 256) (vc : val c % 2 ^ 64 < 256) (vd : val d % 2 ^ 64 < 256) :
    inet_addr (dotted a b c d) = net (val a % 2 ^ 64) (val b % 2 ^ 64) (val c % 2 ^ 64) (val d % 2 ^ 64) :=
  accept a b c d (fun x h => hx x (by simp [h])) (fun x h => hx x (by simp [h])) (fun x h => hx x (by simp [h])) (fun x h => hx x (by simp [h])) va vb vc vd

example : 256 ≤ val (txt "18446744073709551871") ∧ val (txt "18446744073709551871") % 2 ^ 64 = 255 := by decide +kernel

/-- Empty components are accepted as 0, and 255.255.255.255 is indistinguishable from an error. -/
theorem C65_empty : inet_addr (txt "...") = net 0 0 0 0 ∧ inet_addr (txt "255.255.255.255") = NONE := by decide +kernel

end Verif.Inet
