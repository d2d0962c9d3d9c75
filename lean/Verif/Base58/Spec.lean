/-
  Specification of base58 texts: leading zero bytes become '1's, the rest is
  the base-58 numeral of the big-endian number.
-/
namespace Verif.Base58.Spec

/-- The base58 alphabet: digits without 0, upper case without I and O, lower case without l. -/
def chr58 (n : Nat) : UInt8 :=
  if n < 9 then UInt8.ofNat ('1'.toNat + n)
  else if n < 17 then UInt8.ofNat ('A'.toNat + (n - 9))
  else if n < 22 then UInt8.ofNat ('J'.toNat + (n - 17))
  else if n < 33 then UInt8.ofNat ('P'.toNat + (n - 22))
  else if n < 44 then UInt8.ofNat ('a'.toNat + (n - 33))
  else UInt8.ofNat ('m'.toNat + (n - 44))

/-- The number denoted by big-endian digits in base `b`. -/
def ofDigits (b : Nat) (ds : List Nat) : Nat := ds.foldl (fun a d => a * b + d) 0

/-- `ds` is the numeral of `n` in base `b`: digits below `b`, no leading zero. -/
structure Numeral (b : Nat) (ds : List Nat) (n : Nat) : Prop where
  digits : ∀ d ∈ ds, d < b
  lead : ds.head? ≠ some 0
  value : ofDigits b ds = n

/-- `t` is the base58 text of `data`: as many '1' as leading zero bytes, then the
base-58 numeral of the remaining bytes read as a big-endian number. -/
def Text (data t : List UInt8) : Prop :=
  ∃ (z : Nat) (body : List UInt8) (ds : List Nat),
    data = List.replicate z 0 ++ body ∧ body.head? ≠ some 0 ∧
    t = List.replicate z (UInt8.ofNat '1'.toNat) ++ ds.map chr58 ∧
    Numeral 58 ds (ofDigits 256 (body.map UInt8.toNat))

/-- A character of the alphabet. -/
def Alpha (c : UInt8) : Prop := ∃ n, n < 58 ∧ c = chr58 n

end Verif.Base58.Spec
