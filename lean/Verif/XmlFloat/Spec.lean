import Verif.XmlFloat.Model
import Verif.Txml.ConvSpec
/-
  What a decimal number is, and what a floating point type can hold (C196).
-/
namespace Verif.XmlFloat.Spec

open Verif.Txml (Text)
open Verif.Txml.Spec (value Digit White)

/-- The number x is a value of the type. -/
def Rep (f : Fmt) (x : ℚ) : Prop := ∃ n k : Int, |n| < 2 ^ f.p ∧ f.emin ≤ k ∧ k ≤ f.emax ∧ x = n * 2 ^ k

/-- The largest value of the type. -/
def largest (f : Fmt) : ℚ := (2 ^ f.p - 1) * 2 ^ f.emax

/-- A decimal number as it is written: sign, digits, point and digits, exponent. -/
structure Lit where
  sign : Option Bool
  ip : Text
  fp : Option Text
  ex : Option (UInt8 × Option Bool × Text)

def signText : Option Bool → Text
  | none => []
  | some false => [43]
  | some true => [45]

/-- The point and the digits after it. -/
def fpText : Option Text → Text
  | none => []
  | some ds => 46 :: ds

/-- The exponent: e or E, an optional sign, digits. -/
def exText : Option (UInt8 × Option Bool × Text) → Text
  | none => []
  | some (e, s, ds) => e :: (signText s ++ ds)

def Lit.text (l : Lit) : Text := signText l.sign ++ (l.ip ++ (fpText l.fp ++ exText l.ex))

def Lit.ok (l : Lit) : Prop :=
  (∀ c ∈ l.ip, Digit c) ∧ (∀ ds, l.fp = some ds → ∀ c ∈ ds, Digit c) ∧ (l.ip ≠ [] ∨ ∃ ds, l.fp = some ds ∧ ds ≠ []) ∧
  ∀ e s ds, l.ex = some (e, s, ds) → (e = 101 ∨ e = 69) ∧ ds ≠ [] ∧ ∀ c ∈ ds, Digit c

def sgn : Option Bool → ℚ
  | some true => -1
  | _ => 1

/-- The value of the digits after the point. -/
def fpVal : Option Text → ℚ
  | none => 0
  | some ds => (value ds : ℚ) / 10 ^ ds.length

/-- The value of the exponent. -/
def exVal : Option (UInt8 × Option Bool × Text) → Int
  | none => 0
  | some (_, some true, ds) => -(value ds : Int)
  | some (_, _, ds) => (value ds : Int)

/-- The number that it denotes. -/
def Lit.val (l : Lit) : ℚ := sgn l.sign * (((value l.ip : ℚ) + fpVal l.fp) * 10 ^ exVal l.ex)

/-- The text after the number does not continue it. -/
def Stops (rest : Text) : Prop := ∀ c ∈ rest.head?, ¬ Digit c ∧ c ≠ 46 ∧ c ≠ 101 ∧ c ≠ 69 ∧ c ≠ 120 ∧ c ≠ 88

end Verif.XmlFloat.Spec
