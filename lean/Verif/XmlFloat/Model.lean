import Verif.Txml.Conv
import Mathlib.Data.Int.Log
import Mathlib.Data.Rat.Floor
/-
  Model of coda/txml.cpp:143-145, the conversions of texts to float, double and long double.
  The C library: strtof(3), strtod(3) and strtold(3) of glibc in the C locale, rounding to the nearest value (ties to even).  Floating point numbers are rational numbers and the infinities; the sign
  of 0 is not modelled.
-/
namespace Verif.XmlFloat

open Verif.Txml (Text cstr isDigit skipSpace scan)

/-- A binary format: the values are n·2^k with |n| < 2^p and emin ≤ k ≤ emax.  Environment: the types of the members, coda/txml.cpp:143-145. -/
structure Fmt where
  p : Nat
  emin : Int
  emax : Int

/-- `float`.  The type at coda/txml.cpp:143 (IEEE 754 binary32). -/
def float : Fmt := ⟨24, -149, 104⟩

/-- `double`.  The type at coda/txml.cpp:144 (IEEE 754 binary64). -/
def double : Fmt := ⟨53, -1074, 971⟩

/-- `long double`.  The type at coda/txml.cpp:145 (x87 extended format). -/
def longDouble : Fmt := ⟨64, -16445, 16320⟩

/-- The nearest integer, ties to even.  Environment: the rounding of the functions called at coda/txml.cpp:143-145. -/
def nearInt (t : ℚ) : Int :=
  if t - ⌊t⌋ < 1 / 2 then ⌊t⌋ else if 1 / 2 < t - ⌊t⌋ then ⌊t⌋ + 1 else if ⌊t⌋ % 2 = 0 then ⌊t⌋ else ⌊t⌋ + 1

/-- The exponent with which a number is rounded.  Environment: the rounding of the functions called at coda/txml.cpp:143-145. -/
def expOf (f : Fmt) (q : ℚ) : Int := max f.emin (Int.log 2 q - f.p + 1)

/-- The number, rounded, for numbers that are not negative; `none`: infinity.  Environment: the rounding of the functions called at coda/txml.cpp:143-145. -/
def rnd (f : Fmt) (q : ℚ) : Option ℚ :=
  let v := (nearInt (q / 2 ^ expOf f q) : ℚ) * 2 ^ expOf f q
  if v < 2 ^ ((f.p : Int) + f.emax) then some v else none

/-- A floating point number.  The values of the types at coda/txml.cpp:143-145. -/
inductive Val where
  | fin (q : ℚ)
  | inf (neg : Bool)
  deriving DecidableEq

/-- The digits before the point, those after it, and the rest of the text.  Environment: the functions called at coda/txml.cpp:143-145. -/
def mant (t : Text) : Text × Text × Text :=
  match t.dropWhile isDigit with
  | [] => (t.takeWhile isDigit, [], [])
  | c :: r => if c = 46 then (t.takeWhile isDigit, r.takeWhile isDigit, r.dropWhile isDigit) else (t.takeWhile isDigit, [], c :: r)

/-- The exponent, 0 if there is none.  Environment: the functions called at coda/txml.cpp:143-145. -/
def expo : Text → Int
  | [] => 0
  | c :: r =>
    if c = 101 ∨ c = 69 then
      match r with
      | [] => 0
      | s :: r => if s = 45 then -(scan 0 r : Int) else if s = 43 then scan 0 r else scan 0 (s :: r)
    else 0

/-- The decimal number at the beginning of a text without white space and sign.  Environment: the functions called at coda/txml.cpp:143-145. -/
def decimal (t : Text) : ℚ :=
  let m := mant t
  (scan 0 (m.1 ++ m.2.1) : ℚ) * 10 ^ (expo m.2.2 - (m.2.1.length : Int))

/-- Texts that are not modelled: infinities, NaN and hexadecimal numbers (i, I, n, N, 0x, 0X).  Environment: the functions called at coda/txml.cpp:143-145. -/
def special : Text → Bool
  | 48 :: 120 :: _ => true
  | 48 :: 88 :: _ => true
  | c :: _ => c = 105 || c = 73 || c = 110 || c = 78
  | [] => false

/-- The number with its sign.  Environment: the functions called at coda/txml.cpp:143-145. -/
def signedVal (f : Fmt) (neg : Bool) (t : Text) : Option Val :=
  if special t then none
  else match rnd f (decimal t) with
    | none => some (.inf neg)
    | some v => some (.fin (if neg then -v else v))

/-- `strtof(s, NULL)`, `strtod`, `strtold`.  Environment: the functions called at coda/txml.cpp:143-145. -/
def strtox (f : Fmt) (t : Text) : Option Val :=
  match skipSpace (cstr t) with
  | [] => some (.fin 0)
  | c :: r => if c = 45 then signedVal f true r else if c = 43 then signedVal f false r else signedVal f false (c :: r)

/-- `setValue(float&)`: coda/txml.cpp:143. -/
def setFloat (t : Text) : Option Val := strtox float t

/-- `setValue(double&)`: coda/txml.cpp:144. -/
def setDouble (t : Text) : Option Val := strtox double t

/-- `setValue(long double&)`: coda/txml.cpp:145. -/
def setLongDouble (t : Text) : Option Val := strtox longDouble t

end Verif.XmlFloat
