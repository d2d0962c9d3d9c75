/-
  Specification of what coda_url_unescape and coda_url_preunescape decode (C22-C24, C108, C109), independent of the model.
-/
import Verif.Url.Spec

namespace Verif.Url.Spec

/-- A hexadecimal digit of either case. -/
def hexDigit (c : UInt8) : Bool := (48 ≤ c.toNat && c.toNat ≤ 57) || (65 ≤ c.toNat && c.toNat ≤ 70) || (97 ≤ c.toNat && c.toNat ≤ 102)

/-- The text begins with two hexadecimal digits. -/
def two : List UInt8 → Bool
  | a :: b :: _ => hexDigit a && hexDigit b
  | _ => false

/-- The text begins with a hexadecimal digit. -/
def one : List UInt8 → Bool
  | a :: _ => hexDigit a
  | _ => false

/-- UTF-8 of code points below 0x800 (RFC 3629). -/
def utf8 (n : Nat) : List UInt8 := if n < 128 then [UInt8.ofNat n] else [UInt8.ofNat (192 + n / 64), UInt8.ofNat (128 + n % 64)]

/-- The number of four hexadecimal digits. -/
def num4 (a b c d : UInt8) : Nat := ((hexv a * 16 + hexv b) * 16 + hexv c) * 16 + hexv d

/-- `Unesc s t`: the text `s` stands for the bytes `t`.  '+' is a blank; "%XY" and "\xXY" are bytes; "%uXXXX" is a character below U+0800 other than U+007F that no
further hexadecimal digit follows; everything that is no escape stands for itself. -/
inductive Unesc : List UInt8 → List UInt8 → Prop
  | nil : Unesc [] []
  | plus {s t} : Unesc s t → Unesc (43 :: s) (32 :: t)
  | pct {a b s t} : hexDigit a → hexDigit b → Unesc s t → Unesc (37 :: a :: b :: s) (UInt8.ofNat (16 * hexv a + hexv b) :: t)
  | uni {a b c d s t} : hexDigit a → hexDigit b → hexDigit c → hexDigit d → one s = false → num4 a b c d < 0x800 → num4 a b c d ≠ 127 → Unesc s t →
      Unesc (37 :: 117 :: a :: b :: c :: d :: s) (utf8 (num4 a b c d) ++ t)
  | hex {a b s t} : hexDigit a → hexDigit b → Unesc s t → Unesc (92 :: 120 :: a :: b :: s) (UInt8.ofNat (16 * hexv a + hexv b) :: t)
  | other {c s t} : c ≠ 43 → (c = 37 → two s = false ∧ ∀ s', s = 117 :: s' → one s' = false) → (c = 92 → ∀ s', s = 120 :: s' → two s' = false) → Unesc s t → Unesc (c :: s) (c :: t)

/-- `Pre s t`: in the text `s` the escapes "%XY" and "\xXY" of bytes from 0x80 on are replaced by the bytes; other "%XY" and everything that is no escape stay.
Nothing is said about "\xXY" of smaller bytes. -/
inductive Pre : List UInt8 → List UInt8 → Prop
  | nil : Pre [] []
  | high {a b s t} : hexDigit a → hexDigit b → 128 ≤ 16 * hexv a + hexv b → Pre s t → Pre (37 :: a :: b :: s) (UInt8.ofNat (16 * hexv a + hexv b) :: t)
  | low {a b s t} : hexDigit a → hexDigit b → 16 * hexv a + hexv b < 128 → Pre s t → Pre (37 :: a :: b :: s) (37 :: a :: b :: t)
  | hex {a b s t} : hexDigit a → hexDigit b → 128 ≤ 16 * hexv a + hexv b → Pre s t → Pre (92 :: 120 :: a :: b :: s) (UInt8.ofNat (16 * hexv a + hexv b) :: t)
  | other {c s t} : (c = 37 → two s = false) → (c = 92 → ∀ s', s = 120 :: s' → two s' = false) → Pre s t → Pre (c :: s) (c :: t)

end Verif.Url.Spec
