/-
  What coda_url_unescape makes of every text (C22, C23, C108), independent of the model: the escapes as `Unesc` describes them, and "%u" with any number of digits.
-/
import Verif.Url.UnescSpec

namespace Verif.Url.Spec

/-- The number that hexadecimal digits stand for. -/
def number (ds : List UInt8) : Nat := ds.foldl (fun n c => n * 16 + hexv c) 0

/-- The number as strtol(3) returns it in 64 bits (the greatest one if it is too large), cut to 32 bits. -/
def code (ds : List UInt8) : Nat := min (number ds) (2 ^ 63 - 1) % 2 ^ 32

/-- UTF-8 of the characters below U+0800 other than U+007F, nothing for U+007F and all others. -/
def below800 (n : Nat) : List UInt8 := if n < 0x800 ∧ n ≠ 127 then utf8 n else []

/-- `Does s t`: unescaping `s` gives `t`.  '+' is a blank; "%XY" and "\xXY" are bytes; "%u" takes all the hexadecimal digits that follow, with or without "0x" before them, and
gives the character of this number if it is below U+0800 and not U+007F, else nothing; everything that is no escape stands for itself. -/
inductive Does : List UInt8 → List UInt8 → Prop
  | nil : Does [] []
  | plus {s t} : Does s t → Does (43 :: s) (32 :: t)
  | pct {a b s t} : hexDigit a → hexDigit b → Does s t → Does (37 :: a :: b :: s) (UInt8.ofNat (16 * hexv a + hexv b) :: t)
  | uni {ds s t} : ds ≠ [] → (∀ c ∈ ds, hexDigit c) → one s = false → (ds = [48] → ∀ x s', s = x :: s' → x = 120 ∨ x = 88 → one s' = false) → Does s t →
      Does (37 :: 117 :: (ds ++ s)) (below800 (code ds) ++ t)
  | uni0x {x ds s t} : x = 120 ∨ x = 88 → ds ≠ [] → (∀ c ∈ ds, hexDigit c) → one s = false → Does s t → Does (37 :: 117 :: 48 :: x :: (ds ++ s)) (below800 (code ds) ++ t)
  | hex {a b s t} : hexDigit a → hexDigit b → Does s t → Does (92 :: 120 :: a :: b :: s) (UInt8.ofNat (16 * hexv a + hexv b) :: t)
  | other {c s t} : c ≠ 43 → (c = 37 → two s = false ∧ ∀ s', s = 117 :: s' → one s' = false) → (c = 92 → ∀ s', s = 120 :: s' → two s' = false) → Does s t → Does (c :: s) (c :: t)

end Verif.Url.Spec
