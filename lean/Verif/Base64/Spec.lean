/-
  Specification of base64 texts, independent of the code in coda/base64.c:
  arithmetic on 24-bit numbers, no shifts, masks, tables or cursors.
-/
namespace Verif.Base64.Spec

/-- RFC 4648 table 1: the character of a base-64 digit. -/
def base64Char (n : Nat) : UInt8 :=
  if n < 26 then UInt8.ofNat ('A'.toNat + n)
  else if n < 52 then UInt8.ofNat ('a'.toNat + (n - 26))
  else if n < 62 then UInt8.ofNat ('0'.toNat + (n - 52))
  else if n = 62 then UInt8.ofNat '+'.toNat
  else UInt8.ofNat '/'.toNat

/-- The web64 variant: the last two characters are `-` and `_`. -/
def web64Char (n : Nat) : UInt8 :=
  if n < 26 then UInt8.ofNat ('A'.toNat + n)
  else if n < 52 then UInt8.ofNat ('a'.toNat + (n - 26))
  else if n < 62 then UInt8.ofNat ('0'.toNat + (n - 52))
  else if n = 62 then UInt8.ofNat '-'.toNat
  else UInt8.ofNat '_'.toNat

/-- `'='` -/
def base64Pad : UInt8 := UInt8.ofNat '='.toNat
/-- `'.'` -/
def web64Pad : UInt8 := UInt8.ofNat '.'.toNat

/-- The k-th (from the left, 0..3) base-64 digit of a 24-bit number. -/
def digit (n k : Nat) : Nat := n / 64 ^ (3 - k) % 64

/-- The text of a byte string: RFC 4648 section 4. -/
def text (chr : Nat → UInt8) (pad : UInt8) : List UInt8 → List UInt8
  | [] => []
  | [a] =>
    let n := a.toNat * 256 ^ 2
    [chr (digit n 0), chr (digit n 1), pad, pad]
  | [a, b] =>
    let n := a.toNat * 256 ^ 2 + b.toNat * 256
    [chr (digit n 0), chr (digit n 1), chr (digit n 2), pad]
  | a :: b :: c :: rest =>
    let n := a.toNat * 256 ^ 2 + b.toNat * 256 + c.toNat
    chr (digit n 0) :: chr (digit n 1) :: chr (digit n 2) :: chr (digit n 3) :: text chr pad rest

/-- The byte with number `n`. -/
def byte (n : Nat) : UInt8 := UInt8.ofNat (n % 256)

/-- `Denotes chr pad t b`: `t` is a well-formed padded text (groups of four
characters, padding only in the last group) and `b` is the byte string it denotes.
The unused low bits of a padded group are not required to be zero. -/
inductive Denotes (chr : Nat → UInt8) (pad : UInt8) : List UInt8 → List UInt8 → Prop
  | nil : Denotes chr pad [] []
  | quad (p q r s : Nat) (t b : List UInt8) : p < 64 → q < 64 → r < 64 → s < 64 →
      Denotes chr pad t b →
      Denotes chr pad (chr p :: chr q :: chr r :: chr s :: t)
        (byte ((p * 64 ^ 3 + q * 64 ^ 2 + r * 64 + s) / 256 ^ 2) ::
         byte ((p * 64 ^ 3 + q * 64 ^ 2 + r * 64 + s) / 256) ::
         byte (p * 64 ^ 3 + q * 64 ^ 2 + r * 64 + s) :: b)
  | pad1 (p q r : Nat) : p < 64 → q < 64 → r < 64 →
      Denotes chr pad [chr p, chr q, chr r, pad]
        [byte ((p * 64 ^ 3 + q * 64 ^ 2 + r * 64) / 256 ^ 2),
         byte ((p * 64 ^ 3 + q * 64 ^ 2 + r * 64) / 256)]
  | pad2 (p q : Nat) : p < 64 → q < 64 →
      Denotes chr pad [chr p, chr q, pad, pad]
        [byte ((p * 64 ^ 3 + q * 64 ^ 2) / 256 ^ 2)]

/-- A text whose unused bits are zero: in a final group `xy==` the second digit is a
multiple of 16, in a final group `xyz=` the third digit is a multiple of 4. -/
def Canonical (chr : Nat → UInt8) (pad : UInt8) (t : List UInt8) : Prop :=
  ∀ p q r s, t.drop (t.length - 4) = [p, q, r, s] → s = pad →
    (r = pad → ∃ j, j < 4 ∧ q = chr (16 * j)) ∧ (r ≠ pad → ∃ j, j < 16 ∧ r = chr (4 * j))

/-- Length of the text of `n` bytes. -/
def textLen (n : Nat) : Nat := (n + 2) / 3 * 4

end Verif.Base64.Spec
