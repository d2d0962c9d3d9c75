/-
  Independent specification vocabulary for coda/string.c (properties C28–C33).
-/
namespace Verif.Str.Spec

/-- ASCII lower case of a byte. -/
def lower (c : UInt8) : UInt8 := if 65 ≤ c.toNat ∧ c.toNat ≤ 90 then UInt8.ofNat (c.toNat + 32) else c

/-- `r` is the smallest index with property `P`, or `none` if there is no such index. -/
def IsFirst (P : Nat → Prop) : Option Nat → Prop
  | none => ∀ i, ¬ P i
  | some i => P i ∧ ∀ j, j < i → ¬ P j

/-- `r` is the largest index with property `P`, or `none` if there is no such index. -/
def IsLast (P : Nat → Prop) : Option Nat → Prop
  | none => ∀ i, ¬ P i
  | some i => P i ∧ ∀ j, i < j → ¬ P j

/-- `nd` occurs in `hay` at index `i`. -/
def Occurs (nd hay : List UInt8) (i : Nat) : Prop := ∃ a b, hay = a ++ nd ++ b ∧ a.length = i

/-- `k` is the length of the longest prefix of `l` all of whose members satisfy `p`. -/
def LongestPrefix (p : UInt8 → Prop) (l : List UInt8) (k : Nat) : Prop :=
  k ≤ l.length ∧ (∀ x ∈ l.take k, p x) ∧ ∀ x, l[k]? = some x → ¬ p x

/-- `k` is the length of the longest suffix of `l` all of whose members satisfy `p`. -/
def LongestSuffix (p : UInt8 → Prop) (l : List UInt8) (k : Nat) : Prop :=
  LongestPrefix p l.reverse k

/-- A string object: characters without NUL, NUL, anything. -/
def CString (o cs : List UInt8) : Prop := (∀ c ∈ cs, c ≠ 0) ∧ ∃ rest, o = cs ++ 0 :: rest

/-- ASCII decimal digit. -/
def IsDigit (c : UInt8) : Prop := 48 ≤ c.toNat ∧ c.toNat ≤ 57

/-- Value of a digit string. -/
def decVal (l : List UInt8) : Nat := l.foldl (fun n c => n * 10 + (c.toNat - 48)) 0

/-- Decimal representation without superfluous leading zeros, least number of digits one. -/
def decimal (n : Nat) : List UInt8 :=
  if n < 10 then [UInt8.ofNat (48 + n)] else decimal (n / 10) ++ [UInt8.ofNat (48 + n % 10)]

end Verif.Str.Spec
