/-
  Independent specification of URL coding (properties C17–C24).
-/
namespace Verif.Url.Spec

/-- RFC 3986 unreserved characters: ALPHA / DIGIT / "-" / "." / "_" / "~". -/
def unreserved (c : Nat) : Bool :=
  (65 ≤ c && c ≤ 90) || (97 ≤ c && c ≤ 122) || (48 ≤ c && c ≤ 57) || c == 45 || c == 46 || c == 95 || c == 126

/-- Upper case hexadecimal digit of `n < 16`. -/
def hexU (n : Nat) : UInt8 := UInt8.ofNat (if n < 10 then 48 + n else 55 + n)

/-- Percent encoding of one byte. -/
def pct (c : UInt8) : List UInt8 := [37, hexU (c.toNat / 16), hexU (c.toNat % 16)]

/-- Encoding of one byte: unreserved unchanged, blank as '+', otherwise "%XY". -/
def enc (c : UInt8) : List UInt8 :=
  if unreserved c.toNat then [c] else if c.toNat = 32 then [43] else pct c

/-- Encoding of one byte without the '+' convention. -/
def encNoplus (c : UInt8) : List UInt8 := if unreserved c.toNat then [c] else pct c

/-- Value of a hexadecimal digit of either case; 0 for any other character. -/
def hexv (c : UInt8) : Nat :=
  if 48 ≤ c.toNat ∧ c.toNat ≤ 57 then c.toNat - 48
  else if 65 ≤ c.toNat ∧ c.toNat ≤ 70 then c.toNat - 65 + 10
  else if 97 ≤ c.toNat ∧ c.toNat ≤ 102 then c.toNat - 97 + 10
  else 0

/-- `Dec s t`: the text `s` decodes to `t`. -/
inductive Dec : List UInt8 → List UInt8 → Prop
  | nil : Dec [] []
  | plus {s t} : Dec s t → Dec (43 :: s) (32 :: t)
  | pct {a b s t} : Dec s t → Dec (37 :: a :: b :: s) (UInt8.ofNat (16 * hexv a + hexv b) :: t)
  | short {s t} : s.length < 2 → Dec s t → Dec (37 :: s) (37 :: t)
  | other {c s t} : c ≠ 37 → c ≠ 43 → Dec s t → Dec (c :: s) (c :: t)

/-- A string object: characters without NUL, NUL, anything. -/
def CString (o cs : List UInt8) : Prop := (∀ c ∈ cs, c ≠ 0) ∧ ∃ rest, o = cs ++ 0 :: rest

end Verif.Url.Spec
