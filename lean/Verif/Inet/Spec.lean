/-
  Dotted decimal texts.
-/
namespace Verif.Inet

def isDigit (c : UInt8) : Bool := 48 ≤ c && c ≤ 57

/-- The number denoted by decimal digits (0 for none). -/
def val (p : List UInt8) : Nat := p.foldl (fun v c => v * 10 + (c.toNat - 48)) 0

/-- Four components separated by dots. -/
def dotted (a b c d : List UInt8) : List UInt8 := a ++ 46 :: b ++ 46 :: c ++ 46 :: d

/-- The in_addr_t whose four bytes in memory (little-endian machine) are a, b, c, d: the address in network byte order. -/
def net (a b c d : Nat) : Nat := a + 256 * b + 65536 * c + 16777216 * d

/-- The usual decimal text of a number. -/
def dec (n : Nat) : List UInt8 :=
  if n < 10 then [UInt8.ofNat (48 + n)] else dec (n / 10) ++ [UInt8.ofNat (48 + n % 10)]
termination_by n

end Verif.Inet
