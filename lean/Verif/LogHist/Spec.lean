import Verif.LogHist.Model
/-
  Specification for Verif.LogHist: histograms over powers of two.
-/
namespace Verif.LogHist

/-- The value belongs to bucket `k` of `n`: 2^k ≤ v < 2^(k+1); the last bucket takes everything from 2^(n-1) on. -/
def InBucket (n k v : Nat) : Bool := if k + 1 < n then decide (2 ^ k ≤ v ∧ v < 2 ^ (k + 1)) else decide (2 ^ (n - 1) ≤ v)

/-- How many of the values belong to bucket `k`. -/
def count (n k : Nat) (vs : List Nat) : Nat := vs.countP (InBucket n k)

/-- The largest number of events that a counter of this type can count. -/
def capacity : Ty → Nat
  | .char => 127
  | .schar => 127
  | .uchar => 255
  | .ushort => 65535
  | .short => 32767
  | .int => 2147483647
  | .uint => 4294967295
  | .long => 9223372036854775807
  | .llong => 9223372036854775807
  | .ulong => 18446744073709551615
  | .ullong => 18446744073709551615
  | .double => 9007199254740992
  | .float => 16777216
  | .ldouble => 18446744073709551616

/-- The types for which the constructor is specialised. -/
def Counts (t : Ty) : Prop := t ∈ [Ty.char, .uchar, .ushort, .short, .int, .uint, .long, .ulong, .double, .float]

/-- What a counter of this type shows after `c` increments from 0: unsigned types count modulo a power of two, small signed types wrap to negative numbers, float types get stuck;
`none`: undefined behaviour. -/
def shows (t : Ty) (c : Nat) : Option Int :=
  match t with
  | .char | .schar => some (((c : Int) + 128) % 256 - 128)
  | .uchar => some ((c : Int) % 256)
  | .ushort => some ((c : Int) % 65536)
  | .short => some (((c : Int) + 32768) % 65536 - 32768)
  | .int => if c ≤ 2147483647 then some c else none
  | .uint => some ((c : Int) % 4294967296)
  | .long | .llong => if c ≤ 9223372036854775807 then some c else none
  | .ulong | .ullong => some ((c : Int) % 18446744073709551616)
  | .double => some (min (c : Int) 9007199254740992)
  | .float => some (min (c : Int) 16777216)
  | .ldouble => some (min (c : Int) 18446744073709551616)

end Verif.LogHist
