/-
  Model of coda/estimate_capacity.hpp with the strings and vectors of the C++ library (libstdc++) as they are in memory: short strings lie inside of the string object, long ones have a terminating
  element, std::vector<bool> keeps eight elements in a byte.  Verif.Daemon (C96) has the same functions for idealised strings.
-/
namespace Verif.Capacity

/-- The arguments of `estimate_capacity`, coda/estimate_capacity.hpp:7-112: numbers and pointers of `size` bytes; strings, objects of `size` bytes, of elements of `elem` bytes (char: 1, wchar_t: 4),
with room for `cap` elements, `loc` of which fit into the object; vectors with room for `cap` elements of `elem` bytes, and the elements; vectors of bool with room for `cap` elements. -/
inductive V where
  | plain (size : Nat)
  | str (size elem loc cap : Nat)
  | vec (size elem cap : Nat) (els : List V)
  | bits (size cap : Nat)

/-- `estimate_capacity`: coda/estimate_capacity.hpp:14-32 and the specialisations for the arithmetic types, 34-110.  For std::vector<bool> the template at 21-25 is taken, with T = bool: sizeof(bool)
is 1. -/
def estimate_capacity : V → Nat
  | .plain size => size
  | .str size elem _ cap => size + cap * elem
  | .vec size elem cap _ => size + cap * elem
  | .bits size cap => size + cap * 1

end Verif.Capacity
