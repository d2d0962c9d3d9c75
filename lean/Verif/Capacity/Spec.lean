import Verif.Capacity.Model
/-
  The memory that a value takes (C197).
-/
namespace Verif.Capacity.Spec

/-- The bytes of the object itself. -/
def self : V → Nat
  | .plain size => size
  | .str size _ _ _ => size
  | .vec size _ _ _ => size
  | .bits size _ => size

mutual
/-- The bytes on the heap that belong to a value: nothing for a short string; a block with room for the terminator for a long one; the block of a vector and what its elements own; one byte for eight
elements of a vector of bool. -/
def heap : V → Nat
  | .plain _ => 0
  | .str _ elem loc cap => if cap ≤ loc then 0 else (cap + 1) * elem
  | .vec _ elem cap els => cap * elem + heaps els
  | .bits _ cap => cap / 8

def heaps : List V → Nat
  | [] => 0
  | v :: vs => heap v + heaps vs
end

/-- The memory that a value takes. -/
def memory (v : V) : Nat := self v + heap v

mutual
/-- Values as the library makes them: an element is not empty; a string that lies in its object has the room that the object has (at least one element); the elements of a vector fit into it;
vectors of bool have room for whole words. -/
def Good : V → Prop
  | .plain size => 0 < size
  | .str size elem loc cap => 0 < elem ∧ 0 < loc ∧ loc ≤ cap ∧ (loc + 1) * elem ≤ size
  | .vec _ elem cap els => 0 < elem ∧ els.length ≤ cap ∧ Goods els
  | .bits _ cap => cap % 64 = 0

def Goods : List V → Prop
  | [] => True
  | v :: vs => Good v ∧ Goods vs
end

end Verif.Capacity.Spec
