/-
  What a caller expects of the base58 functions that need memory.
-/
namespace Verif.Base58Mem.Spec

/-- What a caller of a decoding function sees: the blocks in use before and after, whether an allocation of the call has failed, the
returned number and the block that `*out` points to. -/
structure Call where
  before : List Nat
  failed : Bool
  after : List Nat
  ret : Int
  out : Option Nat

/-- No memory is lost: what the call has allocated is freed, except for one new block which it hands out. -/
def Call.NoLeak (c : Call) : Prop :=
  (c.out = none → c.after = c.before) ∧ ∀ b, c.out = some b → b ∉ c.before ∧ c.after = b :: c.before

/-- A failed allocation is told apart from success by the pointer. -/
def Call.ToldByPointer (c : Call) : Prop := c.failed = true → c.out = none

/-- A failed allocation is told apart from success by the returned number. -/
def Call.ToldByNumber (c : Call) : Prop := c.failed = true → c.ret < 0

end Verif.Base58Mem.Spec
