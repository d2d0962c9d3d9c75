/-
  What `serialize` and `deserialize` of the user's class have to satisfy (C153).
-/
import Verif.SerFail.Model

namespace Verif.SerFail.Spec

open VarBox (Class)

variable {M : Type}

/-- `serialize` writes `size()` bytes, at least `lo` ≥ 1, when it returns true; `deserialize` reads back what was written, whatever follows, and returns false on `lo` zero bytes or more. -/
structure Good (T : Class M) (lo : Nat) : Prop where
  len : ∀ m, (T.ser m).length = T.size m
  pos : 1 ≤ lo
  low : ∀ m, lo ≤ T.size m
  back : ∀ m rest, T.des (T.ser m ++ rest) = .ok (some m)
  zeros : ∀ j, lo ≤ j → T.des (List.replicate j 0) = .ok none

/-- A call of `serialize` for `m`: it either writes the message and returns true, or writes nothing and returns false. -/
def clean (T : Class M) (m : M) (t : Try) : Prop := (t.ret = true ∧ t.bytes = T.ser m) ∨ (t.ret = false ∧ t.bytes = [])

end Verif.SerFail.Spec
