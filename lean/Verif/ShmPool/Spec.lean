import Verif.ShmPool.Model
/-
  Specification of a bounded stack (C45) and of a pool (C46).
-/
namespace Verif.ShmPool.Spec

/-- A stack holding at most `N` elements, the top first.  `none`: the operation is not allowed (pop of an empty stack). -/
def step {T} (N : Nat) (l : List T) : SOp T → Option (List T × SRet T)
  | .push x => if l.length < N then some (x :: l, .bool true) else some (l, .bool false)
  | .pop => match l with
    | [] => none
    | x :: l => some (l, .elem x)
  | .clear => some ([], .unit)
  | .used => some (l, .num l.length)
  | .empty => some (l, .bool l.isEmpty)

def run {T} (N : Nat) (l : List T) : List (SOp T) → Option (List T × List (SRet T))
  | [] => some (l, [])
  | op :: ops => match step N l op with
    | none => none
    | some (l, r) => match run N l ops with
      | none => none
      | some (l, rs) => some (l, r :: rs)

end Verif.ShmPool.Spec
