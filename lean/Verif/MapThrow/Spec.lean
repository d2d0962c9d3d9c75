/-
  What users see of a map if each process in which the assignment of a value throws ends at once.
-/
import Verif.MapThrow.Model
import Verif.ShmMap.Spec

namespace Verif.MapThrow.Spec
open Verif.ShmMap Verif.ShmMap.Spec

variable {V : Type}

/-- A call, or a call in which assigning the value throws (leaving `part` where it was to go), after which the process ends. -/
inductive Block (V : Type) where
  | call (i : Nat) (op : Op V)
  | thrown (i : Nat) (op : Op V) (part : V)

/-- The events of a block. -/
def evs : Block V → List (Ev V)
  | .call i op => [.call i op]
  | .thrown i op part => [.throws i op part, .ends i]

/-- A map with the bindings `l` and `lk` lost entries (they count as stored until the next clear).  An insert that throws leaves `part` under a key that was
bound, and loses an entry otherwise; a read that throws changes nothing; calls that assign no value do not throw. -/
def step (N lk : Nat) (l : Bindings V) : Block V → Bindings V × Nat × Reply V
  | .thrown _ (.insert k _) part =>
    if has l k then (bind l k part, lk, .exc)
    else if l.length + lk < N then (l, lk + 1, .exc)
    else (l, lk, .ret (.bool false))
  | .thrown _ (.read k) _ => if has l k then (l, lk, .exc) else (l, lk, .ret (.val none))
  | .thrown _ op _ => ((stepL N lk l op).1, (stepL N lk l op).2.1, .ret (stepL N lk l op).2.2)
  | .call _ op => ((stepL N lk l op).1, (stepL N lk l op).2.1, .ret (stepL N lk l op).2.2)

/-- The bindings, the lost entries and the replies. -/
def run (N lk : Nat) (l : Bindings V) : List (Block V) → Bindings V × Nat × List (Reply V)
  | [] => (l, lk, [])
  | b :: bs =>
    let (l, lk, r) := step N lk l b
    let (l, lk, rs) := run N lk l bs
    (l, lk, r :: rs)

/-- The number of calls in a history. -/
def calls (es : List (Ev V)) : Nat := es.countP (fun e => match e with | .ends _ => false | _ => true)

end Verif.MapThrow.Spec
