import Verif.ThrowMany.Model
import Verif.MapThrow.Spec
/-
  What users see of a map if each process in which the assignment of a value throws ends at once, with insertions of several pairs.
-/
namespace Verif.ThrowMany.Spec
open Verif.ShmMap Verif.ShmMap.Spec Verif.MapThrow

variable {V : Type}

/-- A single call, or one of `insert(pairs, n)`; in the last case assigning the value of pair `j` throws (leaving `part` where it was to go), after which the process ends. -/
inductive Block (V : Type) where
  | one (b : MapThrow.Spec.Block V)
  | many (i : Nat) (ps : List (UInt64 × V))
  | thrownMany (i : Nat) (ps : List (UInt64 × V)) (j : Nat) (part : V)

/-- The events of a block. -/
def evs : Block V → List (EvM V)
  | .one b => (MapThrow.Spec.evs b).map .one
  | .many i ps => [.many i ps]
  | .thrownMany i ps j part => [.throwsMany i ps j part, .one (.ends i)]

/-- The pairs are bound one after the other, as far as there is room; was there room for all of them? -/
def insertAll (N lk : Nat) (l : Bindings V) : List (UInt64 × V) → Bindings V × Bool
  | [] => (l, true)
  | (k, v) :: ps =>
    if has l k ∨ l.length + lk < N then insertAll N lk (bind l k v) ps
    else ((insertAll N lk l ps).1, false)

/-- A map with the bindings `l` and `lk` lost entries.  If pair `j` throws then the pairs before it are in the map and those after it are not; the pair itself leaves `part` if its key was
bound, and loses an entry otherwise. -/
def step (N lk : Nat) (l : Bindings V) : Block V → Bindings V × Nat × Reply V
  | .one b => MapThrow.Spec.step N lk l b
  | .many _ ps => ((insertAll N lk l ps).1, lk, .ret (.bool (insertAll N lk l ps).2))
  | .thrownMany _ ps j part =>
    match ps[j]? with
    | none => ((insertAll N lk l ps).1, lk, .ret (.bool (insertAll N lk l ps).2))
    | some (k, _) =>
      let l1 := (insertAll N lk l (ps.take j)).1
      if has l1 k then (bind l1 k part, lk, .exc)
      else if l1.length + lk < N then (l1, lk + 1, .exc)
      else ((insertAll N lk l ps).1, lk, .ret (.bool (insertAll N lk l ps).2))

/-- The bindings, the lost entries and the replies. -/
def run (N lk : Nat) (l : Bindings V) : List (Block V) → Bindings V × Nat × List (Reply V)
  | [] => (l, lk, [])
  | b :: bs =>
    let (l, lk, r) := step N lk l b
    let (l, lk, rs) := run N lk l bs
    (l, lk, r :: rs)

/-- The number of calls in a history. -/
def calls (es : List (EvM V)) : Nat := es.countP (fun e => match e with | .one (.ends _) => false | _ => true)

end Verif.ThrowMany.Spec
