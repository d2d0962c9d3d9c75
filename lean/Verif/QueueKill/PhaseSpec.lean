/-
  Processes that first write and then read (C146): what the calls of each process must look like.
-/
import Verif.QueueKill.Spec

namespace Verif.QueueKill.Spec

variable {M : Type}

/-- What a process has done up to now: `clean`: nothing, or it has written and its last call was flush; `dirty`: it has written and its last call was put; `reads`: it has called unflush or get. -/
inductive Phase where
  | clean
  | dirty
  | reads
  deriving DecidableEq

/-- May process `i`, of which `ph` is known, make this step; and what is known of it then. -/
def next (ph : Phase) (i : Nat) : Label M → Option Phase
  | .lab (.put j _) => if j = i then (if ph = .reads then none else some .dirty) else some ph
  | .lab (.flush j) => if j = i then (if ph = .reads then none else some .clean) else some ph
  | .lab (.unflush j) => if j = i then (if ph = .dirty then none else some .reads) else some ph
  | .lab (.timeout j) => if j = i then (if ph = .dirty then none else some .reads) else some ph
  | .lab (.get j) => if j = i then (if ph = .dirty then none else some .reads) else some ph
  | .lab (.adv _) => some ph
  | .kill _ => some ph

def nexts (ph : Phase) (i : Nat) : List (Label M) → Option Phase
  | [] => some ph
  | a :: as =>
    match next ph i a with
    | some ph => nexts ph i as
    | none => none

/-- Every process first writes, then calls flush, and from then on only reads (it may also only write, or only read). -/
def writesThenReads (as : List (Label M)) : Prop := ∀ i, (nexts .clean i as).isSome = true

end Verif.QueueKill.Spec
