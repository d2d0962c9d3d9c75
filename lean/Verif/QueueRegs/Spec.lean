/-
  Twelve registers that are used by several processes (C154): every call takes effect at one moment between its beginning and its end.
-/
import Verif.QueueRegs.Model

namespace Verif.QueueRegs.Spec

/-- What a call means for the registers 0 to 11: its result and the registers after it. -/
def meaning (r : Nat → UInt32) : Op → UInt32 × (Nat → UInt32)
  | .set o v => (0, fun x => if x = o.toNat ∧ o.toNat < 12 then v else r x)
  | .get o => (if o.toNat < 12 then r o.toNat else 0, r)
  | .work => (0, r)

/-- The moments at which calls take effect, in order: each has the result that it has after those before it. -/
def sequential (r : Nat → UInt32) : List Ev → Prop
  | [] => True
  | .acc _ op v :: es => v = (meaning r op).1 ∧ sequential (meaning r op).2 es
  | _ :: es => sequential r es

/-- A process between calls, in a call that had no effect yet, in a call that had its effect, and ended. -/
inductive At where
  | out
  | called (op : Op)
  | done (v : UInt32)
  | ended

/-- Events of process `i`: call, effect and return follow each other, and the return has the result of the effect; a process that is killed does nothing more. -/
def next (i : Nat) : At → Ev → Option At
  | a, .call j op => if j = i then (match a with | .out => some (.called op) | _ => none) else some a
  | a, .acc j op v => if j = i then (match a with | .called op' => if op = op' then some (.done v) else none | _ => none) else some a
  | a, .ret j v => if j = i then (match a with | .done v' => if v = v' then some .out else none | _ => none) else some a
  | a, .kill j => if j = i then (match a with | .ended => none | _ => some .ended) else some a

def nexts (i : Nat) (a : At) : List Ev → Option At
  | [] => some a
  | e :: es =>
    match next i a e with
    | some a => nexts i a es
    | none => none

/-- What can be seen from outside: calls, returns and kills. -/
def visible : Ev → Bool
  | .acc _ _ _ => false
  | _ => true

/-- What was seen can be explained: there are moments, one for each call that has returned, and none or one for each call that has not, between the beginning and the end of the call, such that the calls have
the results that they have if they are executed one after the other at these moments. -/
def atomic (seen : List Ev) : Prop :=
  ∃ es : List Ev, es.filter visible = seen ∧ sequential (fun _ => 0) es ∧ ∀ i, (nexts i .out es).isSome = true

end Verif.QueueRegs.Spec
