/-
  Model of the message layer of coda/shm_queue.{hpp,tcc} for message classes whose `serialize` may return false: `box::put`, `queue::put`, `queue::flush` as one process sees them.  Boxes, `get` and
  `flush` are those of Verif/VarBox/Model.lean.

  A call of `serialize` is given by what it does (`Try`): the bytes it writes from its argument on, and what it returns.  It may do something else each time it is called.  As in
  Verif/VarBox/Model.lean every flush finds room in the ring.
-/
import Verif.VarBox.Model

namespace Verif.SerFail

open VarBox (Class Box Writer)

/-- One call of `serialize`: coda/shm_queue.hpp:23. -/
structure Try where
  bytes : List UInt8
  ret : Bool
  deriving DecidableEq

variable {M : Type} (T : Class M)

/-- `box::put`, coda/shm_queue.tcc:77-91: what it returns and the box after it; `ub`: `serialize` writes behind the end of the box. -/
def put (b : Box) (m : M) (t : Try) : Res (Bool × Box) :=
  if b.is_space_for T m then
    if b.pos + t.bytes.length ≤ b.buf.length then
      let buf := b.buf.take b.pos ++ t.bytes ++ b.buf.drop (b.pos + t.bytes.length)
      .ok (if t.ret then (true, ⟨buf, b.pos + T.size m⟩) else (false, ⟨buf, b.pos⟩))
    else .ub
  else .ok (false, b)

/-- A call `put(m)` of the user: `t1` is what `serialize` does the first time it is called, `t2` the second time. -/
structure Call (M : Type) where
  msg : M
  t1 : Try
  t2 : Try

/-- `queue::put`, coda/shm_queue.tcc:301-311.  If there is no space in the current box, `serialize` is only called once, that is `t2`. -/
def qput (bs : Nat) (w : Writer) (c : Call M) : Res (Bool × Writer) :=
  (put T w.box c.msg c.t1).bind fun r =>
    if r.1 then .ok (true, { w with box := r.2 })
    else
      let w1 := Writer.flush bs { w with box := r.2 }
      (put T w1.box c.msg c.t2).map fun r => (r.1, { w1 with box := r.2 })

/-- A list of calls; the messages whose put returned true.  Several calls of `put`: coda/shm_queue.tcc:301-311. -/
def qputs (bs : Nat) (w : Writer) : List (Call M) → Res (List M × Writer)
  | [] => .ok ([], w)
  | c :: cs => (qput T bs w c).bind fun r => (qputs bs r.2 cs).map fun rs => (if r.1 then c.msg :: rs.1 else rs.1, rs.2)

end Verif.SerFail
