/-
  Model of the message layer of coda/shm_queue.{hpp,tcc} for messages of different sizes: `box::put`, `box::get`, `queue::put`, `queue::get`, `queue::flush` as one process
  sees them.  (Verif/ShmQueue/Box.lean has messages of one size.)

  The user's message class `_T` is a type `M`: `size m` is `m.size()`, `ser m` the bytes `serialize` writes, and `des` what `deserialize` makes of the memory from its
  argument to the end of the box: `ok (some m)`, `ok none` if it returns false, `ub` if it reads on behind the end of the box.  Simplifications: `serialize` never returns false; an
  object whose `deserialize` returns false is left as it was.
-/
import Verif.Mem

namespace Verif.VarBox

/-- The user's class, coda/shm_queue.hpp:19-26. -/
structure Class (M : Type) where
  size : M → Nat
  ser : M → List UInt8
  des : List UInt8 → Res (Option M)

/-- coda/shm_queue.hpp:44-46; `size` is the length of `buf`. -/
structure Box where
  buf : List UInt8
  pos : Nat
  deriving DecidableEq

/-- `allocate`, `clear`, coda/shm_queue.tcc:22-28, 56-61. -/
def Box.clear (bs : Nat) : Box := ⟨List.replicate bs 0, 0⟩

/-- `copy_from`, coda/shm_queue.tcc:43-48. -/
def Box.from (bytes : List UInt8) : Box := ⟨bytes, 0⟩

variable {M : Type} (T : Class M)

/-- `is_space_for`, coda/shm_queue.tcc:93-97. -/
def Box.is_space_for (b : Box) (h : M) : Bool := decide (b.pos + T.size h ≤ b.buf.length)

/-- `box::put`, coda/shm_queue.tcc:77-91; `ok none`: false, nothing changed; `ub`: `serialize` writes behind the end of the box. -/
def Box.put (b : Box) (m : M) : Res (Option Box) :=
  if b.is_space_for T m then
    if b.pos + (T.ser m).length ≤ b.buf.length then .ok (some ⟨b.buf.take b.pos ++ T.ser m ++ b.buf.drop (b.pos + (T.ser m).length), b.pos + T.size m⟩)
    else .ub
  else .ok none

/-- `queue::get` with `box::get`, coda/shm_queue.tcc:251-262, 63-75, on the object `h`; `ok none`: false. -/
def Box.get (b : Box) (h : M) : Res (Option (M × Box)) :=
  if b.is_space_for T h then (T.des (b.buf.drop b.pos)).map fun
    | some m => some (m, { b with pos := b.pos + T.size m })
    | none => none
  else .ok none

/-- The caller's loop `while (q.get(h)) …`, at most `n` times, from the object `h` on: the messages it sees.  After the message `m` the next `get` is called with the object
`next m`: `m` itself (one object for all messages, `id`), or a new one for each message.  Several calls of `get`: coda/shm_queue.tcc:251-262. -/
def Box.gets (next : M → M) (b : Box) (h : M) : Nat → Res (List M)
  | 0 => .ok []
  | n + 1 => (b.get T h).bind fun
    | some (m, b') => (Box.gets next b' (next m) n).map (m :: ·)
    | none => .ok []

/-- A writer: its current box and the boxes that went into the ring (here every flush finds room; see C56). -/
structure Writer where
  box : Box
  out : List (List UInt8)
  deriving DecidableEq

/-- `queue::flush`, coda/shm_queue.tcc:313-339. -/
def Writer.flush (bs : Nat) (w : Writer) : Writer := ⟨Box.clear bs, w.out ++ [w.box.buf]⟩

/-- `queue::put`, coda/shm_queue.tcc:301-311. -/
def Writer.put (bs : Nat) (w : Writer) (m : M) : Res (Bool × Writer) :=
  (w.box.put T m).bind fun
    | some b => .ok (true, { w with box := b })
    | none => ((w.flush bs).box.put T m).map fun
      | some b => (true, { w.flush bs with box := b })
      | none => (false, w.flush bs)

/-- Put a list of messages; the messages whose put returned true.  Several calls of `put`: coda/shm_queue.tcc:301-311. -/
def Writer.puts (bs : Nat) (w : Writer) : List M → Res (List M × Writer)
  | [] => .ok ([], w)
  | m :: ms => (w.put T bs m).bind fun r => (Writer.puts bs r.2 ms).map fun rs => (if r.1 then m :: rs.1 else rs.1, rs.2)

/-- A connected queue: coda/shm_queue.tcc:172-173. -/
def Writer.init (bs : Nat) : Writer := ⟨Box.clear bs, []⟩

end Verif.VarBox
