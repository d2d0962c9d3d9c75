/-
  Model of the message layer of coda/shm_queue.tcc: `box::put`, `box::get`, `queue::put`, `queue::get`, `queue::flush` as one process sees it.

  The user's message class `_T` is a type `M` with `size() = K` for every message, `ser m` the bytes `serialize` writes and `des` what
  `deserialize` makes of the memory at its argument (`none`: it returns false).  Simplification: `serialize` never returns false.
  Whether a flush finds room in the ring depends on the other processes: `ok n` says whether the n-th one does (the ring itself is
  Verif/ShmQueue/Model.lean).
-/
namespace Verif.ShmQueue

/-- coda/shm_queue.hpp:44-48; `size` is the length of `buf`. -/
structure Box where
  buf : List UInt8
  pos : Nat
  deriving DecidableEq

/-- `allocate`, `clear`, coda/shm_queue.tcc:22-28, 56-61. -/
def Box.clear (bs : Nat) : Box := ⟨List.replicate bs 0, 0⟩

/-- `copy_from`, coda/shm_queue.tcc:43-48. -/
def Box.from (bytes : List UInt8) : Box := ⟨bytes, 0⟩

section
variable {M : Type} (K : Nat) (ser : M → List UInt8) (des : List UInt8 → Option M)

/-- `is_space_for`, coda/shm_queue.tcc:93-97. -/
def Box.is_space_for (b : Box) : Bool := decide (b.pos + K ≤ b.buf.length)

/-- `box::put`, coda/shm_queue.tcc:77-91; `none`: false, nothing changed. -/
def Box.put (b : Box) (m : M) : Option Box :=
  if b.is_space_for K then some ⟨b.buf.take b.pos ++ ser m ++ b.buf.drop (b.pos + (ser m).length), b.pos + K⟩ else none

/-- `queue::get` with `box::get`, coda/shm_queue.tcc:251-262, 63-75; `none`: false. -/
def Box.get (b : Box) : Option (M × Box) :=
  if b.is_space_for K then
    match des (b.buf.drop b.pos) with
    | some m => some (m, { b with pos := b.pos + K })
    | none => none
  else none

/-- The caller's loop `while (q.get(h)) …`, at most `n` times: the messages it sees.  Several calls of `get`: coda/shm_queue.tcc:251-262. -/
def Box.gets (b : Box) : Nat → List M
  | 0 => []
  | n + 1 =>
    match b.get K des with
    | some (m, b') => m :: Box.gets b' n
    | none => []

/-- A writer: its current box, the boxes that went into the ring, the number of flushes.  A handle that writes and what it has sent: coda/shm_queue.hpp:62, coda/shm_queue.tcc:301-339. -/
structure Writer where
  box : Box
  out : List (List UInt8)
  n : Nat
  deriving DecidableEq

/-- `queue::flush`, coda/shm_queue.tcc:313-339: `else { // no space to write... }` drops the box. -/
def Writer.flush (bs : Nat) (ok : Nat → Bool) (w : Writer) : Writer :=
  { box := Box.clear bs, out := if ok w.n then w.out ++ [w.box.buf] else w.out, n := w.n + 1 }

/-- `queue::put`, coda/shm_queue.tcc:301-311. -/
def Writer.put (bs : Nat) (ok : Nat → Bool) (w : Writer) (m : M) : Bool × Writer :=
  match w.box.put K ser m with
  | some b => (true, { w with box := b })
  | none =>
    match (w.flush bs ok).box.put K ser m with
    | some b => (true, { w.flush bs ok with box := b })
    | none => (false, w.flush bs ok)

/-- Put a list of messages; the messages whose put returned true.  Several calls of `put`: coda/shm_queue.tcc:301-311. -/
def Writer.puts (bs : Nat) (ok : Nat → Bool) (w : Writer) : List M → List M × Writer
  | [] => ([], w)
  | m :: ms =>
    let r := w.put K ser bs ok m
    let rs := Writer.puts bs ok r.2 ms
    (if r.1 then m :: rs.1 else rs.1, rs.2)

end

/-- A connected queue: coda/shm_queue.tcc:172-173. -/
def Writer.init (bs : Nat) : Writer := ⟨Box.clear bs, [], 0⟩

end Verif.ShmQueue
