/-
  Model of threads of one process that share one object of class shm_queue::queue, coda/shm_queue.tcc:43-97, 251-339.

  The calls work on the current box of the object, `ptr`, `size` and `pos` (coda/shm_queue.hpp:44-46), outside of any lock; only the copies
  between the current box and the ring are inside of lock_queue.  Every access to `pos` is a step of its own, and so is every access to the
  memory of the box as a whole (simplification: serialize, deserialize, memcpy and memset are one step each; the memory is sequentially
  consistent, while C++ makes no promise at all for unsynchronised accesses).  The threads may hold a mutex of the program around
  every call: then `guard` is true and a call begins only when no other is in progress.
  Other processes: the n-th copy into the ring finds room if `ok n`, the n-th unflush receives `rx n` (none: it returns false), for any `ok` and `rx`.
  All messages have `K` bytes; serialize and deserialize return true.
-/
import Verif.Mem

namespace Verif.QueueThreads

/-- A call of a thread: coda/shm_queue.hpp:86-90. -/
inductive Call where
  | put (m : List UInt8)
  | flush
  | get
  | unflush
  deriving DecidableEq

/-- What a call returns, with the bytes that `get` gave to deserialize: coda/shm_queue.hpp:86-90. -/
inductive Ret where
  | bool (b : Bool)
  | void
  | msg (m : Option (List UInt8))
  deriving DecidableEq

/-- A place in coda/shm_queue.tcc:43-97, 251-339: before the access named. -/
inductive Pc where
  | idle
  | space (m : List UInt8) (again : Bool)     -- box::put, :82, :96: pos + h.size() <= size
  | arg (m : List UInt8)                      -- :82: ptr + pos
  | ser (m : List UInt8) (p : Nat)            -- :82: serialize writes at ptr + p
  | addR (m : List UInt8)                     -- :84: pos += sz, the read
  | addW (m : List UInt8) (p : Nat)           -- :84: pos += sz, the write
  | copy (next : Option (List UInt8))         -- flush, :316-337: the copy into the ring, under the lock; `next`: the message of the put that called it
  | zero (next : Option (List UInt8))         -- :338, :59: memset
  | rewind (next : Option (List UInt8))       -- :338, :60: pos = 0
  | gspace                                    -- get, :254, :96
  | garg                                      -- box::get, :66: ptr + pos
  | gdes (p : Nat)                            -- :66: deserialize reads at ptr + p
  | gaddR (b : List UInt8)                    -- :68: pos += h.size(), the read
  | gaddW (b : List UInt8) (p : Nat)          -- :68: the write
  | recv                                      -- unflush, :267-296: semtimedop and the copy out of the ring, under the lock
  | rstart                                    -- :287, :47: pos = 0
  | ret (c : Call) (r : Ret)                  -- the call returns
  deriving DecidableEq

/-- The object that the threads share (coda/shm_queue.hpp:42-62), the boxes it sent, the number of its flushes and unflushes; the threads; the calls that have
returned.  `bad`: an access outside of the box has happened. -/
structure St where
  buf : List UInt8
  pos : Nat
  out : List (List UInt8)
  nf : Nat
  nu : Nat
  thr : List Pc
  log : List (Call × Ret)
  bad : Bool
  deriving DecidableEq

/-- `n` threads and an object that has just been connected with boxes of `bs` bytes: coda/shm_queue.tcc:172-173, 21-28. -/
def init (bs n : Nat) : St := ⟨List.replicate bs 0, 0, [], 0, 0, List.replicate n .idle, [], false⟩

/-- Where a call begins: coda/shm_queue.tcc:251-254, 264-267, 301-304, 313-316. -/
def begin : Call → Pc
  | .put m => .space m false
  | .flush => .copy none
  | .get => .gspace
  | .unflush => .recv

/-- Thread `i` goes on to `q`.  Bookkeeping for coda/shm_queue.tcc:43-97, 251-339. -/
def St.go (s : St) (i : Nat) (q : Pc) : St := { s with thr := s.thr.set i q }

/-- The test of `is_space_for`, coda/shm_queue.tcc:93-97, in put. -/
def spaceStep (K : Nat) (s : St) (i : Nat) (m : List UInt8) (again : Bool) : St :=
  if s.pos + K ≤ s.buf.length then s.go i (.arg m)
  else if again then s.go i (.ret (.put m) (.bool false)) else s.go i (.copy (some m))

/-- `serialize(ptr + p)`, coda/shm_queue.tcc:82. -/
def serStep (s : St) (i : Nat) (m : List UInt8) (p : Nat) : St :=
  if p + m.length ≤ s.buf.length then { s.go i (.addR m) with buf := patch s.buf p m } else { s with bad := true }

/-- After `clear`, coda/shm_queue.tcc:309-311, 338-339. -/
def rewindStep (s : St) (i : Nat) : Option (List UInt8) → St
  | none => { s.go i (.ret .flush .void) with pos := 0 }
  | some m => { s.go i (.space m true) with pos := 0 }

/-- `deserialize(ptr + p)`, coda/shm_queue.tcc:66. -/
def desStep (K : Nat) (s : St) (i : Nat) (p : Nat) : St :=
  if p + K ≤ s.buf.length then s.go i (.gaddR ((s.buf.drop p).take K)) else { s with bad := true }

/-- `unflush`, coda/shm_queue.tcc:267-296: nothing comes within the time, or a box is copied. -/
def recvStep (rx : Nat → Option (List UInt8)) (s : St) (i : Nat) : St :=
  match rx s.nu with
  | none => { s.go i (.ret .unflush (.bool false)) with nu := s.nu + 1 }
  | some b => { s.go i .rstart with buf := b, nu := s.nu + 1 }

/-- The next access of thread `i`, which is at `q`: coda/shm_queue.tcc:43-97, 251-339. -/
def adv (K : Nat) (ok : Nat → Bool) (rx : Nat → Option (List UInt8)) (s : St) (i : Nat) : Pc → Option St
  | .idle => none
  | .space m again => some (spaceStep K s i m again)
  | .arg m => some (s.go i (.ser m s.pos))
  | .ser m p => some (serStep s i m p)
  | .addR m => some (s.go i (.addW m s.pos))
  | .addW m p => some { s.go i (.ret (.put m) (.bool true)) with pos := p + K }
  | .copy next => some { s.go i (.zero next) with out := if ok s.nf then s.out ++ [s.buf] else s.out, nf := s.nf + 1 }
  | .zero next => some { s.go i (.rewind next) with buf := List.replicate s.buf.length 0 }
  | .rewind next => some (rewindStep s i next)
  | .gspace => some (if s.pos + K ≤ s.buf.length then s.go i .garg else s.go i (.ret .get (.msg none)))
  | .garg => some (s.go i (.gdes s.pos))
  | .gdes p => some (desStep K s i p)
  | .gaddR b => some (s.go i (.gaddW b s.pos))
  | .gaddW b p => some { s.go i (.ret .get (.msg (some b))) with pos := p + K }
  | .recv => some (recvStep rx s i)
  | .rstart => some { s.go i (.ret .unflush (.bool true)) with pos := 0 }
  | .ret c r => some { s.go i .idle with log := s.log ++ [(c, r)] }

/-- What happens next: a thread calls (coda/shm_queue.hpp:86-90), or makes the next access of its call. -/
inductive Label where
  | call (i : Nat) (c : Call)
  | adv (i : Nat)
  deriving DecidableEq

/-- Bookkeeping: threads make calls of coda/shm_queue.tcc:251-339 in any order; with `guard`, one after the other. -/
def step (guard : Bool) (K : Nat) (ok : Nat → Bool) (rx : Nat → Option (List UInt8)) (s : St) : Label → Option St
  | .call i c =>
    if s.bad then none
    else if s.thr[i]? = some .idle ∧ (guard = true → ∀ q ∈ s.thr, q = .idle) then some (s.go i (begin c)) else none
  | .adv i =>
    if s.bad then none
    else match s.thr[i]? with
      | some q => adv K ok rx s i q
      | none => none

/-- Bookkeeping: several steps of threads that call coda/shm_queue.tcc:251-339. -/
def run (guard : Bool) (K : Nat) (ok : Nat → Bool) (rx : Nat → Option (List UInt8)) (s : St) : List Label → Option St
  | [] => some s
  | l :: ls =>
    match step guard K ok rx s l with
    | some s => run guard K ok rx s ls
    | none => none

end Verif.QueueThreads
