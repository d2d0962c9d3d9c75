/-
  Model of `unflush(short sem_flg, long sem_usec)`, coda/shm_queue.hpp:87, coda/shm_queue.tcc:264-299, with its two parameters: the flags and the time to wait; and of
  what the kernel does with them: a wait that ends when another process flushes, or when the time is over, and SEM_UNDO, which is carried out when the process exits.

  All other calls are those of Verif.QueueApi.  A handle stands for a process that has one queue object.  Signals do not arrive (a signal makes unflush return false).
-/
import Verif.QueueApi.Model

namespace Verif.QueueOpt
open Verif.QueueApi

/-- struct timespec.  struct timespec of coda/shm_queue.tcc:274-277, as semtimedop(2) takes it. -/
structure Timespec where
  sec : Int
  nsec : Int

/-- coda/shm_queue.tcc:276-277; `/` and `%` of C round towards zero. -/
def toTs (usec : Int) : Timespec := ⟨usec.tdiv 1000000, usec.tmod 1000000 * 1000⟩

/-- The kernel accepts the time (otherwise semtimedop fails with EINVAL, before it looks at the semaphore).  struct timespec of coda/shm_queue.tcc:274-277, as semtimedop(2) takes it. -/
def Timespec.valid (t : Timespec) : Bool := decide (0 ≤ t.sec ∧ 0 ≤ t.nsec ∧ t.nsec < 1000000000)

/-- The time in nanoseconds.  struct timespec of coda/shm_queue.tcc:274-277, as semtimedop(2) takes it. -/
def Timespec.ns (t : Timespec) : Int := t.sec * 1000000000 + t.nsec

/-- The parameter `sem_flg`: IPC_NOWAIT and SEM_UNDO.  `sem_flg`: coda/shm_queue.tcc:265, 272. -/
structure Flags where
  nowait : Bool
  undo : Bool

/-- The queues, and for each process and key what the kernel adds to the number of boxes when the process exits.  Environment: the semaphore of coda/shm_queue.tcc:279, 330 and what the kernel notes for SEM_UNDO. -/
structure XWorld where
  w : World
  adj : Nat → Nat → Nat

/-- Environment: the semaphore of coda/shm_queue.tcc:279, 330 and what the kernel notes for SEM_UNDO. -/
def XWorld.init : XWorld := ⟨World.init, fun _ _ => 0⟩

/-- The number of boxes, as the semaphore says. none: no semaphores.  Environment: the semaphore of coda/shm_queue.tcc:279, 330 and what the kernel notes for SEM_UNDO. -/
def boxCount (w : World) (H : Handle) : Option Nat := H.sem.bind fun k => (w.sems k).map (·.w)

/-- How semtimedop begins: it is done at once, or has failed at once, or waits.  How semtimedop(2) at coda/shm_queue.tcc:279 begins and ends. -/
inductive Start where
  | done
  | failed
  | waits

/-- semtimedop: coda/shm_queue.tcc:279. -/
def semtimedop (w : World) (H : Handle) (f : Flags) (ts : Timespec) : Start :=
  if ts.valid then
    match boxCount w H with
    | none => .failed
    | some 0 => if f.nowait then .failed else .waits
    | some _ => .done
  else .failed

/-- What SEM_UNDO records.  Environment: the semaphore of coda/shm_queue.tcc:279, 330 and what the kernel notes for SEM_UNDO. -/
def record (x : XWorld) (h : Nat) (f : Flags) : XWorld :=
  match (x.w.hs h).sem with
  | none => x
  | some k => if f.undo then { x with adj := fun i j => if i = h ∧ j = k then x.adj i j + 1 else x.adj i j } else x

/-- coda/shm_queue.tcc:279-297, when semtimedop succeeds. -/
def take (x : XWorld) (h : Nat) (f : Flags) : Res (XWorld × Reply) := do
  let (w, r) ← QueueApi.unflush x.w h
  .ok ({ record x h f with w := w }, r)

/-- A reply, and how many nanoseconds the call waited for a box.  How semtimedop(2) at coda/shm_queue.tcc:279 begins and ends. -/
structure Answer where
  reply : Reply
  waited : Int
  deriving DecidableEq

/-- unflush while no other process does anything: coda/shm_queue.tcc:264-299. -/
def unflush (x : XWorld) (h : Nat) (f : Flags) (usec : Int) : Res (XWorld × Answer) :=
  if (x.w.hs h).boxes then
    match semtimedop x.w (x.w.hs h) f (toTs usec) with
    | .done => do
      let (x, r) ← take x h f
      .ok (x, ⟨r, 0⟩)
    | .failed => .ok (x, ⟨.bool false, 0⟩)
    | .waits => .ok (x, ⟨.bool false, (toTs usec).ns⟩)
  else .ok (x, ⟨.bool false, 0⟩)

/-- The process `g` calls flush.  What other processes do while semtimedop at coda/shm_queue.tcc:279 waits: flush, coda/shm_queue.tcc:313-339. -/
def flushBy (x : XWorld) (g : Nat) : Res (XWorld × Answer) := do
  let (w, r) ← QueueApi.flush x.w g
  .ok ({ x with w := w }, ⟨r, 0⟩)

/-- unflush first, then flush.  What other processes do while semtimedop at coda/shm_queue.tcc:279 waits: flush, coda/shm_queue.tcc:313-339. -/
def oneByOne (x : XWorld) (h : Nat) (f : Flags) (usec : Int) (g : Nat) : Res (XWorld × List Answer) := do
  let (x, a) ← unflush x h f usec
  let (x, b) ← flushBy x g
  .ok (x, [a, b])

/-- The process `h` waits in semtimedop; the process `g` flushes after `t` nanoseconds, before the time is over.  What other processes do while semtimedop at coda/shm_queue.tcc:279 waits: flush, coda/shm_queue.tcc:313-339. -/
def meanwhile (x : XWorld) (h : Nat) (f : Flags) (usec : Int) (t : Nat) (g : Nat) : Res (XWorld × List Answer) := do
  let (x, b) ← flushBy x g
  match boxCount x.w (x.w.hs h) with
  | some (_ + 1) => do
    let (x, r) ← take x h f
    .ok (x, [⟨r, t⟩, b])
  | _ => .ok (x, [⟨.bool false, (toTs usec).ns⟩, b])

/-- The process `h` calls unflush and, `t` nanoseconds later, the process `g` calls flush. The answers: of unflush, of flush.  What other processes do while semtimedop at coda/shm_queue.tcc:279 waits: flush, coda/shm_queue.tcc:313-339. -/
def race (x : XWorld) (h : Nat) (f : Flags) (usec : Int) (t : Nat) (g : Nat) : Res (XWorld × List Answer) :=
  if (x.w.hs h).boxes then
    match semtimedop x.w (x.w.hs h) f (toTs usec) with
    | .waits => if (t : Int) < (toTs usec).ns then meanwhile x h f usec t g else oneByOne x h f usec g
    | _ => oneByOne x h f usec g
  else oneByOne x h f usec g

/-- The kernel undoes what was recorded for the process: the semaphore gets not larger than SEMVMX.  Environment: the semaphore of coda/shm_queue.tcc:279, 330 and what the kernel notes for SEM_UNDO. -/
def undo (x : XWorld) (h : Nat) : XWorld :=
  { w := { x.w with sems := fun k => (x.w.sems k).map fun s => { s with w := min SEMVMX (s.w + x.adj h k) } }
    adj := fun i j => if i = h then 0 else x.adj i j }

/-- The process exits: its segment is detached, its queue object is gone; another process may use the number.  Environment: the semaphore of coda/shm_queue.tcc:279, 330 and what the kernel notes for SEM_UNDO. -/
def exit (x : XWorld) (h : Nat) : Res (XWorld × Answer) := do
  let (w, r) ← QueueApi.disconnect x.w h
  .ok (undo { x with w := w } h, ⟨r, 0⟩)

/-- Bookkeeping: calls of coda/shm_queue.tcc:264-339 one after the other. -/
inductive XOp where
  | call (op : Op)
  | unflush (h : Nat) (f : Flags) (usec : Int)
  | race (h : Nat) (f : Flags) (usec : Int) (t : Nat) (g : Nat)
  | exit (h : Nat)

/-- Bookkeeping: calls of coda/shm_queue.tcc:264-339 one after the other. -/
def one (r : Res (XWorld × Answer)) : Res (XWorld × List Answer) := do
  let (x, a) ← r
  .ok (x, [a])

/-- Bookkeeping: calls of coda/shm_queue.tcc:264-339 one after the other. -/
def call (x : XWorld) (op : Op) : Res (XWorld × Answer) := do
  let (w, r) ← QueueApi.step x.w op
  .ok ({ x with w := w }, ⟨r, 0⟩)

/-- Bookkeeping: calls of coda/shm_queue.tcc:264-339 one after the other. -/
def xstep (x : XWorld) : XOp → Res (XWorld × List Answer)
  | .call op => one (call x op)
  | .unflush h f usec => one (unflush x h f usec)
  | .race h f usec t g => race x h f usec t g
  | .exit h => one (exit x h)

/-- Bookkeeping: calls of coda/shm_queue.tcc:264-339 one after the other. -/
def xrun (x : XWorld) : List XOp → Res (XWorld × List Answer)
  | [] => .ok (x, [])
  | op :: ops => do
    let (x, a) ← xstep x op
    let (x, as) ← xrun x ops
    .ok (x, a ++ as)

end Verif.QueueOpt
