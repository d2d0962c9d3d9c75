/-
  Model of processes that use one shm_queue on processors that delay and reorder stores; the memory is as in Verif.MapWeak.

  Every process has a view of its own of the segment.  A store changes the view of the process that makes it at once; at every other process it arrives later,
  separately, in any order in which stores to one word stay in their order.  Reads are of the view of the process.  The semop of lock_queue returns after the stores
  that were made before have arrived at its process, unless it is interrupted.  Nothing else orders anything.  The code is that of Verif.ShmQueue.
-/
import Verif.ShmQueue.Model

namespace Verif.QueueWeak

open Verif.ShmQueue

/-- The words and bytes of the segment that change: coda/shm_queue.hpp:28-37, 64. -/
structure Shm where
  start : Nat
  end_ : Nat
  mem : Nat → UInt8

/-- A store of coda/shm_queue.tcc:264-339. -/
inductive Wr where
  | start (n : Nat)
  | end_ (n : Nat)
  | byte (a : Nat) (v : UInt8)

/-- A word of the segment or a byte of the boxes: coda/shm_queue.hpp:28-37, 64. -/
inductive Cell where
  | start
  | end_
  | byte (a : Nat)
  deriving DecidableEq

/-- What a store of coda/shm_queue.tcc:264-339 writes to. -/
def cell : Wr → Cell
  | .start _ => .start
  | .end_ _ => .end_
  | .byte a _ => .byte a

/-- A store of coda/shm_queue.tcc:264-339 arrives. -/
def store (m : Shm) : Wr → Shm
  | .start n => { m with start := n }
  | .end_ n => { m with end_ := n }
  | .byte a v => { m with mem := fun x => if x = a then v else m.mem x }

/-- The store that the next access of a process makes, if it makes one: coda/shm_queue.tcc:286-294 (copy_from, memset, start++, start %= size), 321-325 (copy_to, end++,
end %= size); as ShmQueue.adv.  Stores outside of the boxes are undefined and not sent. -/
def storeOf (size bs : Nat) (m : Shm) (p : Proc) : Option Wr :=
  match p.mode with
  | .f2 k =>
    if k < bs then (if addr bs m.end_ k < size * bs then some (.byte (addr bs m.end_ k) (p.cb.getD k 0)) else none)
    else some (.end_ ((m.end_ + 1) % 2 ^ 32))
  | .f4 => if size = 0 then none else some (.end_ (m.end_ % size))
  | .u3 k =>
    if k < bs then (if addr bs m.start k < size * bs then some (.byte (addr bs m.start k) 0) else none)
    else some (.start ((m.start + 1) % 2 ^ 32))
  | .u5 => if size = 0 then none else some (.start (m.start % size))
  | _ => none

/-- The semaphores and the processes (`start`, `end_` and `mem` of `st` are not used), the views, and the stores that have not arrived at a process yet.
Bookkeeping: processes inside of coda/shm_queue.tcc:264-339. -/
structure Sys where
  st : State
  view : Nat → Shm
  inc : Nat → List Wr

/-- The state as process `i` sees it: coda/shm_queue.hpp:28-37, 64 in its view. -/
def Sys.seen (s : Sys) (i : Nat) : State := { s.st with start := (s.view i).start, end_ := (s.view i).end_, mem := (s.view i).mem }

/-- A store (coda/shm_queue.tcc:264-339) of process `i`: it is in its view, and on its way to all others. -/
def Sys.send (s : Sys) (i : Nat) : Option Wr → Sys
  | none => s
  | some w => { s with
      view := fun j => if j = i then store (s.view j) w else s.view j,
      inc := fun j => if j = i then s.inc j else s.inc j ++ [w] }

/-- The `k`-th of the stores (coda/shm_queue.tcc:264-339) that are on their way to process `j` arrives; none before it is to the same word. -/
def Sys.arrive (s : Sys) (j k : Nat) : Option Sys :=
  match (s.inc j)[k]? with
  | some w =>
    if ∀ u ∈ (s.inc j).take k, cell u ≠ cell w then
      some { s with
        view := fun i => if i = j then store (s.view j) w else s.view i,
        inc := fun i => if i = j then (s.inc j).eraseIdx k else s.inc i }
    else none
  | none => none

/-- The process waits for the lock: coda/shm_queue.tcc:284, 315. -/
def atLock : Mode → Bool
  | .f0 => true
  | .u1 => true
  | _ => false

/-- What can happen: what happens in Verif.ShmQueue (coda/shm_queue.tcc:264-339), or a store arrives. -/
inductive Act where
  | act (l : Label)
  | arrive (j k : Nat)

/-- The successor, if the step is possible: coda/shm_queue.tcc:264-339. -/
def step (size bs : Nat) (s : Sys) : Act → Option Sys
  | .arrive j k => s.arrive j k
  | .act (.adv i) =>
    match s.st.procs[i]? with
    | some p =>
      if atLock p.mode = true ∧ s.inc i ≠ [] then none
      else (ShmQueue.adv size bs (s.seen i) i p).map (fun st => { s with st := st }.send i (storeOf size bs (s.view i) p))
    | none => none
  | .act l => (ShmQueue.step size bs s.st l).map (fun st => { s with st := st })

/-- Bookkeeping: the accesses of coda/shm_queue.tcc:264-339 in any order. -/
def exec (size bs : Nat) (s : Sys) : List Act → Option Sys
  | [] => some s
  | a :: as =>
    match step size bs s a with
    | some s' => exec size bs s' as
    | none => none

end Verif.QueueWeak
