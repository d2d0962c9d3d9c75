/-
  Model of processes that are killed while they use coda/shm_queue.{hpp,tcc}: messages between processes as in Verif/QueueMsg/Model.lean, with kills between any two accesses as in
  Verif/ShmQueue/Model.lean: the kernel takes back what the process did to semaphore 0 (SEM_UNDO in lock_queue and unlock_queue, coda/shm_queue.tcc:385-403), the segment stays as it is, and the
  current box of the process is gone.
-/
import Verif.QueueMsg.Model

namespace Verif.QueueKill

open QueueMsg (World)

/-- Bookkeeping: the steps of coda/shm_queue.tcc:251-339 in any order, and kills. -/
inductive Label (M : Type) where
  | lab (a : QueueMsg.Label M)
  | kill (i : Nat)

section
variable {M : Type} (size bs K : Nat) (ser : M → List UInt8) (des : List UInt8 → Option M)

/-- The successor, if the step is possible.  Bookkeeping: the steps of coda/shm_queue.tcc:251-339 in any order, and kills. -/
def step (w : World M) : Label M → Option (World M)
  | .lab a => QueueMsg.step size bs K ser des w a
  | .kill i =>
    match ShmQueue.step size bs w.q (.kill i) with
    | some q => some { w with q := q }
    | none => none

/-- Bookkeeping: the steps of coda/shm_queue.tcc:251-339 in any order, and kills. -/
def exec (w : World M) : List (Label M) → Option (World M)
  | [] => some w
  | a :: as =>
    match step size bs K ser des w a with
    | some w' => exec w' as
    | none => none

end

end Verif.QueueKill
