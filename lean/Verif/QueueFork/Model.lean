/-
  Model of fork() in programs that use shm_queue::queue, over Verif.QueueMsg: the child has a copy of the queue object and of its current box (coda/shm_queue.hpp:42-70), is attached to the same
  segment (shmat(2): attached segments are inherited) and uses the same semaphores; the adjustments of SEM_UNDO are not inherited (semop(2)).

  Processes are numbered; process `j` of a `fork i j` has not existed before: in Verif.QueueMsg it is one that has not made a call yet.  A process does not fork inside of a call.
-/
import Verif.QueueMsg.Model

namespace Verif.QueueFork

open QueueMsg (World Loc upd idle)

/-- Bookkeeping: the steps of coda/shm_queue.tcc:251-339 in any order, and fork(2). -/
inductive Label (M : Type) where
  | lab (a : QueueMsg.Label M)
  | fork (i j : Nat)

section
variable {M : Type} (size bs K : Nat) (ser : M → List UInt8) (des : List UInt8 → Option M)

/-- The successor, if the step is possible.  Bookkeeping: the steps of coda/shm_queue.tcc:251-339 in any order, and fork(2). -/
def step (w : World M) : Label M → Option (World M)
  | .lab a => QueueMsg.step size bs K ser des w a
  | .fork i j => if idle w i && idle w j then some { w with loc := upd w.loc j (w.loc i) } else none

/-- Bookkeeping: the steps of coda/shm_queue.tcc:251-339 in any order, and fork(2). -/
def exec (w : World M) : List (Label M) → Option (World M)
  | [] => some w
  | a :: as =>
    match step size bs K ser des w a with
    | some w' => exec w' as
    | none => none

end

end Verif.QueueFork
