/-
  What users of shm_queue see, said without the invariant: initial states, which executions are free of kills and interruptions, which
  boxes were accepted and which were delivered in an execution.
-/
import Verif.ShmQueue.Model

namespace Verif.ShmQueue

/-- `n` processes just connected to a new queue: coda/shm_queue.tcc:22-28, 146-156, 204-217. -/
def init (bs n : Nat) : State :=
  { start := 0, end_ := 0, mem := fun _ => 0, sem := ⟨1, 0⟩, procs := List.replicate n ⟨.idle, List.replicate bs 0, ⟨0, 0⟩⟩,
    ub := false, acc := [], rcv := [], lost := 0 }

/-- Nobody is killed and no semop of lock_queue is interrupted. -/
def Label.calm : Label → Bool
  | .kill _ => false
  | .intr _ => false
  | _ => true

/-- May process `p` be killed now: it is not between `info->end++` and `info->end %= info->size` with a wrapped value, not between the
same two statements for `start`, and not in the middle of the memset that clears a received box. -/
def harmless (size : Nat) (s : State) (p : Proc) : Bool :=
  match p.mode with
  | .f4 => decide (s.end_ < size)
  | .u5 => decide (s.start < size)
  | .u3 k => decide (k = 0)
  | _ => true

def Label.isKill : Label → Bool
  | .kill _ => true
  | _ => false

/-- No interrupted lock_queue, and every kill harmless. -/
def SafeRun (size bs : Nat) (s : State) : List Label → Bool
  | [] => true
  | a :: as =>
    (match a with
      | .intr _ => false
      | .kill i => (s.procs[i]?.map (harmless size s)).getD true
      | _ => true) &&
    (match step size bs s a with
      | some s' => SafeRun size bs s' as
      | none => true)

/-- The box accepted by a step: a flush has found room and has finished copying its box. -/
def acceptedBy (bs : Nat) (s : State) : Label → List (Nat × List UInt8)
  | .adv i =>
    match s.procs[i]? with
    | some p =>
      match p.mode with
      | .f2 k => if k < bs then [] else [(i, p.cb)]
      | _ => []
    | none => []
  | _ => []

/-- The box delivered by a step: an unflush is about to return true, and this is the current box. -/
def deliveredBy (s : State) : Label → List (Nat × List UInt8)
  | .adv i =>
    match s.procs[i]? with
    | some p => if p.mode = .u6 then [(i, p.cb)] else []
    | none => []
  | _ => []

/-- Accepted boxes of an execution, with the process, in order. -/
def accepted (size bs : Nat) (s : State) : List Label → List (Nat × List UInt8)
  | [] => []
  | a :: as =>
    match step size bs s a with
    | some s' => acceptedBy bs s a ++ accepted size bs s' as
    | none => []

/-- Delivered boxes of an execution, with the process, in order. -/
def delivered (size bs : Nat) (s : State) : List Label → List (Nat × List UInt8)
  | [] => []
  | a :: as =>
    match step size bs s a with
    | some s' => deliveredBy s a ++ delivered size bs s' as
    | none => []

/-- The boxes process `i` called flush with. -/
def flushed (i : Nat) : List Label → List (List UInt8)
  | [] => []
  | .flush j b :: as => if j = i then b :: flushed i as else flushed i as
  | _ :: as => flushed i as

/-- Between lock_queue and unlock_queue. -/
def Mode.inCS : Mode → Bool
  | .f1 | .f2 _ | .f4 | .f5 | .f6 | .u2 _ | .u3 _ | .u5 | .u6 => true
  | _ => false

/-- Every process is outside of flush and unflush (or dead). -/
def quiet (s : State) : Prop := ∀ p ∈ s.procs, p.mode = .idle ∨ p.mode = .dead

end Verif.ShmQueue
