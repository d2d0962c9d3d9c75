import Verif.QueueMake.Model
/-
  What connected processes may rely on.
-/
namespace Verif.QueueMake

/-- What a connected process does: a change of the memory, a change of the counting semaphore. -/
inductive Op (D : Type) where
  | mem (f : D → D)
  | count (x : Int)

variable {D : Type}

/-- What connected processes have done in a run. -/
def done : List (Label D) → List (Op D)
  | [] => []
  | .body _ f :: r => .mem f :: done r
  | .count _ x :: r => .count x :: done r
  | _ :: r => done r

/-- The memory after what connected processes have done, from that of a new segment. -/
def memAfter (zero : D) (log : List (Op D)) : D :=
  log.foldl (fun d o => match o with
    | .mem f => f d
    | .count _ => d) zero

/-- The counting semaphore after it. -/
def countAfter (log : List (Op D)) : Int :=
  log.foldl (fun c o => match o with
    | .mem _ => c
    | .count x => c + x) 0

/-- Process `i` has the lock of the queue: in an operation, or in connect. -/
def Holds (s : State D) (i : Nat) : Prop :=
  s.mode i = .inside ∨ s.mode i = .s0 ∨ s.mode i = .s1 ∨ (∃ b, s.mode i = .s2 b) ∨ s.mode i = .s3 ∨ s.mode i = .s4 ∨ s.mode i = .s5 ∨ s.mode i = .s6

def Connected (s : State D) (i : Nat) : Prop := s.mode i = .idle ∨ s.mode i = .inside

/-- Process `i` is about to make the semaphores: it has seen that there are none. -/
def Making (s : State D) (i : Nat) : Prop := s.mode i = .c1 ∨ s.mode i = .c2 ∨ s.mode i = .c3

/-- No process begins to connect while another one is making the semaphores; no process is killed between semget and SETVAL of the first semaphore, or after it has made the segment
and before its parameters are there. -/
def SafeAct (s : State D) : Label D → Prop
  | .adv i => s.mode i = .out → ∀ j, ¬ Making s j
  | .kill i => s.mode i ≠ .c2 ∧ s.mode i ≠ .s2 true ∧ s.mode i ≠ .s3 ∧ s.mode i ≠ .s4
  | _ => True

def Safe (bs n : Nat) (zero : D) : State D → List (Label D) → Prop
  | _, [] => True
  | s, x :: xs => SafeAct s x ∧ ∀ t, step bs n zero s x = some t → Safe bs n zero t xs

end Verif.QueueMake
