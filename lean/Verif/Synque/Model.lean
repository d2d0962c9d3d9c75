/-
  Model of coda/synque.hpp: a deque protected by one mutex with one condition variable, as a transition system: any number of threads,
  every interleaving of their steps.

  The deque is read and written in separate steps, so that only the mutex makes an operation atomic.  pthread_mutex_lock is a step that
  is possible only while the mutex is free.  pthread_cond_wait releases the mutex and enters the wait set in one step and has to take
  the mutex again after it was woken; pthread_cond_signal wakes a waiting thread if there is one; a waiting thread may also be woken
  for no reason (`spur`; this also covers implementations that wake more than one).  `throw`: an exception of the element's copy or of
  the allocation leaves the function with the deque unchanged.
  Fields `acc`, `rets`, `sizes` and the component `d0` of the modes are history; no step depends on them.
-/
namespace Verif.Synque

/-- Which of the two `get`s, and the argument `canwait`: coda/synque.hpp:45, 74. -/
structure Req where
  max : Option Int   -- none: get of one element; some max_count: batch get
  canwait : Bool
  deriving DecidableEq

/-- Where a thread is.  The places of coda/synque.hpp:30-114. -/
inductive Mode (T : Type) where
  | idle
  | a0 (e : T)                    -- add: before pthread_mutex_lock
  | a1 (e : T)                    -- before push_front
  | a1w (e : T) (copy : List T)   -- inside push_front: the deque was read
  | a2                            -- before pthread_cond_signal
  | a3                            -- before pthread_mutex_unlock
  | s0 | s1 | s2                  -- signal(): before lock, signal, unlock
  | z0 | z1 | z2 (n : Nat)        -- size(): before lock, d.size(), unlock
  | g0 (rq : Req)                 -- get: before pthread_mutex_lock
  | g1 (rq : Req)                 -- before the first d.empty()
  | gw (rq : Req)                 -- in pthread_cond_wait, in the wait set
  | gr (rq : Req)                 -- in pthread_cond_wait, woken, taking the mutex
  | g2 (rq : Req)                 -- before the second d.empty()
  | g3 (rq : Req) (w : Bool) (k : Nat) (out d0 : List T)                  -- `k` more elements to take; `w`: has waited
  | g3w (rq : Req) (w : Bool) (k : Nat) (out d0 : List T) (copy : List T) -- inside pop_back: the deque was read
  | g4 (rq : Req) (ret : Int) (out d0 : List T)                           -- before pthread_mutex_unlock
  deriving DecidableEq

/-- What a `get` returned: its return value, what it put into its output, the deque it saw.  What the calls of coda/synque.hpp:30-114 return. -/
structure Ret (T : Type) where
  who : Nat
  rq : Req
  ret : Int
  out : List T
  d0 : List T
  deriving DecidableEq

/-- The members of coda/synque.hpp:13-15 and the threads; pthread_mutex_lock and pthread_mutex_unlock. -/
structure State (T : Type) where
  mtx : Option Nat
  d : List T          -- front first
  thr : List (Mode T)
  ub : Bool
  acc : List (Nat × T)
  rets : List (Ret T)
  sizes : List (Nat × Nat × Nat)  -- results of size(), each with the numbers of elements added and handed out so far

/-- Bookkeeping: the steps of coda/synque.hpp:30-114 in any order. -/
inductive Label (T : Type) where
  | add (i : Nat) (e : T)
  | signal (i : Nat)
  | get (i : Nat) (rq : Req)
  | size (i : Nat)
  | adv (i : Nat)
  | sig (i j : Nat)     -- the pthread_cond_signal of thread `i` wakes thread `j`
  | spur (j : Nat)
  | throw (i : Nat)

variable {T : Type}

/-- The members of coda/synque.hpp:13-15 and the threads; pthread_mutex_lock and pthread_mutex_unlock. -/
def State.upd (s : State T) (i : Nat) (m : Mode T) : State T := { s with thr := s.thr.set i m }

/-- `pthread_mutex_lock`.  The members of coda/synque.hpp:13-15 and the threads; pthread_mutex_lock and pthread_mutex_unlock. -/
def State.lock (s : State T) (i : Nat) (m : Mode T) : Option (State T) :=
  match s.mtx with
  | none => some ({ s with mtx := some i }.upd i m)
  | some _ => none

/-- `pthread_mutex_unlock`; undefined if another thread owns the mutex.  The members of coda/synque.hpp:13-15 and the threads; pthread_mutex_lock and pthread_mutex_unlock. -/
def State.unlock (s : State T) (i : Nat) (m : Mode T) : State T :=
  if s.mtx = some i then { s with mtx := none }.upd i m else { s with ub := true }

/-- `quantity`: one element, coda/synque.hpp:66-67, or lines 94-96. -/
def quantity (rq : Req) (size : Nat) : Nat :=
  match rq.max with
  | none => 1
  | some m => if 0 < m ∧ m < size then m.toNat else size

/-- The places of coda/synque.hpp:30-114. -/
def Mode.waiting : Mode T → Bool
  | .gw _ => true
  | _ => false

/-- One step of thread `i`: add lines 30-36, signal 38-43, get 45-72, batch get 74-106, size 108-114 of coda/synque.hpp. -/
def adv (s : State T) (i : Nat) : Mode T → Option (State T)
  | .idle => none
  | .a0 e => s.lock i (.a1 e)
  | .a1 e => some (s.upd i (.a1w e s.d))
  | .a1w e copy => some ({ s with d := e :: copy, acc := s.acc ++ [(i, e)] }.upd i .a2)
  | .a2 => if s.thr.any Mode.waiting then none else some (s.upd i .a3)
  | .a3 => some (s.unlock i .idle)
  | .s0 => s.lock i .s1
  | .s1 => if s.thr.any Mode.waiting then none else some (s.upd i .s2)
  | .s2 => some (s.unlock i .idle)
  | .z0 => s.lock i .z1
  | .z1 => some (s.upd i (.z2 s.d.length))
  | .z2 n => some (State.unlock { s with sizes := s.sizes ++ [(n, s.acc.length, (s.rets.flatMap Ret.out).length)] } i .idle)
  | .g0 rq => s.lock i (.g1 rq)
  | .g1 rq =>
    if s.d.isEmpty then
      if rq.canwait then some (s.unlock i (.gw rq)) else some (s.upd i (.g4 rq (-1) [] s.d))
    else some (s.upd i (.g3 rq false (quantity rq s.d.length) [] s.d))
  | .gw _ => none
  | .gr rq => s.lock i (.g2 rq)
  | .g2 rq =>
    if s.d.isEmpty then some (s.upd i (.g4 rq (-1) [] s.d))
    else some (s.upd i (.g3 rq true (quantity rq s.d.length) [] s.d))
  | .g3 rq w k out d0 =>
    match k with
    | 0 => some (s.upd i (.g4 rq 0 out d0))
    | k + 1 => some (s.upd i (.g3w rq w (k + 1) out d0 s.d))
  | .g3w rq w k out d0 copy =>
    match copy.getLast? with
    | some x => some ({ s with d := copy.dropLast }.upd i (.g3 rq w (k - 1) (out ++ [x]) d0))
    | none => some { s with ub := true }
  | .g4 rq ret out d0 => some (State.unlock { s with rets := s.rets ++ [⟨i, rq, ret, out, d0⟩] } i .idle)

/-- The successor, if the step is possible.  Bookkeeping: the steps of coda/synque.hpp:30-114 in any order. -/
def step (s : State T) : Label T → Option (State T)
  | .add i e =>
    match s.thr[i]? with
    | some .idle => some (s.upd i (.a0 e))
    | _ => none
  | .signal i =>
    match s.thr[i]? with
    | some .idle => some (s.upd i .s0)
    | _ => none
  | .get i rq =>
    match s.thr[i]? with
    | some .idle => some (s.upd i (.g0 rq))
    | _ => none
  | .size i =>
    match s.thr[i]? with
    | some .idle => some (s.upd i .z0)
    | _ => none
  | .adv i =>
    match s.thr[i]? with
    | some m => adv s i m
    | none => none
  | .sig i j =>
    match s.thr[i]?, s.thr[j]? with
    | some .a2, some (.gw rq) => some ((s.upd j (.gr rq)).upd i .a3)
    | some .s1, some (.gw rq) => some ((s.upd j (.gr rq)).upd i .s2)
    | _, _ => none
  | .spur j =>
    match s.thr[j]? with
    | some (.gw rq) => some (s.upd j (.gr rq))
    | _ => none
  | .throw i =>
    match s.thr[i]? with
    | some (.a1w _ _) => some (s.upd i .idle)
    | some (.g3w _ _ _ _ _ _) => some (s.upd i .idle)
    | _ => none

/-- Bookkeeping: the steps of coda/synque.hpp:30-114 in any order. -/
def exec (s : State T) : List (Label T) → Option (State T)
  | [] => some s
  | a :: as =>
    match step s a with
    | some s' => exec s' as
    | none => none

end Verif.Synque
