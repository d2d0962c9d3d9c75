/-
  Model of shm::pool used by several processes at the same time, coda/shm_pool.tcc:53-70, coda/shm_stack.tcc:61-91: allocate and free as programs whose steps are single
  accesses to the shared words, in any interleaving.  With `mtx` every process holds a mutex of the program around each call; the class itself has no lock.

  Simplifications: processes do not end inside of a call; in pop the object is read before `*current` is written (the language leaves the order open).
-/
import Verif.ShmPool.Props

namespace Verif.PoolSys

open ShmPool

/-- Where a process is: the next access of allocate (coda/shm_pool.tcc:53-64, coda/shm_stack.tcc:61-71, 87-91) or free (coda/shm_pool.tcc:66-70,
coda/shm_stack.tcc:73-86), or the value that the call is about to return. -/
inductive Pc where
  | idle
  | aTop                      -- empty(): reads the stack's *current
  | aCur                      -- *current >= _OBJECTS_NUM
  | aInc                      -- (*current)++: the read
  | aSet (c : Nat)            -- (*current)++: the write
  | pTop                      -- data[(*current)--]: the read of *current
  | pData (t : Nat)           -- the read of data[t]
  | pDec (t x : Nat)          -- the write of *current
  | fTop (e : Nat)            -- used() >= _OBJECTS_NUM
  | fInc (e : Nat)            -- ++(*current): the read
  | fSet (e t : Nat)          -- ++(*current): the write
  | fData (e t : Nat)         -- data[t] = el
  | got (n : Nat)             -- allocate returns n
  | freed (e : Nat) (b : Bool) -- free(e) returns b
  deriving DecidableEq

/-- One access: coda/shm_pool.tcc:53-70, coda/shm_stack.tcc:61-91; an access outside of the data block is undefined behaviour. -/
def access (N : Nat) (p : Pool) : Pc → Res (Pool × Pc)
  | .idle => .ok (p, .idle)
  | .aTop => .ok (p, if empty p.free then .aCur else .pTop)
  | .aCur => .ok (p, if p.cur ≥ N then .got NONE else .aInc)
  | .aInc => .ok (p, .aSet p.cur)
  | .aSet c => .ok ({ p with cur := if c = NONE then 0 else c + 1 }, .got c)
  | .pTop => .ok (p, .pData p.free.top)
  | .pData t => if t < N then .ok (p, .pDec t (p.free.data t)) else .ub
  | .pDec t x => .ok ({ p with free := { p.free with top := if t = 0 then NONE else t - 1 } }, .got x)
  | .fTop e => .ok (p, if used p.free ≥ N then .freed e false else .fInc e)
  | .fInc e => .ok (p, .fSet e (used p.free))
  | .fSet e t => .ok ({ p with free := { p.free with top := t } }, .fData e t)
  | .fData e t => if t < N then .ok ({ p with free := { p.free with data := fun j => if j = t then e else p.free.data j } }, .freed e true) else .ub
  | .got n => .ok (p, .got n)
  | .freed e b => .ok (p, .freed e b)

/-- The call has accesses left to make.  Bookkeeping for coda/shm_pool.tcc:53-70. -/
def Pc.busy : Pc → Bool
  | .idle => false
  | .got _ => false
  | .freed _ _ => false
  | _ => true

/-- The pool (coda/shm_pool.hpp:14-20), the processes, the mutex of the program, and the objects that allocate has returned and nobody has given to free, one entry per return. -/
structure Sys where
  pool : Pool
  pc : Nat → Pc
  lock : Option Nat
  al : List Nat

/-- What can happen: process `i` calls allocate, calls free for an object that is in use, makes the next access, returns.  coda/shm_pool.tcc:53-70. -/
inductive Act where
  | alloc (i : Nat)
  | free (i e : Nat)
  | access (i : Nat)
  | ret (i : Nat)
  deriving DecidableEq

/-- Bookkeeping: process `i` is at `x` now.  coda/shm_pool.tcc:53-70. -/
def Sys.at (s : Sys) (i : Nat) (x : Pc) : Nat → Pc := fun j => if j = i then x else s.pc j

/-- Process `i` may begin a call: with a mutex only if nobody holds it.  Environment of coda/shm_pool.tcc:53-70. -/
def Sys.may (s : Sys) (mtx : Bool) (i : Nat) : Bool := decide (s.pc i = .idle) && (!mtx || s.lock.isNone)

/-- The mutex when process `i` begins a call.  Environment of coda/shm_pool.tcc:53-70. -/
def Sys.take (s : Sys) (mtx : Bool) (i : Nat) : Option Nat := if mtx then some i else s.lock

/-- The return of a call: coda/shm_pool.tcc:53-70. -/
def Sys.ret (s : Sys) (mtx : Bool) (i : Nat) : Pc → Option Sys
  | .got n => some { s with pc := s.at i .idle, lock := if mtx then none else s.lock, al := if n = NONE then s.al else n :: s.al }
  | .freed _ _ => some { s with pc := s.at i .idle, lock := if mtx then none else s.lock }
  | _ => none

/-- Bookkeeping: the access of process `i` and where it is afterwards.  coda/shm_pool.tcc:53-70. -/
def Sys.after (s : Sys) (i : Nat) : Res (Pool × Pc) → Res Sys
  | .ok (p, x) => .ok { s with pool := p, pc := s.at i x }
  | .ub => .ub

/-- The successor, if the step is possible: coda/shm_pool.tcc:53-70. -/
def step (N : Nat) (mtx : Bool) (s : Sys) : Act → Option (Res Sys)
  | .alloc i => if s.may mtx i then some (.ok { s with pc := s.at i .aTop, lock := s.take mtx i }) else none
  | .free i e => if s.may mtx i && decide (e ∈ s.al) then some (.ok { s with pc := s.at i (.fTop e), lock := s.take mtx i, al := s.al.erase e }) else none
  | .access i => if (s.pc i).busy then some (s.after i (access N s.pool (s.pc i))) else none
  | .ret i => (s.ret mtx i (s.pc i)).map .ok

/-- Bookkeeping: several steps of coda/shm_pool.tcc:53-70. -/
def exec (N : Nat) (mtx : Bool) (s : Sys) : List Act → Option (Res Sys)
  | [] => some (.ok s)
  | a :: as =>
    match step N mtx s a with
    | some (.ok s') => exec N mtx s' as
    | some .ub => some .ub
    | none => none

end Verif.PoolSys
