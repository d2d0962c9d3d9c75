/-
  Model of coda/shm_stack.{hpp,tcc} and coda/shm_pool.{hpp,tcc}.

  `N` is the template parameter `_OBJECTS_NUM` (a non-negative int).  uint32_t values are natural numbers below 2^32,
  arithmetic on them is written with its wrap-around.  An operation that changes shared memory yields the list of its
  writes in program order: the state after the operation is the state with all of them applied, the state in which a
  process killed in the middle leaves the memory is the state with the first few of them applied.  (No modelled operation
  reads a location it has written before.)  A write outside the data block is undefined behaviour.
-/
import Verif.Mem

namespace Verif.ShmPool

/-- `(uint32_t) -1`.  `(uint32_t) -1`: coda/shm_stack.tcc:30, 96, coda/shm_pool.tcc:58. -/
def NONE : Nat := 2 ^ 32 - 1

/-! ## shm::stack -/

/-- Shared part of a stack, coda/shm_stack.hpp:13-17: `*current` and the data block (index ↦ object). -/
structure Stk (T : Type) where
  top : Nat
  data : Nat → T

/-- A write to the shared memory of a stack.  A store of coda/shm_stack.tcc:73-97. -/
inductive SWr (T : Type) where
  | top (n : Nat)
  | data (i : Nat) (x : T)

/-- The effect of a write; `data` has `N` objects.  A store of coda/shm_stack.tcc:73-97. -/
def SWr.apply {T} (N : Nat) (s : Stk T) : SWr T → Res (Stk T)
  | .top n => .ok { s with top := n }
  | .data i x => if i < N then .ok { s with data := fun j => if j = i then x else s.data j } else .ub

/-- All writes in order.  A store of coda/shm_stack.tcc:73-97. -/
def applyS {T} (N : Nat) (s : Stk T) : List (SWr T) → Res (Stk T)
  | [] => .ok s
  | w :: ws => do
    let s ← w.apply N s
    applyS N s ws

/-- `used`, coda/shm_stack.tcc:61-65: `*current + 1` in uint32_t. -/
def used {T} (s : Stk T) : Nat := if s.top = NONE then 0 else s.top + 1

/-- `empty`, coda/shm_stack.tcc:67-71. -/
def empty {T} (s : Stk T) : Bool := used s == 0

/-- `push`, coda/shm_stack.tcc:73-86: `data[++(*current)] = el`. -/
def push {T} (N : Nat) (s : Stk T) (el : T) : Bool × List (SWr T) :=
  if used s ≥ N then (false, []) else (true, [.top (used s), .data (used s) el])

/-- `pop`, coda/shm_stack.tcc:87-91: `data[(*current)--]`.  The object is read (a read outside the block is undefined
behaviour); the decrement wraps around. -/
def pop {T} (N : Nat) (s : Stk T) : Res (T × List (SWr T)) :=
  if s.top < N then .ok (s.data s.top, [.top (if s.top = 0 then NONE else s.top - 1)]) else .ub

/-- `clear`, coda/shm_stack.tcc:93-97. -/
def clear {T} : List (SWr T) := [.top NONE]

/-- The client's operations on a stack.  Bookkeeping: the calls of coda/shm_stack.hpp:9-34 one after the other. -/
inductive SOp (T : Type) where
  | push (x : T)
  | pop
  | clear
  | used
  | empty

/-- and what they return.  Bookkeeping: the calls of coda/shm_stack.hpp:9-34 one after the other. -/
inductive SRet (T : Type) where
  | bool (b : Bool)
  | elem (x : T)
  | unit
  | num (n : Nat)
  deriving DecidableEq

/-- A complete operation.  Bookkeeping: the calls of coda/shm_stack.hpp:9-34 one after the other. -/
def sstep {T} (N : Nat) (s : Stk T) : SOp T → Res (Stk T × SRet T)
  | .push x => do
    let s' ← applyS N s (push N s x).2
    .ok (s', .bool (push N s x).1)
  | .pop => do
    let (x, ws) ← pop N s
    let s ← applyS N s ws
    .ok (s, .elem x)
  | .clear => do
    let s ← applyS N s clear
    .ok (s, .unit)
  | .used => .ok (s, .num (used s))
  | .empty => .ok (s, .bool (empty s))

/-- A history of operations: final state and the returned values.  Bookkeeping: the calls of coda/shm_stack.hpp:9-34 one after the other. -/
def srun {T} (N : Nat) (s : Stk T) : List (SOp T) → Res (Stk T × List (SRet T))
  | [] => .ok (s, [])
  | op :: ops => do
    let (s, r) ← sstep N s op
    let (s, rs) ← srun N s ops
    .ok (s, r :: rs)

/-! ## shm::pool -/

/-- Shared part of a pool, coda/shm_pool.hpp:14-20: `*current` and the stack of freed objects. -/
structure Pool where
  cur : Nat
  free : Stk Nat

/-- A write to the shared memory of a pool.  A store of coda/shm_pool.tcc:53-101. -/
inductive PWr where
  | cur (n : Nat)
  | stk (w : SWr Nat)

/-- A store of coda/shm_pool.tcc:53-101. -/
def PWr.apply (N : Nat) (p : Pool) : PWr → Res Pool
  | .cur n => .ok { p with cur := n }
  | .stk w => do
    let f ← w.apply N p.free
    .ok { p with free := f }

/-- A store of coda/shm_pool.tcc:53-101. -/
def applyP (N : Nat) (p : Pool) : List PWr → Res Pool
  | [] => .ok p
  | w :: ws => do
    let p ← w.apply N p
    applyP N p ws

/-- `allocate`, coda/shm_pool.tcc:53-64. -/
def allocate (N : Nat) (p : Pool) : Res (Nat × List PWr) :=
  if empty p.free then
    if p.cur ≥ N then .ok (NONE, []) else .ok (p.cur, [.cur (if p.cur = NONE then 0 else p.cur + 1)])
  else do
    let (x, ws) ← pop N p.free
    .ok (x, ws.map .stk)

/-- `free`, coda/shm_pool.tcc:66-70. -/
def pfree (N : Nat) (p : Pool) (elem : Nat) : Bool × List PWr :=
  ((push N p.free elem).1, (push N p.free elem).2.map .stk)

/-- `allocated_objects`, coda/shm_pool.tcc:90-94: `*current - used()` in size_t. -/
def allocated_objects (p : Pool) : Nat :=
  if used p.free ≤ p.cur then p.cur - used p.free else 2 ^ 64 - (used p.free - p.cur)

/-- `clear`, coda/shm_pool.tcc:96-101. -/
def pclear : List PWr := .cur 0 :: (clear.map .stk)

/-- `allocate`, complete.  Bookkeeping: several calls of coda/shm_pool.tcc:53-70. -/
def allocateAll (N : Nat) (p : Pool) : Res (Nat × Pool) := do
  let (i, ws) ← allocate N p
  let p ← applyP N p ws
  .ok (i, p)

/-- `free`, complete.  Bookkeeping: several calls of coda/shm_pool.tcc:53-70. -/
def freeAll (N : Nat) (p : Pool) (elem : Nat) : Res (Bool × Pool) := do
  let p' ← applyP N p (pfree N p elem).2
  .ok ((pfree N p elem).1, p')

/-! ## attach -/

/-- A stack with its header words `*reserved` and `*item_size`.  The header and the block of a stack: coda/shm_stack.hpp:13-17. -/
structure StkSeg (T : Type) where
  reserved : Nat
  item_size : Nat
  st : Stk T

/-- `stack::attach`, coda/shm_stack.tcc:16-39; the second component says whether it throws. `sz` is sizeof(_Type). -/
def sattach {T} (N sz : Nat) (s : StkSeg T) : StkSeg T × Bool :=
  if s.reserved = 0 ∧ s.item_size = 0 then
    ({ reserved := N, item_size := sz, st := { s.st with top := NONE } }, false)
  else if N ≠ s.reserved ∨ sz ≠ s.item_size then (s, true)
  else (s, false)

/-- A pool with its header words and those of its stack of free objects.  The header and the blocks of a pool: coda/shm_pool.hpp:14-20. -/
structure PoolSeg where
  reserved : Nat
  item_size : Nat
  cur : Nat
  free : StkSeg Nat

/-- `pool::attach`, coda/shm_pool.tcc:16-41; sizeof(uint32_t) = 4. -/
def pattach (N sz : Nat) (p : PoolSeg) : PoolSeg × Bool :=
  let (f, threw) := sattach N 4 p.free
  if threw then ({ p with free := f }, true)
  else if p.reserved = 0 ∧ p.item_size = 0 then
    ({ reserved := N, item_size := sz, cur := 0, free := f }, false)
  else if N ≠ p.reserved ∨ sz ≠ p.item_size then ({ p with free := f }, true)
  else ({ p with free := f }, false)

/-- The pool without headers.  The header and the blocks of a pool: coda/shm_pool.hpp:14-20. -/
def PoolSeg.pool (p : PoolSeg) : Pool := { cur := p.cur, free := p.free.st }

end Verif.ShmPool
