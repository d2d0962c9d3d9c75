/-
  Model of coda/shm_hash_map.{hpp,tcc}: the hash map in shared memory.

  `N` is `_OBJECTS_NUM`, `H` is `_HASH_SIZE`.  Conventions as in Verif/ShmPool/Model.lean: an operation yields its result
  and its writes in program order.  The value of an entry is written by a single write (`_Type` assignment is one step).
  Every access to `objects` is checked against `N`, every access to `hash` against `H`.
-/
import Verif.ShmPool.Model

namespace Verif.ShmMap

open Verif.ShmPool

variable {V : Type}

/-- The shared memory of a map, coda/shm_hash_map.hpp:21-25, 50-65: the pool, the array `objects` of nodes (as three arrays)
and the array `hash`. -/
structure Map (V : Type) where
  pool : Pool
  key : Nat → UInt64
  val : Nat → V
  next : Nat → Nat
  hash : Nat → Nat

/-- A write to shared memory.  A store of coda/shm_hash_map.tcc:200-325, coda/shm_pool.tcc:53-101 or coda/shm_stack.tcc:73-97. -/
inductive Wr (V : Type) where
  | pool (w : PWr)
  | key (i : Nat) (k : UInt64)
  | val (i : Nat) (v : V)
  | next (i : Nat) (n : Nat)
  | hash (b : Nat) (n : Nat)

/-- `a[i] = x`.  A store of coda/shm_hash_map.tcc:200-325, coda/shm_pool.tcc:53-101 or coda/shm_stack.tcc:73-97. -/
def put {α : Type} (a : Nat → α) (i : Nat) (x : α) : Nat → α := fun j => if j = i then x else a j

/-- A store of coda/shm_hash_map.tcc:200-325, coda/shm_pool.tcc:53-101 or coda/shm_stack.tcc:73-97. -/
def Wr.apply (N H : Nat) (m : Map V) : Wr V → Res (Map V)
  | .pool w => do
    let p ← w.apply N m.pool
    .ok { m with pool := p }
  | .key i k => if i < N then .ok { m with key := put m.key i k } else .ub
  | .val i v => if i < N then .ok { m with val := put m.val i v } else .ub
  | .next i n => if i < N then .ok { m with next := put m.next i n } else .ub
  | .hash b n => if b < H then .ok { m with hash := put m.hash b n } else .ub

/-- All writes in order.  A store of coda/shm_hash_map.tcc:200-325, coda/shm_pool.tcc:53-101 or coda/shm_stack.tcc:73-97. -/
def applyM (N H : Nat) (m : Map V) : List (Wr V) → Res (Map V)
  | [] => .ok m
  | w :: ws => do
    let m ← w.apply N H m
    applyM N H m ws

/-- The loop of `unprotected_read`, coda/shm_hash_map.tcc:123-134.  The fuel bounds the number of nodes visited. -/
def readLoop (N : Nat) (m : Map V) (key : UInt64) : Nat → Nat → Res (Option V)
  | 0, elem => if elem = NONE then .ok none else .ub
  | fuel + 1, elem =>
    if elem = NONE then .ok none
    else if elem < N then
      if key = m.key elem then .ok (some (m.val elem)) else readLoop N m key fuel (m.next elem)
    else .ub

/-- `unprotected_read`, coda/shm_hash_map.tcc:117-137 (`some v`: true and `out = v`). -/
def unprotected_read (N H : Nat) (m : Map V) (key : UInt64) : Res (Option V) :=
  if H = 0 then .ub else readLoop N m key (N + 1) (m.hash (key.toNat % H))

/-- The loop of `unprotected_insert`, coda/shm_hash_map.tcc:229-258: the node with the key (`true`) or the last node of the chain (`false`). -/
def findLast (N : Nat) (m : Map V) (key : UInt64) : Nat → Nat → Res (Nat × Bool)
  | 0, _ => .ub
  | fuel + 1, el =>
    if el < N then
      if key = m.key el then .ok (el, true)
      else if m.next el ≠ NONE then findLast N m key fuel (m.next el)
      else .ok (el, false)
    else .ub

/-- `unprotected_insert`, coda/shm_hash_map.tcc:221-277. -/
def unprotected_insert (N H : Nat) (m : Map V) (key : UInt64) (v : V) : Res (Bool × List (Wr V)) :=
  if H = 0 then .ub
  else
    let hash_index := key.toNat % H
    let el := m.hash hash_index
    if el ≠ NONE then do
      let (el, found) ← findLast N m key (N + 1) el
      if found then .ok (true, [.val el v])
      else do
        let (new_node, ws) ← allocate N m.pool
        if new_node = NONE then .ok (false, ws.map .pool)
        else .ok (true, ws.map .pool ++ [.key new_node key, .val new_node v, .next new_node NONE, .next el new_node])
    else do
      let (new_node, ws) ← allocate N m.pool
      if new_node = NONE then .ok (false, ws.map .pool)
      else .ok (true, ws.map .pool ++ [.key new_node key, .val new_node v, .next new_node NONE, .hash hash_index new_node])

/-- The loop of `unprotected_erase`, coda/shm_hash_map.tcc:302-316: `prev` and `elem` when the key is found. -/
def findPrev (N : Nat) (m : Map V) (key : UInt64) : Nat → Nat → Nat → Res (Option (Nat × Nat))
  | 0, _, elem => if elem = NONE then .ok none else .ub
  | fuel + 1, prev, elem =>
    if elem = NONE then .ok none
    else if elem < N then
      if key = m.key elem then .ok (some (prev, elem)) else findPrev N m key fuel elem (m.next elem)
    else .ub

/-- `unprotected_erase`, coda/shm_hash_map.tcc:279-325.  The result of `nodes_pool.free` is ignored as in the code. -/
def unprotected_erase (N H : Nat) (m : Map V) (key : UInt64) : Res (Bool × List (Wr V)) :=
  if H = 0 then .ub
  else
    let hash_index := key.toNat % H
    let elem := m.hash hash_index
    if elem ≠ NONE then
      if elem < N then
        if key = m.key elem then
          .ok (true, [.hash hash_index (m.next elem), .next elem NONE] ++ (pfree N m.pool elem).2.map .pool)
        else do
          let r ← findPrev N m key (N + 1) elem (m.next elem)
          match r with
          | some (prev, elem) =>
            .ok (true, [.next prev (m.next elem), .next elem NONE] ++ (pfree N m.pool elem).2.map .pool)
          | none => .ok (false, [])
      else .ub
    else .ok (false, [])

/-- `clear`, coda/shm_hash_map.tcc:200-213, without the lock. -/
def clear (H : Nat) : List (Wr V) := pclear.map .pool ++ (List.range H).map (fun i => .hash i NONE)

/-- `size`, coda/shm_hash_map.tcc:102-109, without the lock. -/
def size (m : Map V) : Nat := allocated_objects m.pool

/-- `capacity`, coda/shm_hash_map.tcc:111-115. -/
def capacity (N : Nat) : Nat := N

/-- `insert(key, val)`, coda/shm_hash_map.tcc:148-155, complete (inside its lock). -/
def insert (N H : Nat) (m : Map V) (key : UInt64) (v : V) : Res (Map V × Bool) := do
  let (r, ws) ← unprotected_insert N H m key v
  let m ← applyM N H m ws
  .ok (m, r)

/-- `erase(key)`, coda/shm_hash_map.tcc:174-181, complete. -/
def erase (N H : Nat) (m : Map V) (key : UInt64) : Res (Map V × Bool) := do
  let (r, ws) ← unprotected_erase N H m key
  let m ← applyM N H m ws
  .ok (m, r)

/-- Loop of `insert(pairs, pairs_num)`, coda/shm_hash_map.tcc:162-167: the number of successes. -/
def insertLoop (N H : Nat) (m : Map V) : List (UInt64 × V) → Res (Map V × Nat)
  | [] => .ok (m, 0)
  | (k, v) :: ps => do
    let (m, r) ← insert N H m k v
    let (m, n) ← insertLoop N H m ps
    .ok (m, (if r then 1 else 0) + n)

/-- `insert(pairs, pairs_num)`, coda/shm_hash_map.tcc:157-172. -/
def insertMany (N H : Nat) (m : Map V) (ps : List (UInt64 × V)) : Res (Map V × Bool) := do
  let (m, n) ← insertLoop N H m ps
  .ok (m, n == ps.length)

/-- Loop of `erase(keys, keys_num)`, coda/shm_hash_map.tcc:188-193. -/
def eraseLoop (N H : Nat) (m : Map V) : List UInt64 → Res (Map V × Nat)
  | [] => .ok (m, 0)
  | k :: ks => do
    let (m, r) ← erase N H m k
    let (m, n) ← eraseLoop N H m ks
    .ok (m, (if r then 1 else 0) + n)

/-- `erase(keys, keys_num)`, coda/shm_hash_map.tcc:183-198. -/
def eraseMany (N H : Nat) (m : Map V) (ks : List UInt64) : Res (Map V × Bool) := do
  let (m, n) ← eraseLoop N H m ks
  .ok (m, n == ks.length)

/-! ## iteration -/

/-- `const_iterator`: position_in_hash and position_in_pool, coda/shm_hash_map.hpp:84-98. -/
abbrev Iter := Nat × Nat

/-- The loop over the buckets `i, i + 1, …` (`n` of them), coda/shm_hash_map.hpp:113-126 and 145-152. -/
def scan (m : Map V) : Nat → Nat → Iter
  | 0, _ => (NONE, NONE)
  | n + 1, i => if m.hash i ≠ NONE then (i, m.hash i) else scan m n (i + 1)

/-- `begin`, coda/shm_hash_map.hpp:143-155. -/
def begin_ (H : Nat) (m : Map V) : Iter := scan m H 0

/-- `end`, coda/shm_hash_map.hpp:157-160. -/
def end_ : Iter := (NONE, NONE)

/-- `operator++`, coda/shm_hash_map.hpp:104-130. -/
def incr (N H : Nat) (m : Map V) (it : Iter) : Res Iter :=
  if it.2 < N then
    if m.next it.2 ≠ NONE then .ok (it.1, m.next it.2) else .ok (scan m (H - (it.1 + 1)) (it.1 + 1))
  else .ub

/-- A client's loop `for (it = begin(); it != end(); ++it)` collecting key() and value().  A client's loop `for (it = begin(); it != end(); ++it)`: coda/shm_hash_map.hpp:84-160. -/
def iterate (N H : Nat) (m : Map V) : Nat → Iter → Res (List (UInt64 × V))
  | 0, it => if it = end_ then .ok [] else .ub
  | fuel + 1, it =>
    if it = end_ then .ok []
    else if it.2 < N then do
      let it' ← incr N H m it
      let l ← iterate N H m fuel it'
      .ok ((m.key it.2, m.val it.2) :: l)
    else .ub

/-! ## histories -/

/-- The client's operations.  Bookkeeping: the calls of coda/shm_hash_map.tcc:102-213 one after the other, a kill after some of the stores. -/
inductive Op (V : Type) where
  | read (k : UInt64)
  | insert (k : UInt64) (v : V)
  | erase (k : UInt64)
  | clear
  | size

/-- and what they return.  Bookkeeping: the calls of coda/shm_hash_map.tcc:102-213 one after the other, a kill after some of the stores. -/
inductive Ret (V : Type) where
  | val (v : Option V)
  | bool (b : Bool)
  | num (n : Nat)
  | unit
  deriving DecidableEq

/-- One operation.  Bookkeeping: the calls of coda/shm_hash_map.tcc:102-213 one after the other, a kill after some of the stores. -/
def step (N H : Nat) (m : Map V) : Op V → Res (Map V × Ret V)
  | .read k => do
    let v ← unprotected_read N H m k
    .ok (m, .val v)
  | .insert k v => do
    let (m, r) ← insert N H m k v
    .ok (m, .bool r)
  | .erase k => do
    let (m, r) ← erase N H m k
    .ok (m, .bool r)
  | .clear => do
    let m ← applyM N H m (clear H)
    .ok (m, .unit)
  | .size => .ok (m, .num (size m))

/-- A history.  Bookkeeping: the calls of coda/shm_hash_map.tcc:102-213 one after the other, a kill after some of the stores. -/
def run (N H : Nat) (m : Map V) : List (Op V) → Res (Map V × List (Ret V))
  | [] => .ok (m, [])
  | op :: ops => do
    let (m, r) ← step N H m op
    let (m, rs) ← run N H m ops
    .ok (m, r :: rs)

/-- The writes of an operation in program order (coda/shm_hash_map.tcc:139-198: read, insert, erase; :200-213: clear). -/
def writes (N H : Nat) (m : Map V) : Op V → Res (List (Wr V))
  | .read _ => .ok []
  | .insert k v => do
    let (_, ws) ← unprotected_insert N H m k v
    .ok ws
  | .erase k => do
    let (_, ws) ← unprotected_erase N H m k
    .ok ws
  | .clear => .ok (clear H)
  | .size => .ok []

/-- The process executing `op` is killed after `n` of its writes.  Its semaphore adjustments are undone (SEM_UNDO), what it wrote stays.  Bookkeeping: the calls of coda/shm_hash_map.tcc:102-213 one after the other, a kill after some of the stores. -/
def kill (N H : Nat) (m : Map V) (op : Op V) (n : Nat) : Res (Map V) := do
  let ws ← writes N H m op
  applyM N H m (ws.take n)

/-! ## attach -/

/-- The segment with all its header words.  The segment with its header: coda/shm_hash_map.hpp:56-65, coda/shm_hash_map.tcc:35-71. -/
structure Seg (V : Type) where
  objects_num : Nat
  item_size : Nat
  hash_size : Nat
  pool : PoolSeg
  key : Nat → UInt64
  val : Nat → V
  next : Nat → Nat
  hash : Nat → Nat

/-- `attach`, coda/shm_hash_map.tcc:30-77: the segment afterwards and whether it throws.  `tsz` is sizeof(_Type), `nsz` is sizeof(node). -/
def attach (N H tsz nsz : Nat) (s : Seg V) : Seg V × Bool :=
  if s.objects_num = 0 ∧ s.item_size = 0 ∧ s.hash_size = 0 then
    let s := { s with
      objects_num := N, item_size := tsz, hash_size := H, hash := fun i => if i < H then NONE else s.hash i }
    let (p, threw) := pattach N nsz s.pool
    ({ s with pool := p }, threw)
  else if N ≠ s.objects_num ∨ tsz ≠ s.item_size ∨ H ≠ s.hash_size then (s, true)
  else
    let (p, threw) := pattach N nsz s.pool
    ({ s with pool := p }, threw)

/-- The map without headers.  The segment with its header: coda/shm_hash_map.hpp:56-65, coda/shm_hash_map.tcc:35-71. -/
def Seg.map (s : Seg V) : Map V := { pool := s.pool.pool, key := s.key, val := s.val, next := s.next, hash := s.hash }

end Verif.ShmMap
