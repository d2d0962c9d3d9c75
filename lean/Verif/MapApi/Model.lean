/-
  Model of the life of shm::hash_map objects, coda/shm_hash_map.tcc:6-115, 200-219, 327-457: the layout of the segment, attach write by write,
  connect, disconnect, and the operations on handles, call by call.

  One call is one step here; the interleaving of calls is in Verif.RwLock (and Verif.MapSys).  A segment and a set of semaphores are found by the key of the file
  (keys of different files are taken to be different, and no segment or semaphore is ever removed, as in the code).
-/
import Verif.ShmMap.Model
import Verif.RwLock.Model

namespace Verif.MapApi

open Verif.ShmPool Verif.ShmMap

variable {V : Type}

/-- The parameters of a class hash_map<_Type, _OBJECTS_NUM, _HASH_SIZE>: `N` = _OBJECTS_NUM, `H` = _HASH_SIZE, `tsz` = sizeof(_Type), `nsz` = sizeof(node).  The template arguments and sizes: coda/shm_hash_map.hpp:14-65. -/
structure Params where
  N : Nat
  H : Nat
  tsz : Nat
  nsz : Nat
  deriving DecidableEq

/-! ## layout -/

/-- `floor1024`, coda/shm_hash_map.tcc:6-9: uint32_t arithmetic; `& ~1023` clears the low ten bits. -/
def floor1024 (param : Nat) : Nat := ((param % 2 ^ 32 + 1023) % 2 ^ 32) / 1024 * 1024

/-- Conversion of uint32_t to int (two's complement).  Conversion to int of the sizes: coda/shm_hash_map.tcc:42-50, 95-97. -/
def toInt (x : Nat) : Int := if x < 2 ^ 31 then x else (x : Int) - 2 ^ 32

/-- `map_header_size`, coda/shm_hash_map.tcc:42, 95: three words here, three of the pool (coda/shm_pool.tcc:72-76), three of the stack (coda/shm_stack.tcc:49-53). -/
def headerSize : Int := toInt (floor1024 (3 * 4 + (3 * 4 + 3 * 4)))

/-- `map_stacks_size`, coda/shm_hash_map.tcc:45, 96. -/
def stacksSize (p : Params) : Int := toInt (floor1024 (4 * p.N))

/-- `map_data_size`, coda/shm_hash_map.tcc:50, 97. -/
def dataSize (p : Params) : Int := toInt (floor1024 (p.nsz * p.N))

/-- Where attach puts the parts, coda/shm_hash_map.tcc:35-51, as offsets from the beginning of the segment. -/
structure Layout where
  stack : Int
  nodes : Int
  hash : Int

/-- The layout that `attach` computes: coda/shm_hash_map.tcc:35-51. -/
def layout (p : Params) : Layout := ⟨headerSize, headerSize + stacksSize p, headerSize + stacksSize p + dataSize p⟩

/-- `required_space`, coda/shm_hash_map.tcc:92-100: the sums of int are undefined if they overflow; then size_t. -/
def required_space (p : Params) : Res Nat :=
  let s := headerSize + stacksSize p + dataSize p
  if headerSize + stacksSize p < 2 ^ 31 ∧ -(2 ^ 31) ≤ headerSize + stacksSize p ∧ s < 2 ^ 31 ∧ -(2 ^ 31) ≤ s then
    .ok ((s + 4 * p.H) % 2 ^ 64).toNat
  else .ub

/-! ## attach, write by write -/

/-- A write of `attach` to the segment.  A store of `attach`: coda/shm_hash_map.tcc:53-69, coda/shm_pool.tcc:27-33, coda/shm_stack.tcc:25-31. -/
inductive AWr where
  | objects_num (n : Nat)
  | item_size (n : Nat)
  | hash_size (n : Nat)
  | hash (i n : Nat)
  | stkReserved (n : Nat)
  | stkItem (n : Nat)
  | stkCurrent (n : Nat)
  | poolReserved (n : Nat)
  | poolItem (n : Nat)
  | poolCurrent (n : Nat)

/-- A store of `attach`: coda/shm_hash_map.tcc:53-69, coda/shm_pool.tcc:27-33, coda/shm_stack.tcc:25-31. -/
def AWr.apply (s : Seg V) : AWr → Seg V
  | .objects_num n => { s with objects_num := n }
  | .item_size n => { s with item_size := n }
  | .hash_size n => { s with hash_size := n }
  | .hash i n => { s with hash := put s.hash i n }
  | .stkReserved n => { s with pool := { s.pool with free := { s.pool.free with reserved := n } } }
  | .stkItem n => { s with pool := { s.pool with free := { s.pool.free with item_size := n } } }
  | .stkCurrent n => { s with pool := { s.pool with free := { s.pool.free with st := { s.pool.free.st with top := n } } } }
  | .poolReserved n => { s with pool := { s.pool with reserved := n } }
  | .poolItem n => { s with pool := { s.pool with item_size := n } }
  | .poolCurrent n => { s with pool := { s.pool with cur := n } }

/-- A store of `attach`: coda/shm_hash_map.tcc:53-69, coda/shm_pool.tcc:27-33, coda/shm_stack.tcc:25-31. -/
def applyA (s : Seg V) (ws : List AWr) : Seg V := ws.foldl AWr.apply s

/-- `stack::attach`, coda/shm_stack.tcc:16-39: its writes, and whether it throws. -/
def stkWrites (N : Nat) (s : Seg V) : List AWr × Bool :=
  if s.pool.free.reserved = 0 ∧ s.pool.free.item_size = 0 then ([.stkReserved N, .stkItem 4, .stkCurrent NONE], false)
  else ([], decide (N ≠ s.pool.free.reserved ∨ 4 ≠ s.pool.free.item_size))

/-- `pool::attach` after the stack, coda/shm_pool.tcc:25-38. -/
def poolWrites (N nsz : Nat) (s : Seg V) : List AWr × Bool :=
  if s.pool.reserved = 0 ∧ s.pool.item_size = 0 then ([.poolReserved N, .poolItem nsz, .poolCurrent 0], false)
  else ([], decide (N ≠ s.pool.reserved ∨ nsz ≠ s.pool.item_size))

/-- The head of the map, coda/shm_hash_map.tcc:53-69. -/
def headWrites (p : Params) (s : Seg V) : List AWr × Bool :=
  if s.objects_num = 0 ∧ s.item_size = 0 ∧ s.hash_size = 0 then
    ([.objects_num p.N, .item_size p.tsz, .hash_size p.H] ++ (List.range p.H).map (fun i => .hash i NONE), false)
  else ([], decide (p.N ≠ s.objects_num ∨ p.tsz ≠ s.item_size ∨ p.H ≠ s.hash_size))

/-- `attach`, coda/shm_hash_map.tcc:30-77: all writes in program order, up to the exception if there is one, and whether there is one.  (Each part reads only words
that the earlier parts do not write.) -/
def attachWrites (p : Params) (s : Seg V) : List AWr × Bool :=
  let (w1, t1) := headWrites p s
  if t1 then (w1, true)
  else
    let (w2, t2) := stkWrites p.N s
    if t2 then (w1 ++ w2, true)
    else
      let (w3, t3) := poolWrites p.N p.nsz s
      (w1 ++ w2 ++ w3, t3)

/-! ## handles -/

/-- A segment with its size and the number of times it is mapped.  The segments, semaphores and handles: coda/shm_hash_map.hpp:56-65; system calls at coda/shm_hash_map.tcc:327-412, 442-457. -/
structure MSeg (V : Type) where
  bytes : Nat
  seg : Seg V
  nattch : Nat

/-- An object of class hash_map: `sem` is the key of its semaphores (none: sem_id is -1), `shm` the key of the segment `shmem_p` points to (none: NULL).  `hash`, `objects`
and the pointers of the pool are set exactly when `shmem_p` is (between calls). -/
structure Handle where
  sem : Option Nat
  shm : Option Nat
  deriving DecidableEq

/-- The segments, semaphores and handles: coda/shm_hash_map.hpp:56-65; system calls at coda/shm_hash_map.tcc:327-412, 442-457. -/
structure World (V : Type) where
  segs : Nat → Option (MSeg V)
  sems : Nat → Option RwLock.Vals
  hs : Nat → Handle

/-- The segments, semaphores and handles: coda/shm_hash_map.hpp:56-65; system calls at coda/shm_hash_map.tcc:327-412, 442-457. -/
def set {α : Type} (f : Nat → α) (i : Nat) (x : α) : Nat → α := fun j => if j = i then x else f j

/-- No segments, no semaphores, all handles as the constructor makes them (coda/shm_hash_map.tcc:11-22). -/
def World.init : World V := ⟨fun _ => none, fun _ => none, fun _ => ⟨none, none⟩⟩

/-- Whether the system calls of connect succeed: the two ftok (the file may be removed in between), semget with IPC_CREAT, shmget with IPC_CREAT, shmat.  The segments, semaphores and handles: coda/shm_hash_map.hpp:56-65; system calls at coda/shm_hash_map.tcc:327-412, 442-457. -/
structure Env where
  ftok : Bool
  ftok2 : Bool
  semget : Bool
  shmget : Bool
  shmat : Bool
  deriving DecidableEq

/-- What a call gives to its caller; `blocked`: it does not return.  Bookkeeping: the public calls of coda/shm_hash_map.hpp:26-48, 74-82 one after the other. -/
inductive Reply (V : Type) where
  | unit
  | bool (b : Bool)
  | ret (r : Ret V)
  | num (n : Nat)
  | threw
  | blocked
  deriving DecidableEq

/-- `disconnect`, coda/shm_hash_map.tcc:442-457; also the destructor (24-28).  `detach` sets `shmem_p` to 0 before `shmdt(shmem_p)`: shmdt(NULL) fails, which is ignored, and the
segment stays mapped. -/
def disconnect (H : Handle) : Handle := if H.shm.isSome then ⟨none, none⟩ else H

/-- The memory of a segment as shmget makes it: zero.  The segments, semaphores and handles: coda/shm_hash_map.hpp:56-65; system calls at coda/shm_hash_map.tcc:327-412, 442-457. -/
def zeroSeg (v0 : V) : Seg V := ⟨0, 0, 0, ⟨0, 0, 0, ⟨0, 0, ⟨0, fun _ => 0⟩⟩⟩, fun _ => 0, fun _ => v0, fun _ => 0, fun _ => 0⟩

/-- `connect_sem`, coda/shm_hash_map.tcc:379-412 (semctl does not fail). none: an exception. -/
def connect_sem (w : World V) (H : Handle) (key : Nat) (env : Env) : Option (World V × Handle) :=
  if H.sem.isSome then none
  else if !env.ftok then none
  else
    match w.sems key with
    | some _ => some (w, { H with sem := some key })
    | none => if !env.semget then none else some ({ w with sems := set w.sems key (some ⟨0, 0⟩) }, { H with sem := some key })

/-- A `semop` on the semaphores of the handle: coda/shm_hash_map.tcc:459-522.  With sem_id -1 it fails: exception (`threw`).  The other processes are between two calls. -/
inductive Sem (V : Type) where
  | done (w : World V)
  | threw
  | blocked

/-- Environment: semop(2), called at coda/shm_hash_map.tcc:470, 484, 504, 518. -/
def semop (w : World V) (H : Handle) (ops : List RwLock.SemBuf) : Sem V :=
  match H.sem with
  | none => .threw
  | some k =>
    match w.sems k with
    | none => .threw
    | some v =>
      match RwLock.semop v ⟨0, 0⟩ ops with
      | none => .blocked
      | some (v, _) => .done { w with sems := set w.sems k (some v) }

/-- coda/shm_hash_map.tcc:338-376, after the lock: the world and, unless there is an exception, the handle.  A new segment is filled with `v0`s; its header is zero, so `memset` writes
what is there. -/
def connect_shm (p : Params) (v0 : V) (w : World V) (H : Handle) (key : Nat) (env : Env) : Res (World V × Option Handle) :=
  if H.shm.isSome then .ok (w, none)
  else if !env.ftok2 then .ok (w, none)
  else do
    let sz ← required_space p
    match w.segs key with
    | some s =>
      if sz ≤ s.bytes then
        if !env.shmat then .ok (w, none)
        else .ok ({ w with segs := set w.segs key (some { s with nattch := s.nattch + 1 }) }, some { H with shm := some key })
      else .ok (w, none)
    | none =>
      if !env.shmget then .ok (w, none)
      else if !env.shmat then .ok ({ w with segs := set w.segs key (some ⟨sz, zeroSeg v0, 0⟩) }, none)
      else .ok ({ w with segs := set w.segs key (some ⟨sz, zeroSeg v0, 1⟩) }, some { H with shm := some key })

/-- The handle is changed.  The segments, semaphores and handles: coda/shm_hash_map.hpp:56-65; system calls at coda/shm_hash_map.tcc:327-412, 442-457. -/
def World.setH (w : World V) (h : Nat) (H : Handle) : World V := { w with hs := set w.hs h H }

/-- coda/shm_hash_map.tcc:428-439: attach under the lock. -/
def connect_attach (p : Params) (w : World V) (h : Nat) (H : Handle) (key : Nat) : Res (World V × Reply V) :=
  match semop w H RwLock.lock_write_rw with
  | .threw => .ub
  | .blocked => .ok (w.setH h H, .blocked)
  | .done w =>
    match w.segs key with
    | none => .ub
    | some s =>
      let (ws, threw) := attachWrites p s.seg
      let w := { w with segs := set w.segs key (some { s with seg := applyA s.seg ws }) }
      match semop w H RwLock.unlock_write_rw with
      | .done w => .ok (if threw then (w.setH h (disconnect H), .threw) else (w.setH h H, .unit))
      | _ => .ub

/-- `connect`, coda/shm_hash_map.tcc:414-440, for the handle `h` of parameters `p`. -/
def connect (p : Params) (v0 : V) (w : World V) (h key : Nat) (env : Env) : Res (World V × Reply V) :=
  match connect_sem w (w.hs h) key env with
  | none => .ok (w.setH h (disconnect (w.hs h)), .threw)
  | some (w, H) =>
    match semop w H RwLock.lock_write_rw with
    | .threw => .ok (w.setH h (disconnect H), .threw)
    | .blocked => .ok (w.setH h H, .blocked)
    | .done w => do
      let (w, H') ← connect_shm p v0 w H key env
      match semop w H RwLock.unlock_write_rw with
      | .done w =>
        match H' with
        | none => .ok (w.setH h (disconnect H), .threw)
        | some H => connect_attach p w h H key
      | _ => .ub

/-- The map of a segment is changed.  The segments, semaphores and handles: coda/shm_hash_map.hpp:56-65; system calls at coda/shm_hash_map.tcc:327-412, 442-457. -/
def setMap (s : Seg V) (m : Map V) : Seg V :=
  { s with pool := { s.pool with cur := m.pool.cur, free := { s.pool.free with st := m.pool.free } }, key := m.key, val := m.val, next := m.next, hash := m.hash }

/-- An operation of the map under its lock: coda/shm_hash_map.tcc:102-109, 139-213.  If `hash` is NULL it is undefined. -/
def locked {α : Type} (w : World V) (h : Nat) (lock unlock : List RwLock.SemBuf) (body : Map V → Res (Map V × α)) (mk : α → Reply V) : Res (World V × Reply V) :=
  let H := w.hs h
  match semop w H lock with
  | .threw => .ok (w, .threw)
  | .blocked => .ok (w, .blocked)
  | .done w =>
    match H.shm with
    | none => .ub
    | some key =>
      match w.segs key with
      | none => .ub
      | some s => do
        let (m, r) ← body s.seg.map
        let w := { w with segs := set w.segs key (some { s with seg := setMap s.seg m }) }
        match semop w H unlock with
        | .done w => .ok (w, mk r)
        | _ => .ub

/-- The lock of an operation.  Which lock a call takes: coda/shm_hash_map.tcc:102-109, 139-213. -/
def lockOf : ShmMap.Op V → List RwLock.SemBuf × List RwLock.SemBuf
  | .read _ => (RwLock.lock_read_rw, RwLock.unlock_read_rw)
  | .size => (RwLock.lock_read_rw, RwLock.unlock_read_rw)
  | _ => (RwLock.lock_write_rw, RwLock.unlock_write_rw)

/-- The calls of the class on the handle `h`.  Bookkeeping: the public calls of coda/shm_hash_map.hpp:26-48, 74-82 one after the other. -/
inductive Call (V : Type) where
  | connect (h key : Nat) (env : Env)
  | disconnect (h : Nat)
  | isConnected (h : Nat)
  | capacity (h : Nat)
  | op (h : Nat) (o : ShmMap.Op V)
  | insertMany (h : Nat) (ps : List (UInt64 × V))
  | eraseMany (h : Nat) (ks : List UInt64)
  | nonEmpty (h : Nat)

/-- `begin() != end()`, coda/shm_hash_map.hpp:99-102, 143-160: without a lock; undefined if `hash` is NULL. -/
def nonEmpty (p : Params) (w : World V) (h : Nat) : Res (World V × Reply V) :=
  match (w.hs h).shm with
  | none => .ub
  | some key =>
    match w.segs key with
    | none => .ub
    | some s => .ok (w, .bool (decide (begin_ p.H s.seg.map ≠ end_)))

/-- One call; `par h` are the parameters of the class of `h`.  Bookkeeping: the public calls of coda/shm_hash_map.hpp:26-48, 74-82 one after the other. -/
def step (par : Nat → Params) (v0 : V) (w : World V) : Call V → Res (World V × Reply V)
  | .connect h key env => connect (par h) v0 w h key env
  | .disconnect h => .ok (w.setH h (disconnect (w.hs h)), .unit)
  | .isConnected h => .ok (w, .bool (w.hs h).shm.isSome)
  | .capacity h => .ok (w, .num (ShmMap.capacity (par h).N))
  | .op h o => locked w h (lockOf o).1 (lockOf o).2 (fun m => ShmMap.step (par h).N (par h).H m o) .ret
  | .insertMany h ps => locked w h RwLock.lock_write_rw RwLock.unlock_write_rw (fun m => insertMany (par h).N (par h).H m ps) .bool
  | .eraseMany h ks => locked w h RwLock.lock_write_rw RwLock.unlock_write_rw (fun m => eraseMany (par h).N (par h).H m ks) .bool
  | .nonEmpty h => nonEmpty (par h) w h

/-- Bookkeeping: the public calls of coda/shm_hash_map.hpp:26-48, 74-82 one after the other. -/
def run (par : Nat → Params) (v0 : V) (w : World V) : List (Call V) → Res (World V × List (Reply V))
  | [] => .ok (w, [])
  | c :: cs => do
    let (w, r) ← step par v0 w c
    let (w, rs) ← run par v0 w cs
    .ok (w, r :: rs)

end Verif.MapApi
