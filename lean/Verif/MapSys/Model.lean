/-
  Model of processes that use one shm::hash_map at the same time, coda/shm_hash_map.tcc:102-325, 459-522: every access to shared memory is a step of
  its own, and the steps of any number of processes interleave in any order, subject only to the semaphores of Verif.RwLock.

  `Pc` says where a process is inside the code of a call.  One step (`Pc.step`) makes at most one access to shared memory and goes on to the next place;
  loops are loops (there is no bound on the number of steps).  The memory and its writes are those of Verif.ShmMap.
-/
import Verif.ShmMap.Model
import Verif.RwLock.Model

namespace Verif.MapSys

open Verif.ShmPool Verif.ShmMap

variable {V : Type}

/-- Where a new node is linked: coda/shm_hash_map.tcc:273 (`hash[hash_index]`) or :254 (`objects[el].next`). -/
inductive Link where
  | bucket (b : Nat)
  | node (el : Nat)
  deriving DecidableEq

/-- A place in the code.  The arguments are the local variables that are still needed.  coda/shm_hash_map.tcc:102-325, coda/shm_pool.tcc:53-101, coda/shm_stack.tcc:61-97. -/
inductive Pc (V : Type) where
  | idle                                              -- no operation is in progress
  | rdHash (k : UInt64)                               -- unprotected_read, coda/shm_hash_map.tcc:121: elem = hash[hash_index]
  | rdLoop (k : UInt64) (e : Nat)                     -- :123-125: elem != -1; key == objects[elem].p.key
  | rdVal (e : Nat)                                   -- :127: out = objects[elem].p.value
  | rdNext (k : UInt64) (e : Nat)                     -- :132: elem = objects[elem].next
  | inHash (k : UInt64) (v : V)                       -- unprotected_insert, :224-225
  | inKey (k : UInt64) (v : V) (e : Nat)              -- :231: key == objects[el].p.key
  | inVal (v : V) (e : Nat)                           -- :233: objects[el].p.value = val
  | inNext (k : UInt64) (v : V) (e : Nat)             -- :237-239: objects[el].next
  | alTop (k : UInt64) (v : V) (p : Link)             -- :243, :262: pool.allocate, free_nodes.empty(), coda/shm_pool.tcc:56
  | alCur (k : UInt64) (v : V) (p : Link)             -- coda/shm_pool.tcc:58: *current >= _OBJECTS_NUM
  | alCurW (k : UInt64) (v : V) (p : Link) (c : Nat)  -- coda/shm_pool.tcc:58: (*current)++
  | alData (k : UInt64) (v : V) (p : Link) (t : Nat)  -- coda/shm_stack.tcc:90: data[*current]
  | alTopW (k : UInt64) (v : V) (p : Link) (t x : Nat) -- coda/shm_stack.tcc:90: (*current)--
  | new (k : UInt64) (v : V) (p : Link) (x : Nat)     -- :245, :264: -1 == new_node
  | nKey (k : UInt64) (v : V) (p : Link) (x : Nat)    -- :250, :269: objects[new_node].p.key = key
  | nVal (v : V) (p : Link) (x : Nat)                 -- :251, :270: objects[new_node].p.value = val
  | nNext (p : Link) (x : Nat)                        -- :252, :271: objects[new_node].next = -1
  | nLink (p : Link) (x : Nat)                        -- :254, :273: objects[el].next = new_node, hash[hash_index] = new_node
  | erHash (k : UInt64)                               -- unprotected_erase, :282-283
  | erKey (k : UInt64) (b e : Nat)                    -- :287: key == objects[elem].p.key
  | erHead (b e : Nat)                                -- :289: objects[elem].next
  | erHeadW (b e n : Nat)                             -- :289: hash[hash_index] = ...
  | erNext (k : UInt64) (e : Nat)                     -- :300, :315: prev = elem; elem = objects[elem].next
  | erLoop (k : UInt64) (p e : Nat)                   -- :302-304: elem != -1; key == objects[elem].p.key
  | erMid (p e : Nat)                                 -- :306: objects[elem].next
  | erMidW (p e n : Nat)                              -- :306: objects[prev].next = ...
  | erClr (e : Nat)                                   -- :290, :307: objects[elem].next = -1
  | frTop (e : Nat)                                   -- :292, :309: nodes_pool.free, free_nodes.push, coda/shm_stack.tcc:76: used() >= _OBJECTS_NUM
  | frTopW (e t : Nat)                                -- coda/shm_stack.tcc:82: ++(*current)
  | frData (e t : Nat)                                -- coda/shm_stack.tcc:82: data[*current] = el
  | clCur                                             -- clear, :205: nodes_pool.clear(), coda/shm_pool.tcc:99
  | clTop                                             -- coda/shm_pool.tcc:100, coda/shm_stack.tcc:96
  | clHash (i : Nat)                                  -- :207-210: the loop over the buckets
  | szCur                                             -- size, :106: allocated_objects, coda/shm_pool.tcc:93: *current
  | szTop (c : Nat)                                   -- coda/shm_pool.tcc:93: free_nodes.used()
  | ret (r : Ret V)                                   -- the operation is complete
  | ub                                                -- undefined behaviour: an access outside the segment

/-- The first place of an operation.  The first access of an operation: coda/shm_hash_map.tcc:106, 121, 205, 225, 283. -/
def start : Op V → Pc V
  | .read k => .rdHash k
  | .insert k v => .inHash k v
  | .erase k => .erHash k
  | .clear => .clCur
  | .size => .szCur

/-- `*current + 1` in uint32_t.  `++` and `--` of uint32_t: coda/shm_stack.tcc:82, 90. -/
def inc (t : Nat) : Nat := if t = NONE then 0 else t + 1

/-- `*current - 1` in uint32_t.  `++` and `--` of uint32_t: coda/shm_stack.tcc:82, 90. -/
def dec (t : Nat) : Nat := if t = 0 then NONE else t - 1

/-- The difference in size_t, coda/shm_pool.tcc:93. -/
def diff (c u : Nat) : Nat := if u ≤ c then c - u else 2 ^ 64 - (u - c)

/-- One step of the code: the write it makes, if any, and the next place.  Reads are of `m`.  One access to shared memory of coda/shm_hash_map.tcc:102-325, coda/shm_pool.tcc:53-101, coda/shm_stack.tcc:61-97. -/
def Pc.step (N H : Nat) (m : Map V) : Pc V → Option (Wr V) × Pc V
  | .idle => (none, .idle)
  | .rdHash k => (none, if H = 0 then .ub else .rdLoop k (m.hash (k.toNat % H)))
  | .rdLoop k e => (none, if e = NONE then .ret (.val none) else if e < N then (if k = m.key e then .rdVal e else .rdNext k e) else .ub)
  | .rdVal e => (none, .ret (.val (some (m.val e))))
  | .rdNext k e => (none, .rdLoop k (m.next e))
  | .inHash k v =>
    (none, if H = 0 then .ub
      else if m.hash (k.toNat % H) ≠ NONE then .inKey k v (m.hash (k.toNat % H)) else .alTop k v (.bucket (k.toNat % H)))
  | .inKey k v e => (none, if e < N then (if k = m.key e then .inVal v e else .inNext k v e) else .ub)
  | .inVal v e => (some (.val e v), .ret (.bool true))
  | .inNext k v e => (none, if m.next e ≠ NONE then .inKey k v (m.next e) else .alTop k v (.node e))
  | .alTop k v p => (none, if inc m.pool.free.top = 0 then .alCur k v p else .alData k v p m.pool.free.top)
  | .alCur k v p => (none, if m.pool.cur ≥ N then .new k v p NONE else .alCurW k v p m.pool.cur)
  | .alCurW k v p c => (some (.pool (.cur (inc c))), .new k v p c)
  | .alData k v p t => (none, if t < N then .alTopW k v p t (m.pool.free.data t) else .ub)
  | .alTopW k v p t x => (some (.pool (.stk (.top (dec t)))), .new k v p x)
  | .new k v p x => (none, if x = NONE then .ret (.bool false) else .nKey k v p x)
  | .nKey k v p x => (some (.key x k), .nVal v p x)
  | .nVal v p x => (some (.val x v), .nNext p x)
  | .nNext p x => (some (.next x NONE), .nLink p x)
  | .nLink (.bucket b) x => (some (.hash b x), .ret (.bool true))
  | .nLink (.node e) x => (some (.next e x), .ret (.bool true))
  | .erHash k =>
    (none, if H = 0 then .ub
      else if m.hash (k.toNat % H) ≠ NONE then .erKey k (k.toNat % H) (m.hash (k.toNat % H)) else .ret (.bool false))
  | .erKey k b e => (none, if e < N then (if k = m.key e then .erHead b e else .erNext k e) else .ub)
  | .erHead b e => (none, .erHeadW b e (m.next e))
  | .erHeadW b e n => (some (.hash b n), .erClr e)
  | .erNext k e => (none, .erLoop k e (m.next e))
  | .erLoop k p e => (none, if e = NONE then .ret (.bool false) else if e < N then (if k = m.key e then .erMid p e else .erNext k e) else .ub)
  | .erMid p e => (none, .erMidW p e (m.next e))
  | .erMidW p e n => (some (.next p n), .erClr e)
  | .erClr e => (some (.next e NONE), .frTop e)
  | .frTop e => (none, if inc m.pool.free.top ≥ N then .ret (.bool true) else .frTopW e (inc m.pool.free.top))
  | .frTopW e t => (some (.pool (.stk (.top t))), .frData e t)
  | .frData e t => (some (.pool (.stk (.data t e))), .ret (.bool true))
  | .clCur => (some (.pool (.cur 0)), .clTop)
  | .clTop => (some (.pool (.stk (.top NONE))), .clHash 0)
  | .clHash i => if i < H then (some (.hash i NONE), .clHash (i + 1)) else (none, .ret .unit)
  | .szCur => (none, .szTop m.pool.cur)
  | .szTop c => (none, .ret (.num (diff c (inc m.pool.free.top))))
  | .ret r => (none, .ret r)
  | .ub => (none, .ub)

/-- The operations a client may use between a lock and an unlock of its own, coda/shm_hash_map.hpp:74-76.  (`size` and `clear` take the lock themselves.) -/
inductive Unprot (V : Type) where
  | read (k : UInt64)
  | insert (k : UInt64) (v : V)
  | erase (k : UInt64)

/-- The operations that a call performs under its lock: coda/shm_hash_map.tcc:102-213. -/
def Unprot.op : Unprot V → Op V
  | .read k => .read k
  | .insert k v => .insert k v
  | .erase k => .erase k

/-- The calls of a client: an operation, `insert(pairs, n)` (coda/shm_hash_map.tcc:157-172), `erase(keys, n)` (:183-198), or a critical section of its own:
`lock_read_rw(); unprotected_read…; unlock_read_rw()` or `lock_write_rw(); unprotected_read/insert/erase…; unlock_write_rw()` (coda/shm_hash_map.hpp:74-82).  The
list of operations is fixed when the section begins; a client that chooses the next operation by the results of the earlier ones makes, in every execution, one of these
lists. -/
inductive Call (V : Type) where
  | op (o : Op V)
  | insertMany (ps : List (UInt64 × V))
  | eraseMany (ks : List UInt64)
  | readSection (ks : List UInt64)
  | writeSection (us : List (Unprot V))

/-- The operations a call makes inside its critical section.  The operations that a call performs under its lock: coda/shm_hash_map.tcc:102-213. -/
def Call.ops : Call V → List (Op V)
  | .op o => [o]
  | .insertMany ps => ps.map (fun p => .insert p.1 p.2)
  | .eraseMany ks => ks.map .erase
  | .readSection ks => ks.map .read
  | .writeSection us => us.map Unprot.op

/-- The calls that take the read lock, coda/shm_hash_map.tcc:105, :142 (and the client's own lock_read_rw); the others take the write lock (:151, :160, :177, :186, :203). -/
def Call.reads : Call V → Bool
  | .op (.read _) => true
  | .op .size => true
  | .readSection _ => true
  | _ => false

/-- `unprotected_insert(...) ? 1 : 0`, coda/shm_hash_map.tcc:166, :192. -/
def one : Ret V → Nat
  | .bool true => 1
  | _ => 0

/-- The local state of a process: where it is, the operations of the call that are still to be made, the result of the last one, the counter `res`, and all the results
(which a client with a section of its own has seen).  The local variables of a call: coda/shm_hash_map.tcc:102-213. -/
structure Loc (V : Type) where
  pc : Pc V
  todo : List (Op V)
  last : Ret V
  cnt : Nat
  rets : List (Ret V)

/-- The local state at the beginning of a call.  The local variables of a call: coda/shm_hash_map.tcc:102-213. -/
def Loc.begin (c : Call V) : Loc V := ⟨.idle, c.ops, .unit, 0, []⟩

/-- What the call returns: coda/shm_hash_map.tcc:108, :145, :154, :171 (`res == pairs_num`), :180, :197; the results of all operations of a section. -/
def Call.result (l : Loc V) : Call V → List (Ret V)
  | .op _ => [l.last]
  | .insertMany ps => [.bool (l.cnt == ps.length)]
  | .eraseMany ks => [.bool (l.cnt == ks.length)]
  | .readSection _ => l.rets
  | .writeSection _ => l.rets

/-- One step of a process inside its critical section: the next operation begins, an operation ends, or one step of an operation.  A write outside the
segment is undefined behaviour.  The next access of a call that has the write or the read lock: coda/shm_hash_map.tcc:102-213. -/
def wbody (N H : Nat) (m : Map V) (l : Loc V) : Map V × Loc V :=
  match l.pc, l.todo with
  | .idle, [] => (m, l)
  | .idle, o :: os => (m, { l with pc := start o, todo := os })
  | .ret r, _ => (m, { l with pc := .idle, last := r, cnt := l.cnt + one r, rets := l.rets ++ [r] })
  | pc, _ =>
    match pc.step N H m with
    | (none, pc') => (m, { l with pc := pc' })
    | (some w, pc') =>
      match w.apply N H m with
      | .ok m' => (m', { l with pc := pc' })
      | .ub => (m, { l with pc := .ub })

/-- The same for a process with the read lock; a write there would be undefined behaviour.  The next access of a call that has the write or the read lock: coda/shm_hash_map.tcc:102-213. -/
def rbody (N H : Nat) (m : Map V) (l : Loc V) : Loc V :=
  match l.pc, l.todo with
  | .idle, [] => l
  | .idle, o :: os => { l with pc := start o, todo := os }
  | .ret r, _ => { l with pc := .idle, last := r, cnt := l.cnt + one r, rets := l.rets ++ [r] }
  | pc, _ =>
    match pc.step N H m with
    | (none, pc') => { l with pc := pc' }
    | (some _, _) => { l with pc := .ub }

/-- What a process is doing, seen from outside: nothing, a call that has not returned yet, or it is about to return `rs`.  Bookkeeping: processes that make calls of coda/shm_hash_map.tcc:102-213 in any order, and what is seen of them. -/
inductive Pend (V : Type) where
  | idle
  | called (c : Call V)
  | returning (rs : List (Ret V))

/-- The system: the semaphores, the memory and the processes; and what each of them is doing.  Bookkeeping: processes that make calls of coda/shm_hash_map.tcc:102-213 in any order, and what is seen of them. -/
structure Sys (V : Type) where
  rw : RwLock.State (Map V) (Loc V)
  pend : Nat → Pend V

/-- What can happen.  Bookkeeping: processes that make calls of coda/shm_hash_map.tcc:102-213 in any order, and what is seen of them. -/
inductive Act (V : Type) where
  | connect (i : Nat)            -- connect_sem finds the semaphores: coda/shm_hash_map.tcc:394
  | call (i : Nat) (c : Call V)  -- process i calls
  | lock (i : Nat)               -- its lock_read_rw() or lock_write_rw() returns
  | body (i : Nat)               -- a step inside the critical section
  | unlock (i : Nat)             -- its unlock_read_rw() or unlock_write_rw()
  | ret (i : Nat)                -- the call returns
  | kill (i : Nat)
  | spawn (i : Nat)              -- a new process in place of a dead one

/-- What is seen from outside: process `i` calls, its call returns, it is killed; or it has iterated over the map and has seen these entries (Verif.MapIter; the steps of
this file make no such event).  Bookkeeping: processes that make calls of coda/shm_hash_map.tcc:102-213 in any order, and what is seen of them. -/
inductive Event (V : Type) where
  | call (i : Nat) (c : Call V)
  | ret (i : Nat) (rs : List (Ret V))
  | killed (i : Nat)
  | iterated (i : Nat) (l : List (UInt64 × V))

/-- The operations of the call have all been made.  The local variables of a call: coda/shm_hash_map.tcc:102-213. -/
def Loc.finished (l : Loc V) : Bool :=
  match l.pc, l.todo with
  | .idle, [] => true
  | _, _ => false

/-- Bookkeeping: processes that make calls of coda/shm_hash_map.tcc:102-213 in any order, and what is seen of them. -/
def Sys.setPend (s : Sys V) (i : Nat) (p : Pend V) : Sys V := { s with pend := fun j => if j = i then p else s.pend j }

/-- A step of the lock and the memory.  Bookkeeping: processes that make calls of coda/shm_hash_map.tcc:102-213 in any order, and what is seen of them. -/
def Sys.low (N H : Nat) (s : Sys V) (a : RwLock.Label (Loc V)) : Option (Sys V) :=
  (RwLock.step (wbody N H) (rbody N H) s.rw a).map (fun rw => { s with rw := rw })

/-- The successor, if the step is possible, and what is seen of it.  coda/shm_hash_map.tcc:102-213: every call is lock, body, unlock, return. -/
def step (N H : Nat) (s : Sys V) : Act V → Option (Sys V × List (Event V))
  | .connect i => (s.low N H (.get i)).map (fun s => (s, []))
  | .call i c =>
    match s.pend i with
    | .idle => if s.rw.mode i = some .out then some (s.setPend i (.called c), [.call i c]) else none
    | _ => none
  | .lock i =>
    match s.pend i with
    | .called c => (s.low N H (if c.reads then .lockR i (.begin c) else .lockW i (.begin c))).map (fun s => (s, []))
    | _ => none
  | .body i => (s.low N H (.body i)).map (fun s => (s, []))
  | .unlock i =>
    match s.pend i, s.rw.procs[i]? with
    | .called c, some p =>
      if p.loc.finished then (s.low N H (.unlock i)).map (fun s => (s.setPend i (.returning (c.result p.loc)), []))
      else none
    | _, _ => none
  | .ret i =>
    match s.pend i with
    | .returning rs => some (s.setPend i .idle, [.ret i rs])
    | _ => none
  | .kill i => (s.low N H (.kill i)).map (fun s => (s.setPend i .idle, [.killed i]))
  | .spawn i => (s.low N H (.spawn i)).map (fun s => (s, []))

/-- A sequence of steps: the state afterwards and what was seen.  Bookkeeping: processes that make calls of coda/shm_hash_map.tcc:102-213 in any order, and what is seen of them. -/
def exec (N H : Nat) (s : Sys V) : List (Act V) → Option (Sys V × List (Event V))
  | [] => some (s, [])
  | a :: as =>
    match step N H s a with
    | none => none
    | some (s', es) =>
      match exec N H s' as with
      | none => none
      | some (s'', es') => some (s'', es ++ es')

end Verif.MapSys
