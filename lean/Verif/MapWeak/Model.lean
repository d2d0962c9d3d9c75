/-
  Model of processes that use one shm::hash_map on processors that delay and reorder stores.

  Every process has a view of its own of the segment.  A store changes the view of the process that makes it at once; at every other process it arrives later,
  separately, in any order in which stores to one word stay in their order.  Reads are of the view of the process.  A semop that takes a lock returns after the
  stores that were made before have arrived at its process: the system calls are barriers.  Nothing else orders anything.  The code is that of Verif.MapSys.
-/
import Verif.MapSys.Model

namespace Verif.MapWeak

open Verif.ShmPool Verif.ShmMap Verif.MapSys

variable {V : Type}

/-- A word of the segment: coda/shm_stack.hpp:13-17, coda/shm_pool.hpp:14-20, coda/shm_hash_map.hpp:50-65. -/
inductive Cell where
  | cur
  | top
  | data (i : Nat)
  | key (i : Nat)
  | val (i : Nat)
  | next (i : Nat)
  | hash (i : Nat)
  deriving DecidableEq

/-- The word that is written by a store of coda/shm_hash_map.tcc:200-325, coda/shm_pool.tcc:53-101 or coda/shm_stack.tcc:73-97. -/
def cell : Wr V → Cell
  | .pool (.cur _) => .cur
  | .pool (.stk (.top _)) => .top
  | .pool (.stk (.data i _)) => .data i
  | .key i _ => .key i
  | .val i _ => .val i
  | .next i _ => .next i
  | .hash i _ => .hash i

/-- A store (coda/shm_hash_map.tcc:200-325) arrives.  (Stores outside of the segment are never sent.) -/
def store (N H : Nat) (m : Map V) (w : Wr V) : Map V :=
  match w.apply N H m with
  | .ok m' => m'
  | .ub => m

/-- The next step of a process with the write lock that sees `m`: the store it makes, and its place afterwards; as MapSys.wbody, coda/shm_hash_map.tcc:102-213. -/
def wstep (N H : Nat) (m : Map V) (l : Loc V) : Option (Wr V) × Loc V :=
  match l.pc, l.todo with
  | .idle, [] => (none, l)
  | .idle, o :: os => (none, { l with pc := start o, todo := os })
  | .ret r, _ => (none, { l with pc := .idle, last := r, cnt := l.cnt + one r, rets := l.rets ++ [r] })
  | pc, _ =>
    match pc.step N H m with
    | (none, pc') => (none, { l with pc := pc' })
    | (some w, pc') =>
      match w.apply N H m with
      | .ok _ => (some w, { l with pc := pc' })
      | .ub => (none, { l with pc := .ub })

/-- The semaphores and the processes (their `mem` is not used), the views, the stores that have not arrived at a process yet, and what each process is doing.
Bookkeeping: processes that make calls of coda/shm_hash_map.tcc:102-213. -/
structure Sys (V : Type) where
  lk : RwLock.State Unit (Loc V)
  view : Nat → Map V
  inc : Nat → List (Wr V)
  pend : Nat → Pend V

/-- A step of the semaphores: coda/shm_hash_map.tcc:379-412, 459-522. -/
def Sys.low (s : Sys V) (a : RwLock.Label (Loc V)) : Option (Sys V) :=
  (RwLock.step (fun m l => (m, l)) (fun _ l => l) s.lk a).map (fun lk => { s with lk := lk })

/-- Bookkeeping: processes that make calls of coda/shm_hash_map.tcc:102-213 in any order, and what is seen of them. -/
def Sys.setPend (s : Sys V) (i : Nat) (p : Pend V) : Sys V := { s with pend := fun j => if j = i then p else s.pend j }

/-- A store (coda/shm_hash_map.tcc:200-325) of process `i`: it is in its view, and on its way to all others. -/
def Sys.send (N H : Nat) (s : Sys V) (i : Nat) : Option (Wr V) → Sys V
  | none => s
  | some w => { s with
      view := fun j => if j = i then store N H (s.view j) w else s.view j,
      inc := fun j => if j = i then s.inc j else s.inc j ++ [w] }

/-- A step inside of the critical section: coda/shm_hash_map.tcc:102-213. -/
def Sys.body (N H : Nat) (s : Sys V) (i : Nat) : Option (Sys V) :=
  match s.lk.procs[i]? with
  | some p =>
    if p.mode = .writing then
      some ({ s with lk := s.lk.upd i { p with loc := (wstep N H (s.view i) p.loc).2 } }.send N H i (wstep N H (s.view i) p.loc).1)
    else if p.mode = .reading then some { s with lk := s.lk.upd i { p with loc := rbody N H (s.view i) p.loc } }
    else none
  | none => none

/-- The `k`-th of the stores (coda/shm_hash_map.tcc:200-325) that are on their way to process `j` arrives; none before it is to the same word. -/
def Sys.arrive (N H : Nat) (s : Sys V) (j k : Nat) : Option (Sys V) :=
  match (s.inc j)[k]? with
  | some w =>
    if ∀ u ∈ (s.inc j).take k, cell u ≠ cell w then
      some { s with
        view := fun i => if i = j then store N H (s.view j) w else s.view i,
        inc := fun i => if i = j then (s.inc j).eraseIdx k else s.inc i }
    else none
  | none => none

/-- What can happen: what happens in Verif.MapSys (the calls of coda/shm_hash_map.tcc:102-213), or a store arrives. -/
inductive Act (V : Type) where
  | act (a : MapSys.Act V)
  | arrive (j k : Nat)

/-- The successor, if the step is possible, and what is seen of it.  coda/shm_hash_map.tcc:102-213: every call is lock, body, unlock, return. -/
def step (N H : Nat) (s : Sys V) : Act V → Option (Sys V × List (Event V))
  | .arrive j k => (s.arrive N H j k).map (fun s => (s, []))
  | .act (.connect i) => (s.low (.get i)).map (fun s => (s, []))
  | .act (.call i c) =>
    match s.pend i with
    | .idle => if s.lk.mode i = some .out then some (s.setPend i (.called c), [.call i c]) else none
    | _ => none
  | .act (.lock i) =>
    match s.pend i, s.inc i with
    | .called c, [] => (s.low (if c.reads then .lockR i (.begin c) else .lockW i (.begin c))).map (fun s => (s, []))
    | _, _ => none
  | .act (.body i) => (s.body N H i).map (fun s => (s, []))
  | .act (.unlock i) =>
    match s.pend i, s.lk.procs[i]? with
    | .called c, some p =>
      if p.loc.finished then (s.low (.unlock i)).map (fun s => (s.setPend i (.returning (c.result p.loc)), []))
      else none
    | _, _ => none
  | .act (.ret i) =>
    match s.pend i with
    | .returning rs => some (s.setPend i .idle, [.ret i rs])
    | _ => none
  | .act (.kill i) => (s.low (.kill i)).map (fun s => (s.setPend i .idle, [.killed i]))
  | .act (.spawn i) => (s.low (.spawn i)).map (fun s => (s, []))

/-- A sequence of steps: the state afterwards and what was seen.  Bookkeeping: processes that make calls of coda/shm_hash_map.tcc:102-213 in any order. -/
def exec (N H : Nat) (s : Sys V) : List (Act V) → Option (Sys V × List (Event V))
  | [] => some (s, [])
  | a :: as =>
    match step N H s a with
    | none => none
    | some (s', es) =>
      match exec N H s' as with
      | none => none
      | some (s'', es') => some (s'', es ++ es')

end Verif.MapWeak
