/-
  Model of processes that use one shm::hash_map at the same time, with values of several words, coda/shm_hash_map.tcc:102-325, 459-522.

  Verif/MapSys with one difference: a value is not read or written in one access.  The assignments `out = objects[elem].p.value` (:127) and
  `objects[el].p.value = val` (:233, :251, :270) copy `n` words, one access each, in an order `ord` (which depends on `_Type` and on the
  compiler), and the accesses of other processes may come in between as far as the lock lets them.
-/
import Verif.MapSys.Model
import Verif.MapTorn.Model

namespace Verif.MapWords

open Verif.ShmPool Verif.ShmMap Verif.MapSys Verif.MapTorn

variable {W : Type} {n : Nat}

/-- The local state of a process: that of Verif/MapSys, how many words of the value that is being copied have been copied, and the caller's
object `out` of a read as far as it is filled.  The local variables of a call, coda/shm_hash_map.tcc:102-213, with the copy in progress. -/
structure LocW (n : Nat) (W : Type) where
  l : Loc (Val n W)
  g : Nat
  buf : Val n W

/-- The value and its place, at the places that write one: coda/shm_hash_map.tcc:233; :251 and :270. -/
def target : Pc (Val n W) → Option (Nat × Val n W)
  | .inVal v e => some (e, v)
  | .nVal v _ e => some (e, v)
  | _ => none

/-- The place that reads a value: coda/shm_hash_map.tcc:127. -/
def source : Pc (Val n W) → Option Nat
  | .rdVal e => some e
  | _ => none

/-- One access of the copy out of a node, or, when all words are there, the step to the next place.  One word of `out = objects[elem].p.value`: coda/shm_hash_map.tcc:127. -/
def copyOut (ord : List (Fin n)) (m : Map (Val n W)) (x : LocW n W) (e : Nat) : LocW n W :=
  match ord[x.g]? with
  | some j => { x with g := x.g + 1, buf := setWord x.buf j (m.val e j) }
  | none => { x with l := { x.l with pc := .ret (.val (some x.buf)) }, g := 0 }

/-- One access of the copy into a node, or, when all words are there, the step to the next place.  One word of `objects[…].p.value = val`: coda/shm_hash_map.tcc:233, 251, 270. -/
def copyIn (N H : Nat) (ord : List (Fin n)) (m : Map (Val n W)) (x : LocW n W) (e : Nat) (v : Val n W) : Map (Val n W) × LocW n W :=
  if e < N then
    match ord[x.g]? with
    | some j => ({ m with val := put m.val e (setWord (m.val e) j (v j)) }, { x with g := x.g + 1 })
    | none => (m, { x with l := { x.l with pc := (x.l.pc.step N H m).2 }, g := 0 })
  else (m, { x with l := { x.l with pc := .ub }, g := 0 })

/-- One step of a process with the write lock.  The next access of a call that has the write or the read lock: coda/shm_hash_map.tcc:102-213. -/
def wbodyW (N H : Nat) (ord : List (Fin n)) (m : Map (Val n W)) (x : LocW n W) : Map (Val n W) × LocW n W :=
  match target x.l.pc, source x.l.pc with
  | some (e, v), _ => copyIn N H ord m x e v
  | none, some e => (m, copyOut ord m x e)
  | none, none => ((wbody N H m x.l).1, { x with l := (wbody N H m x.l).2, g := 0 })

/-- One step of a process with the read lock; a write there would be undefined behaviour.  The next access of a call that has the write or the read lock: coda/shm_hash_map.tcc:102-213. -/
def rbodyW (N H : Nat) (ord : List (Fin n)) (m : Map (Val n W)) (x : LocW n W) : LocW n W :=
  match source x.l.pc with
  | some e => copyOut ord m x e
  | none => { x with l := rbody N H m x.l, g := 0 }

/-- The local state at the beginning of a call; `out` contains anything.  The local variables of a call, coda/shm_hash_map.tcc:102-213, with the copy in progress. -/
def LocW.begin (b : Val n W) (c : Call (Val n W)) : LocW n W := ⟨.begin c, 0, b⟩

/-- The system: the semaphores, the memory and the processes; and what each of them is doing.  Bookkeeping: processes that make calls of coda/shm_hash_map.tcc:102-213 in any order. -/
structure SysW (n : Nat) (W : Type) where
  rw : RwLock.State (Map (Val n W)) (LocW n W)
  pend : Nat → Pend (Val n W)

/-- Bookkeeping: processes that make calls of coda/shm_hash_map.tcc:102-213 in any order. -/
def SysW.setPend (s : SysW n W) (i : Nat) (p : Pend (Val n W)) : SysW n W := { s with pend := fun j => if j = i then p else s.pend j }

/-- A step of the lock and the memory.  Bookkeeping: processes that make calls of coda/shm_hash_map.tcc:102-213 in any order. -/
def SysW.low (N H : Nat) (ord : List (Fin n)) (s : SysW n W) (a : RwLock.Label (LocW n W)) : Option (SysW n W) :=
  (RwLock.step (wbodyW N H ord) (rbodyW N H ord) s.rw a).map (fun rw => { s with rw := rw })

/-- The successor, if the step is possible, and what is seen of it, as in Verif/MapSys; `b` is what the object `out` contains before the call.
coda/shm_hash_map.tcc:102-213: every call is lock, body, unlock, return. -/
def step (N H : Nat) (ord : List (Fin n)) (b : Val n W) (s : SysW n W) : Act (Val n W) → Option (SysW n W × List (Event (Val n W)))
  | .connect i => (s.low N H ord (.get i)).map (fun s => (s, []))
  | .call i c =>
    match s.pend i with
    | .idle => if s.rw.mode i = some .out then some (s.setPend i (.called c), [.call i c]) else none
    | _ => none
  | .lock i =>
    match s.pend i with
    | .called c => (s.low N H ord (if c.reads then .lockR i (.begin b c) else .lockW i (.begin b c))).map (fun s => (s, []))
    | _ => none
  | .body i => (s.low N H ord (.body i)).map (fun s => (s, []))
  | .unlock i =>
    match s.pend i, s.rw.procs[i]? with
    | .called c, some p =>
      if p.loc.l.finished then (s.low N H ord (.unlock i)).map (fun s => (s.setPend i (.returning (c.result p.loc.l)), []))
      else none
    | _, _ => none
  | .ret i =>
    match s.pend i with
    | .returning rs => some (s.setPend i .idle, [.ret i rs])
    | _ => none
  | .kill i => (s.low N H ord (.kill i)).map (fun s => (s.setPend i .idle, [.killed i]))
  | .spawn i => (s.low N H ord (.spawn i)).map (fun s => (s, []))

/-- A sequence of steps: the state afterwards and what was seen.  Bookkeeping: processes that make calls of coda/shm_hash_map.tcc:102-213 in any order. -/
def exec (N H : Nat) (ord : List (Fin n)) (b : Val n W) (s : SysW n W) : List (Act (Val n W)) → Option (SysW n W × List (Event (Val n W)))
  | [] => some (s, [])
  | a :: as =>
    match step N H ord b s a with
    | none => none
    | some (s', es) =>
      match exec N H ord b s' as with
      | none => none
      | some (s'', es') => some (s'', es ++ es')

end Verif.MapWords
