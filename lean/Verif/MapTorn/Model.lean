/-
  Model of the assignments of values in coda/shm_hash_map.tcc, word by word.

  Verif/ShmMap treats `objects[el].p.value = val` as one write.  Here a value consists of `n` words, `Fin n → W`, and the assignment
  (coda/shm_hash_map.tcc:233, 251 and 270) stores its words one after the other in some order `ord`; a word is whatever the machine stores
  in one access.  All other writes of the map are those of Verif/ShmMap.  Which order is used depends on `_Type` and on the compiler,
  so it is a parameter.
-/
import Verif.ShmMap.Spec

namespace Verif.MapTorn

open Verif.ShmPool Verif.ShmMap

variable {W : Type} {n : Nat}

/-- A value of `n` words.  A value of several words and the store of one of them: coda/shm_hash_map.tcc:233, 251, 270. -/
abbrev Val (n : Nat) (W : Type) := Fin n → W

/-- A store: word `j` of the value of node `i`, or a write of another field.  A value of several words and the store of one of them: coda/shm_hash_map.tcc:233, 251, 270. -/
inductive Store (n : Nat) (W : Type) where
  | word (i : Nat) (j : Fin n) (x : W)
  | field (w : Wr (Val n W))

/-- Word `j` of a value is replaced.  A value of several words and the store of one of them: coda/shm_hash_map.tcc:233, 251, 270. -/
def setWord (v : Val n W) (j : Fin n) (x : W) : Val n W := fun j' => if j' = j then x else v j'

/-- A value of several words and the store of one of them: coda/shm_hash_map.tcc:233, 251, 270. -/
def Store.apply (N H : Nat) (m : Map (Val n W)) : Store n W → Res (Map (Val n W))
  | .word i j x => if i < N then .ok { m with val := put m.val i (setWord (m.val i) j x) } else .ub
  | .field w => w.apply N H m

/-- All stores in order.  A value of several words and the store of one of them: coda/shm_hash_map.tcc:233, 251, 270. -/
def applyS (N H : Nat) (m : Map (Val n W)) : List (Store n W) → Res (Map (Val n W))
  | [] => .ok m
  | s :: ss => do
    let m ← s.apply N H m
    applyS N H m ss

/-- The stores of one write: an assignment of a value (coda/shm_hash_map.tcc:233, 251, 270) is a copy of its words. -/
def stores (ord : List (Fin n)) : Wr (Val n W) → List (Store n W)
  | .val i v => ord.map (fun j => .word i j (v j))
  | w => [.field w]

/-- The stores of an operation in program order (coda/shm_hash_map.tcc:148-155 insert, :174-181 erase, :200-213 clear). -/
def opStores (N H : Nat) (ord : List (Fin n)) (m : Map (Val n W)) (op : Op (Val n W)) : Res (List (Store n W)) := do
  let ws ← writes N H m op
  .ok (ws.flatMap (stores ord))

/-- What an operation returns (read: coda/shm_hash_map.tcc:117-137, 139-146, the copy `out = objects[elem].p.value` is made under the lock, where
nobody writes). -/
def result (N H : Nat) (m : Map (Val n W)) : Op (Val n W) → Res (Ret (Val n W))
  | .read k => do
    let v ← unprotected_read N H m k
    .ok (.val v)
  | .insert k v => do
    let (r, _) ← unprotected_insert N H m k v
    .ok (.bool r)
  | .erase k => do
    let (r, _) ← unprotected_erase N H m k
    .ok (.bool r)
  | .clear => .ok .unit
  | .size => .ok (.num (size m))

/-- One operation, complete.  Bookkeeping: calls of coda/shm_hash_map.tcc:139-213, a kill after some of the stores. -/
def stepS (N H : Nat) (ord : List (Fin n)) (m : Map (Val n W)) (op : Op (Val n W)) : Res (Map (Val n W) × Ret (Val n W)) := do
  let r ← result N H m op
  let ss ← opStores N H ord m op
  let m ← applyS N H m ss
  .ok (m, r)

/-- The process executing `op` is killed after `c` of its stores.  Its semaphore adjustments are undone (SEM_UNDO), what it stored stays.  Bookkeeping: calls of coda/shm_hash_map.tcc:139-213, a kill after some of the stores. -/
def killS (N H : Nat) (ord : List (Fin n)) (m : Map (Val n W)) (op : Op (Val n W)) (c : Nat) : Res (Map (Val n W)) := do
  let ss ← opStores N H ord m op
  applyS N H m (ss.take c)

/-- A history in which processes may be killed; results of the completed operations.  Bookkeeping: calls of coda/shm_hash_map.tcc:139-213, a kill after some of the stores. -/
def runS (N H : Nat) (ord : List (Fin n)) (m : Map (Val n W)) : List (ShmMap.Spec.Ev (Val n W)) → Res (Map (Val n W) × List (Ret (Val n W)))
  | [] => .ok (m, [])
  | .done op :: es => do
    let (m, r) ← stepS N H ord m op
    let (m, rs) ← runS N H ord m es
    .ok (m, r :: rs)
  | .killed op c :: es => do
    let m ← killS N H ord m op c
    runS N H ord m es

end Verif.MapTorn
