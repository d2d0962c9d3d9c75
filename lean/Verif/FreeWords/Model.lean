import Verif.MapFree.Model
import Verif.MapWords.Model
/-
  Model of the map used without any lock, with values of several words: `unprotected_insert`, `unprotected_erase` and `unprotected_read`, coda/shm_hash_map.hpp:74-76,
  coda/shm_hash_map.tcc:117-137, 221-325.

  Verif.MapFree with one difference, as in Verif.MapWords: a value is not read or written in one access.  The assignments `out = objects[elem].p.value` (:127) and
  `objects[el].p.value = val` (:233, :251, :270) copy `n` words, one access each, in an order `ord` (which depends on `_Type` and on the compiler), and the accesses of other processes come
  in between.
-/
namespace Verif.FreeWords

open Verif.ShmPool Verif.ShmMap Verif.MapSys Verif.MapTorn
open Verif.MapFree (FAct FEvent)
open Verif.MapWords (target source)

variable {W : Type} {n : Nat}

/-- The place in a call, how many words of the value that is being copied have been copied, and the caller's object `out` of a read as far as it is filled.  The local variables of a call,
coda/shm_hash_map.tcc:117-137, 221-325, with the copy in progress. -/
structure Cur (n : Nat) (W : Type) where
  pc : Pc (Val n W)
  g : Nat
  buf : Val n W

/-- The segment, and for each process the place in its call, if it is in one.  coda/shm_hash_map.tcc:117-137, 221-325. -/
structure FSysW (n : Nat) (W : Type) where
  mem : Map (Val n W)
  pc : Nat → Option (Cur n W)

/-- Bookkeeping: calls of coda/shm_hash_map.tcc:117-137, 221-325 without the lock. -/
def FSysW.set (s : FSysW n W) (i : Nat) (t : Option (Cur n W)) : FSysW n W := { s with pc := fun j => if j = i then t else s.pc j }

/-- One access of the copy into a node, or, when all words are there, the step to the next place.  One word of `objects[…].p.value = val`: coda/shm_hash_map.tcc:233, 251, 270. -/
def FSysW.copyIn (N H : Nat) (ord : List (Fin n)) (s : FSysW n W) (i : Nat) (c : Cur n W) (e : Nat) (v : Val n W) : FSysW n W :=
  if e < N then
    match ord[c.g]? with
    | some j => ({ s with mem := { s.mem with val := put s.mem.val e (setWord (s.mem.val e) j (v j)) } } : FSysW n W).set i (some { c with g := c.g + 1 })
    | none => s.set i (some { c with pc := (c.pc.step N H s.mem).2, g := 0 })
  else s.set i (some { c with pc := .ub, g := 0 })

/-- One access of the copy out of a node, or, when all words are there, the step to the next place.  One word of `out = objects[elem].p.value`: coda/shm_hash_map.tcc:127. -/
def FSysW.copyOut (ord : List (Fin n)) (s : FSysW n W) (i : Nat) (c : Cur n W) (e : Nat) : FSysW n W :=
  match ord[c.g]? with
  | some j => s.set i (some { c with g := c.g + 1, buf := setWord c.buf j (s.mem.val e j) })
  | none => s.set i (some { c with pc := .ret (.val (some c.buf)), g := 0 })

/-- A store of another field, or nothing, and the place after it; a store outside of the segment is undefined behaviour.  coda/shm_hash_map.tcc:117-137, 221-325. -/
def FSysW.store (N H : Nat) (s : FSysW n W) (i : Nat) (c : Cur n W) : Option (Wr (Val n W)) × Pc (Val n W) → FSysW n W
  | (none, pc) => s.set i (some { c with pc := pc, g := 0 })
  | (some w, pc) =>
    match w.apply N H s.mem with
    | .ok m => ({ s with mem := m } : FSysW n W).set i (some { c with pc := pc, g := 0 })
    | .ub => s.set i (some { c with pc := .ub, g := 0 })

/-- The next access of a call.  coda/shm_hash_map.tcc:117-137, 221-325. -/
def FSysW.go (N H : Nat) (ord : List (Fin n)) (s : FSysW n W) (i : Nat) (c : Cur n W) : FSysW n W :=
  match target c.pc, source c.pc with
  | some (e, v), _ => s.copyIn N H ord i c e v
  | none, some e => s.copyOut ord i c e
  | none, none => s.store N H i c (c.pc.step N H s.mem)

/-- The successor, if the step is possible, and what is seen of it; `b` is what the object `out` contains before a call.  coda/shm_hash_map.tcc:117-137, 221-325: one access to shared
memory, or the return. -/
def step (N H : Nat) (ord : List (Fin n)) (b : Val n W) (s : FSysW n W) : FAct (Val n W) → Option (FSysW n W × List (FEvent (Val n W)))
  | .call i u =>
    match s.pc i with
    | none => some (s.set i (some ⟨start u.op, 0, b⟩), [.call i u])
    | some _ => none
  | .go i =>
    match s.pc i with
    | none => none
    | some ⟨.ret r, _, _⟩ => some (s.set i none, [.ret i r])
    | some c => some (s.go N H ord i c, [])

/-- A sequence of steps: the state afterwards and what was seen.  Bookkeeping: calls of coda/shm_hash_map.tcc:117-137, 221-325 without the lock. -/
def exec (N H : Nat) (ord : List (Fin n)) (b : Val n W) (s : FSysW n W) : List (FAct (Val n W)) → Option (FSysW n W × List (FEvent (Val n W)))
  | [] => some (s, [])
  | a :: as =>
    match step N H ord b s a with
    | none => none
    | some (s', es) =>
      match exec N H ord b s' as with
      | none => none
      | some (s'', es') => some (s'', es ++ es')

end Verif.FreeWords
