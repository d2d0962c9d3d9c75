import Verif.MapThrow.Model
/-
  Model of `insert(pairs, pairs_num)` (coda/shm_hash_map.tcc:157-172) with values whose assignment may throw an exception, besides the calls of Verif.MapThrow.  The loop runs between lock and
  unlock and nothing catches: the pairs before the one that throws are in the map, the rest is not, and the lock is not released.
-/
namespace Verif.ThrowMany
open Verif.ShmPool Verif.ShmMap Verif.RwLock Verif.MapThrow

variable {V : Type}

/-- `insert(pairs, pairs_num)` without an exception: coda/shm_hash_map.tcc:157-172. -/
def callMany (N H : Nat) (s : State V) (i : Nat) (ps : List (UInt64 × V)) : Res (State V × Reply V) :=
  match semop s.sem (s.adj i) lock_write_rw with
  | none => .ok (s, .waits)
  | some (sem, a) => do
    let (m, r) ← insertMany N H s.map ps
    match semop sem a unlock_write_rw with
    | none => .ok (s, .waits)
    | some (sem, a) => .ok (⟨sem, put s.adj i a, m⟩, .ret (.bool r))

/-- The pairs before number `j` are inserted, then the assignment of the value of pair `j` throws, if it comes to one, and leaves `part`; otherwise the call goes on without an exception.
coda/shm_hash_map.tcc:157-172 with 233, 253, 269. -/
def throwsMany (N H : Nat) (s : State V) (i : Nat) (ps : List (UInt64 × V)) (j : Nat) (part : V) : Res (State V × Reply V) :=
  match ps[j]? with
  | none => callMany N H s i ps
  | some (k, _) =>
    match semop s.sem (s.adj i) lock_write_rw with
    | none => .ok (s, .waits)
    | some (sem, a) => do
      let (m, _) ← insertLoop N H s.map (ps.take j)
      let (_, ws) ← unprotected_insert N H m k part
      if copies ws then do
        let m ← applyM N H m (upto ws)
        .ok (⟨sem, put s.adj i a, m⟩, .exc)
      else callMany N H s i ps

/-- Bookkeeping: an event of Verif.MapThrow, or an insertion of several pairs (coda/shm_hash_map.tcc:157-172), with or without an exception. -/
inductive EvM (V : Type) where
  | one (e : Ev V)
  | many (i : Nat) (ps : List (UInt64 × V))
  | throwsMany (i : Nat) (ps : List (UInt64 × V)) (j : Nat) (part : V)

/-- A history of calls of coda/shm_hash_map.tcc:102-213 and the replies to them. -/
def run (N H : Nat) (s : State V) : List (EvM V) → Res (State V × List (Reply V))
  | [] => .ok (s, [])
  | .one (.call i op) :: es => do
    let (s, r) ← call N H s i op
    let (s, rs) ← run N H s es
    .ok (s, r :: rs)
  | .one (.throws i op part) :: es => do
    let (s, r) ← throws N H s i op part
    let (s, rs) ← run N H s es
    .ok (s, r :: rs)
  | .one (.ends i) :: es => run N H (ends s i) es
  | .many i ps :: es => do
    let (s, r) ← callMany N H s i ps
    let (s, rs) ← run N H s es
    .ok (s, r :: rs)
  | .throwsMany i ps j part :: es => do
    let (s, r) ← throwsMany N H s i ps j part
    let (s, rs) ← run N H s es
    .ok (s, r :: rs)

end Verif.ThrowMany
