/-
  Model of copies of shm::hash_map objects, coda/shm_hash_map.hpp:14-82: the class declares neither a copy constructor nor an assignment, so copies are made member by member:
  sem_id, shm_id, the pointers into the segment and those of the pool (coda/shm_pool.hpp:10-36, coda/shm_stack.hpp:9-34) are copied; nothing is mapped or unmapped.
  disconnect of one copy does not unmap the segment under the others, because it calls shmdt with a pointer that detach has set to zero (coda/shm_hash_map.tcc:442-457, C113).

  The same happens to the objects of a process in fork(): the child has the same numbers and pointers, and the segment is mapped at the same place.  A copy that is made by fork is a handle of
  the child.  The calls are those of Verif.MapApi.
-/
import Verif.MapApi.Model

namespace Verif.MapCopy

open MapApi

variable {V : Type}

/-- A call, or a copy: the object `g` is made as a copy of `h`, or `h` is assigned to `g`, or `g` is what `h` is in a child.  Bookkeeping: the calls of Verif.MapApi, and the implicit copy constructor and assignment of coda/shm_hash_map.hpp:14-161. -/
inductive Call (V : Type) where
  | call (c : MapApi.Call V)
  | copy (h g : Nat)

/-- One call.  A copy does not touch the segment; the object that is assigned to is not disconnected before.  Bookkeeping: the calls of Verif.MapApi, and the implicit copy constructor and assignment of coda/shm_hash_map.hpp:14-161. -/
def step (par : Nat → Params) (v0 : V) (w : World V) : Call V → Res (World V × Reply V)
  | .call c => MapApi.step par v0 w c
  | .copy h g => .ok (w.setH g (w.hs h), .unit)

/-- Bookkeeping: the calls of Verif.MapApi, and the implicit copy constructor and assignment of coda/shm_hash_map.hpp:14-161. -/
def run (par : Nat → Params) (v0 : V) (w : World V) : List (Call V) → Res (World V × List (Reply V))
  | [] => .ok (w, [])
  | c :: cs => do
    let (w, r) ← step par v0 w c
    let (w, rs) ← run par v0 w cs
    .ok (w, r :: rs)

end Verif.MapCopy
