import Verif.QueueApi.Model
import Verif.SegRm.Model
/-
  Model of coda/shm_queue.tcc with the memory segment of a key file removed (shmctl IPC_RMID, `ipcrm -m`) between calls.  The kernel then forgets the key: those that have the segment mapped
  keep it, the next `shmget` with the key makes another one.  The semaphores of the key file, one of which counts the boxes, stay.
  The calls are those of Verif.QueueApi; only `connect` has two names: the key (for the semaphores) and the segment the key has now.
-/
namespace Verif.QueueSegRm

open Verif.QueueApi

/-- The objects, segments and semaphores (coda/shm_queue.hpp:62-70), and how often the segment of each key file has been removed. -/
structure World where
  base : QueueApi.World
  gen : Nat → Nat

/-- Nothing exists.  Bookkeeping: coda/shm_queue.tcc:99-108 (handles as made by the constructor). -/
def World.init : World := ⟨QueueApi.World.init, fun _ => 0⟩

/-- `connect`, coda/shm_queue.tcc:221-231: the semaphores are those of `key` (187-219), the segment is `id` (119-174). -/
def connect (w : QueueApi.World) (h key id bs max : Nat) (env : Env) : Res (QueueApi.World × Reply) :=
  let H := { w.hs h with bs := bs, max := max }
  match connect_sem w H key env with
  | none => .ok (w.setH h H, .threw)
  | some (w, H) =>
    match lock_queue w H with
    | none => .ok (w.setH h H, .blocked)
    | some w => do
      let (w, H') ← connect_shm w H id env
      match H' with
      | none => .ok (w.setH h H, .threw)
      | some H => .ok ((unlock_queue w H).setH h H, .unit)

/-- What happens: a call of the class (coda/shm_queue.hpp:80-99), or the removal of the segment of a key file. -/
inductive Ev where
  | call (op : Op)
  | rm (key : Nat)

/-- One call, on whatever segment the key has now; the segment after `gen` removals is named as in Verif.SegRm (shmget(2) at coda/shm_queue.tcc:136-138).
The calls other than connect know the segment by its address: coda/shm_queue.tcc:233-371. -/
def call (gen : Nat → Nat) (w : QueueApi.World) : Op → Res (QueueApi.World × Reply)
  | .connect h key bs max env => connect w h key (SegRm.segId key (gen key)) bs max env
  | op => QueueApi.step w op

/-- A history: the replies of the calls.  Bookkeeping: the public calls of coda/shm_queue.hpp:80-99 one after the other, with removals between them. -/
def run (w : World) : List Ev → Res (World × List Reply)
  | [] => .ok (w, [])
  | .rm key :: es => run { w with gen := set w.gen key (w.gen key + 1) } es
  | .call op :: es => do
    let (b, r) ← call w.gen w.base op
    let (w, rs) ← run { w with base := b } es
    .ok (w, r :: rs)

end Verif.QueueSegRm
