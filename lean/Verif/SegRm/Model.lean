import Verif.MapApi.Model
import Mathlib.Data.Nat.Pairing
/-
  Model of coda/shm_hash_map.tcc with the memory segment of a key file removed (shmctl IPC_RMID, `ipcrm -m`) between calls.  The kernel then forgets the key: those that have the segment mapped
  keep it, the next `shmget` with the key makes another one.  The semaphores of the key file stay.
  The calls are those of Verif.MapApi; only `connect` has two names: the key (for the semaphores) and the segment the key has now.
-/
namespace Verif.SegRm

open Verif.ShmPool Verif.ShmMap Verif.MapApi

variable {V : Type}

/-- The segment that the key file `key` has after `gen` removals.  Environment: shmget(2) at coda/shm_hash_map.tcc:348, 351. -/
def segId (key gen : Nat) : Nat := Nat.pair key gen

/-- The segments, semaphores and handles (coda/shm_hash_map.hpp:56-65), and how often the segment of each key file has been removed. -/
structure World (V : Type) where
  base : MapApi.World V
  gen : Nat → Nat

/-- Nothing exists.  Bookkeeping: coda/shm_hash_map.tcc:11-22 (handles as made by the constructor). -/
def World.init : World V := ⟨MapApi.World.init, fun _ => 0⟩

/-- `connect`, coda/shm_hash_map.tcc:414-440: the semaphores are those of `key` (379-412), the segment is `id` (338-376); it is attached under the lock (428-439). -/
def connect (p : Params) (v0 : V) (w : MapApi.World V) (h key id : Nat) (env : Env) : Res (MapApi.World V × Reply V) :=
  match connect_sem w (w.hs h) key env with
  | none => .ok (w.setH h (disconnect (w.hs h)), .threw)
  | some (w, H) =>
    match semop w H RwLock.lock_write_rw with
    | .threw => .ok (w.setH h (disconnect H), .threw)
    | .blocked => .ok (w.setH h H, .blocked)
    | .done w => do
      let (w, H') ← connect_shm p v0 w H id env
      match semop w H RwLock.unlock_write_rw with
      | .done w =>
        match H' with
        | none => .ok (w.setH h (disconnect H), .threw)
        | some H => connect_attach p w h H id
      | _ => .ub

/-- What happens: a call of the class (coda/shm_hash_map.hpp:26-48, 74-82), or the removal of the segment of a key file. -/
inductive Ev (V : Type) where
  | call (c : Call V)
  | rm (key : Nat)

/-- One call, on whatever segment the key has now.  The calls other than connect know the segment by its address: coda/shm_hash_map.tcc:102-325, 442-457. -/
def call (par : Nat → Params) (v0 : V) (gen : Nat → Nat) (w : MapApi.World V) : Call V → Res (MapApi.World V × Reply V)
  | .connect h key env => connect (par h) v0 w h key (segId key (gen key)) env
  | c => MapApi.step par v0 w c

/-- A history: the replies of the calls.  Bookkeeping: the public calls of coda/shm_hash_map.hpp:26-48, 74-82 one after the other, with removals between them. -/
def run (par : Nat → Params) (v0 : V) (w : World V) : List (Ev V) → Res (World V × List (Reply V))
  | [] => .ok (w, [])
  | .rm key :: es => run par v0 { w with gen := set w.gen key (w.gen key + 1) } es
  | .call c :: es => do
    let (b, r) ← call par v0 w.gen w.base c
    let (w, rs) ← run par v0 { w with base := b } es
    .ok (w, r :: rs)

end Verif.SegRm
