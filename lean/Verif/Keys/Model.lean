/-
  Model of the keys of shm_queue::queue and shm::hash_map: both classes turn the name of a file into a number with ftok(key_fname, 1), coda/shm_queue.tcc:129, 197 and
  coda/shm_hash_map.tcc:340, 389, and find their semaphores and their segment by that number.

  Files are numbered; `fs` says what stat finds.  The calls on queues and maps are those of Verif.QueueApi and Verif.MapApi, with a file in place of the key.
-/
import Verif.QueueApi.Model
import Verif.MapApi.Model

namespace Verif.Keys

/-- What stat says of a file.  Environment: the files that ftok looks at: coda/shm_queue.tcc:129, 197, coda/shm_hash_map.tcc:340, 389. -/
structure Stat where
  dev : Nat
  ino : Nat
  deriving DecidableEq

/-- ftok of glibc (sysvipc/ftok.c): `(st_ino & 0xffff) | ((st_dev & 0xff) << 16) | ((proj_id & 0xff) << 24)`. -/
def ftok (st : Stat) (proj : Nat) : Nat := (st.ino &&& 0xffff) ||| ((st.dev &&& 0xff) <<< 16) ||| ((proj &&& 0xff) <<< 24)

/-- The files there are.  Environment: the files that ftok looks at: coda/shm_queue.tcc:129, 197, coda/shm_hash_map.tcc:340, 389. -/
abbrev FS := Nat → Option Stat

/-- The key of a file: project 1. -/
def keyOf (fs : FS) (file : Nat) : Nat :=
  match fs file with
  | some st => ftok st 1
  | none => 0

/-- A call on queues with a file in place of the key: ftok fails if stat fails.  Calls on queues through Verif.QueueApi, coda/shm_queue.tcc:119-403, with the file name in place of the key. -/
def queueCall (fs : FS) : QueueApi.Op → QueueApi.Op
  | .connect h file bs max env => .connect h (keyOf fs file) bs max { env with ftok := env.ftok && (fs file).isSome }
  | op => op

/-- A history of calls on queues.  Calls on queues through Verif.QueueApi, coda/shm_queue.tcc:119-403, with the file name in place of the key. -/
def queues (fs : FS) (ops : List QueueApi.Op) : Res (QueueApi.World × List QueueApi.Reply) := QueueApi.run .init (ops.map (queueCall fs))

/-- A call on maps with a file in place of the key.  Calls on maps through Verif.MapApi, coda/shm_hash_map.tcc:327-457, with the file name in place of the key. -/
def mapCall {V : Type} (fs : FS) : MapApi.Call V → MapApi.Call V
  | .connect h file env => .connect h (keyOf fs file) { env with ftok := env.ftok && (fs file).isSome, ftok2 := env.ftok2 && (fs file).isSome }
  | c => c

/-- A history of calls on maps.  Calls on maps through Verif.MapApi, coda/shm_hash_map.tcc:327-457, with the file name in place of the key. -/
def maps {V : Type} (fs : FS) (par : Nat → MapApi.Params) (v0 : V) (cs : List (MapApi.Call V)) : Res (MapApi.World V × List (MapApi.Reply V)) :=
  MapApi.run par v0 .init (cs.map (mapCall fs))

/-- The semaphores of a key as semop sees them, if a queue made them: number 0 is SEM_ID_0 of the queue and mySEM_R of the map, number 1 is SEM_ID_QUEUE_COUNT and mySEM_W
(coda/shm_queue.tcc:1-2, coda/shm_hash_map.tcc:3-4). -/
def semsOfQueues (w : QueueApi.World) (key : Nat) : Option RwLock.Vals := (w.sems key).map (fun s => ⟨s.r, s.w⟩)

/-- … if a map made them.  Calls on maps through Verif.MapApi, coda/shm_hash_map.tcc:327-457, with the file name in place of the key. -/
def semsOfMaps {V : Type} (w : MapApi.World V) (key : Nat) : Option QueueApi.Sem := (w.sems key).map (fun v => ⟨v.r.toNat, v.w.toNat⟩)

end Verif.Keys
