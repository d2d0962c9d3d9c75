/-
  Model of the whole class coda/shm_queue.hpp, coda/shm_queue.tcc, call by call: handles, keys, segments, semaphores and the bytes of the boxes.

  One call is one step here; the interleaving of calls is in Verif.ShmQueue.  A segment is found by its key (keys of files are taken to be different numbers, and no
  segment or semaphore is ever removed, as in the code).  The head of a segment (`queue_info`, 64 bytes) is a record, the boxes behind it are bytes.
-/
import Verif.Mem

namespace Verif.QueueApi

/-- `queue_info`: coda/shm_queue.hpp:28-37. -/
structure Info where
  size : Nat
  box_size : Nat
  start : Nat
  fin : Nat
  regs : List Nat

/-- A shared memory segment: its size, the head, the bytes behind the head, and by how many handles it is attached.  The segment: coda/shm_queue.hpp:28-37, 64, coda/shm_queue.tcc:155-160. -/
structure Seg where
  bytes : Nat
  info : Info
  mem : List UInt8
  nattch : Nat

/-- The two semaphores: the lock (SEM_ID_0) and the number of boxes (SEM_ID_QUEUE_COUNT). -/
structure Sem where
  r : Nat
  w : Nat

/-- The largest value of a semaphore.  The largest value of a semaphore, semop(2) called at coda/shm_queue.tcc:330, 402. -/
def SEMVMX : Nat := 32767

/-- An object of class queue: coda/shm_queue.hpp:39-70.  `info` and `sem` are the key of the segment and of the semaphores (none: NULL, -1).  `buf` is the memory of
`current_box` ([]: not allocated). -/
structure Handle where
  info : Option Nat
  boxes : Bool
  sem : Option Nat
  bs : Nat
  max : Nat
  buf : List UInt8
  pos : Nat

/-- The constructors: coda/shm_queue.tcc:4-10, 99-108. -/
def Handle.new : Handle := ⟨none, false, none, 0, 0, [], 0⟩

/-- Environment: the objects (coda/shm_queue.hpp:62-70), segments and semaphores of the system. -/
structure World where
  segs : Nat → Option Seg
  sems : Nat → Option Sem
  hs : Nat → Handle

/-- Environment: the objects (coda/shm_queue.hpp:62-70), segments and semaphores of the system. -/
def World.init : World := ⟨fun _ => none, fun _ => none, fun _ => .new⟩

/-- Environment: the objects (coda/shm_queue.hpp:62-70), segments and semaphores of the system. -/
def set {α : Type} (f : Nat → α) (i : Nat) (x : α) : Nat → α := fun j => if j = i then x else f j

/-- Environment: the objects (coda/shm_queue.hpp:62-70), segments and semaphores of the system. -/
def World.setH (w : World) (h : Nat) (H : Handle) : World := { w with hs := set w.hs h H }
/-- Environment: the objects (coda/shm_queue.hpp:62-70), segments and semaphores of the system. -/
def World.setSeg (w : World) (k : Nat) (s : Seg) : World := { w with segs := set w.segs k (some s) }
/-- Environment: the objects (coda/shm_queue.hpp:62-70), segments and semaphores of the system. -/
def World.setSem (w : World) (k : Nat) (s : Sem) : World := { w with sems := set w.sems k (some s) }

/-- What a call gives to its caller. `blocked`: it does not return.  Bookkeeping: the public calls of coda/shm_queue.hpp:80-99 one after the other. -/
inductive Reply where
  | unit
  | bool (b : Bool)
  | num (n : Int)
  | data (d : Option (List UInt8))
  | threw
  | blocked
  deriving DecidableEq

/-- lock_queue: coda/shm_queue.tcc:385-393. none: the call waits.  With `sem_id` -1 semop fails, which is ignored. -/
def lock_queue (w : World) (H : Handle) : Option World :=
  match H.sem with
  | none => some w
  | some k =>
    match w.sems k with
    | none => some w
    | some s => if s.r = 0 then none else some (w.setSem k { s with r := s.r - 1 })

/-- unlock_queue: coda/shm_queue.tcc:395-403. -/
def unlock_queue (w : World) (H : Handle) : World :=
  match H.sem with
  | none => w
  | some k =>
    match w.sems k with
    | none => w
    | some s => w.setSem k { s with r := s.r + 1 }

/-- Whether ftok, semget with IPC_CREAT, shmget with IPC_CREAT and shmat succeed.  Bookkeeping: the public calls of coda/shm_queue.hpp:80-99 one after the other. -/
structure Env where
  ftok : Bool
  semget : Bool
  shmget : Bool
  shmat : Bool
  deriving DecidableEq

/-- connect_sem: coda/shm_queue.tcc:187-219 (semctl does not fail). none: an exception. -/
def connect_sem (w : World) (H : Handle) (key : Nat) (env : Env) : Option (World × Handle) :=
  if H.sem.isSome then none
  else if !env.ftok then none
  else
    match w.sems key with
    | some _ => some (w, { H with sem := some key })
    | none => if !env.semget then none else some (w.setSem key ⟨1, 0⟩, { H with sem := some key })

/-- `MAX_BOXES_IN_QUEUE * BOX_SIZE + sizeof(queue_info)`: the product is of type uint32_t. -/
def segSize (bs max : Nat) : Nat := (max * bs) % 2 ^ 32 + 64

/-- The memory of a segment that was made by this call: coda/shm_queue.tcc:153-160. -/
def freshSeg (bs max : Nat) : Seg := ⟨segSize bs max, ⟨max, bs, 0, 0, List.replicate 12 0⟩, List.replicate (segSize bs max - 64) 0, 0⟩

/-- A segment as shmget makes it.  The segment: coda/shm_queue.hpp:28-37, 64, coda/shm_queue.tcc:155-160. -/
def blankSeg (bs max : Nat) : Seg := ⟨segSize bs max, ⟨0, 0, 0, 0, List.replicate 12 0⟩, List.replicate (segSize bs max - 64) 0, 0⟩

/-- coda/shm_queue.tcc:146-174: the segment `seg` is attached.  If it has other parameters, `info->box_size` is read after `info = 0`: undefined. -/
def attach (w : World) (H : Handle) (key : Nat) (seg : Seg) : Res (World × Handle) :=
  if H.bs ≠ seg.info.box_size ∨ H.max ≠ seg.info.size then .ub
  else .ok (w.setSeg key { seg with nattch := seg.nattch + 1 }, { H with info := some key, boxes := true, buf := List.replicate H.bs 0, pos := 0 })

/-- connect_shm: coda/shm_queue.tcc:119-174. none: an exception, with the world it leaves behind. -/
def connect_shm (w : World) (H : Handle) (key : Nat) (env : Env) : Res (World × Option Handle) :=
  if H.boxes then .ok (w, none)
  else if !env.ftok then .ok (w, none)
  else
    match w.segs key with
    | some seg =>
      if segSize H.bs H.max ≤ seg.bytes then
        if !env.shmat then .ok (w, none)
        else do
          let (w, H) ← attach w H key seg
          .ok (w, some H)
      else .ok (w, none)
    | none =>
      if !env.shmget then .ok (w, none)
      else if !env.shmat then .ok (w.setSeg key (blankSeg H.bs H.max), none)
      else do
        let (w, H) ← attach w H key (freshSeg H.bs H.max)
        .ok (w, some H)

/-- connect: coda/shm_queue.tcc:221-231. -/
def connect (w : World) (h key bs max : Nat) (env : Env) : Res (World × Reply) :=
  let H := { w.hs h with bs := bs, max := max }
  match connect_sem w H key env with
  | none => .ok (w.setH h H, .threw)
  | some (w, H) =>
    match lock_queue w H with
    | none => .ok (w.setH h H, .blocked)
    | some w => do
      let (w, H') ← connect_shm w H key env
      match H' with
      | none => .ok (w.setH h H, .threw)
      | some H => .ok ((unlock_queue w H).setH h H, .unit)

/-- disconnect: coda/shm_queue.tcc:233-249; also the destructor (110-117), which calls it if `boxes` is set. -/
def disconnect (w : World) (h : Nat) : Res (World × Reply) :=
  match (w.hs h).info with
  | none => .ok (w, .unit)
  | some key =>
    match w.segs key with
    | none => .ub
    | some seg => .ok ((w.setSeg key { seg with nattch := seg.nattch - 1 }).setH h .new, .unit)

/-- coda/shm_queue.tcc:319-335: the box is copied into the ring, if there is room. -/
def flushSeg (seg : Seg) (buf : List UInt8) : Res (Option Seg) :=
  if seg.info.size = 0 then .ub
  else if ((seg.info.fin + 1) % 2 ^ 32) % seg.info.size ≠ seg.info.start then do
    let off := (seg.info.fin * seg.info.box_size) % 2 ^ 32
    if off + buf.length ≤ seg.mem.length then
      .ok (some { seg with mem := patch seg.mem off buf, info := { seg.info with fin := ((seg.info.fin + 1) % 2 ^ 32) % seg.info.size } })
    else .ub
  else .ok none

/-- coda/shm_queue.tcc:326-330: `semop` with +1; it fails, which is ignored, if the value would be too large. -/
def countUp (w : World) (H : Handle) : World :=
  match H.sem with
  | none => w
  | some k =>
    match w.sems k with
    | none => w
    | some s => if s.w + 1 ≤ SEMVMX then w.setSem k { s with w := s.w + 1 } else w

/-- coda/shm_queue.tcc:316-337 without `current_box.clear()`. none: the call waits. -/
def flushBoxes (w : World) (H : Handle) : Res (Option World) :=
  match lock_queue w H with
  | none => .ok none
  | some w =>
    match H.info with
    | none => .ub
    | some key =>
      match w.segs key with
      | none => .ub
      | some seg => do
        let seg' ← flushSeg seg H.buf
        match seg' with
        | none => .ok (some (unlock_queue w H))
        | some seg => .ok (some (unlock_queue (countUp (w.setSeg key seg) H) H))

/-- `current_box.clear()`: coda/shm_queue.tcc:56-61. -/
def clearBox (H : Handle) : Handle := { H with buf := List.replicate H.buf.length 0, pos := 0 }

/-- flush: coda/shm_queue.tcc:313-339. none: the call waits. -/
def flushCall (w : World) (h : Nat) : Res (Option World) :=
  if (w.hs h).boxes then do
    let r ← flushBoxes w (w.hs h)
    match r with
    | none => .ok none
    | some w => .ok (some (w.setH h (clearBox (w.hs h))))
  else .ok (some (w.setH h (clearBox (w.hs h))))

/-- coda/shm_queue.tcc:313-339. -/
def flush (w : World) (h : Nat) : Res (World × Reply) := do
  let r ← flushCall w h
  match r with
  | none => .ok (w, .blocked)
  | some w => .ok (w, .unit)

/-- box::put: coda/shm_queue.tcc:77-91. `m` is what `serialize` writes; its length is `size()`. none: no space. -/
def boxPut (H : Handle) (m : List UInt8) : Option Handle :=
  if H.pos + m.length ≤ H.buf.length then some { H with buf := patch H.buf H.pos m, pos := H.pos + m.length } else none

/-- put: coda/shm_queue.tcc:301-311. -/
def put (w : World) (h : Nat) (m : List UInt8) : Res (World × Reply) :=
  match boxPut (w.hs h) m with
  | some H => .ok (w.setH h H, .bool true)
  | none => do
    let r ← flushCall w h
    match r with
    | none => .ok (w, .blocked)
    | some w =>
      match boxPut (w.hs h) m with
      | some H => .ok (w.setH h H, .bool true)
      | none => .ok (w, .bool false)

/-- get: coda/shm_queue.tcc:251-262, box::get 63-75, for an object of size `k` whose `deserialize` accepts: the bytes it is given. -/
def get (w : World) (h k : Nat) : Res (World × Reply) :=
  let H := w.hs h
  if H.pos + k ≤ H.buf.length then .ok (w.setH h { H with pos := H.pos + k }, .data (some ((H.buf.drop H.pos).take k)))
  else .ok (w, .data none)

/-- coda/shm_queue.tcc:286-291: the box at `start` is copied out of the ring and cleared. -/
def unflushSeg (seg : Seg) (n : Nat) : Res (List UInt8 × Seg) :=
  let off := (seg.info.start * seg.info.box_size) % 2 ^ 32
  if off + n ≤ seg.mem.length ∧ off + seg.info.box_size ≤ seg.mem.length ∧ seg.info.size ≠ 0 then
    .ok ((seg.mem.drop off).take n,
      { seg with mem := patch seg.mem off (List.replicate seg.info.box_size 0), info := { seg.info with start := ((seg.info.start + 1) % 2 ^ 32) % seg.info.size } })
  else .ub

/-- `semtimedop` with -1: coda/shm_queue.tcc:269-281. none: it fails after the time. -/
def countDown (w : World) (H : Handle) : Option World :=
  match H.sem with
  | none => none
  | some k =>
    match w.sems k with
    | none => none
    | some s => if s.w = 0 then none else some (w.setSem k { s with w := s.w - 1 })

/-- unflush: coda/shm_queue.tcc:264-299. -/
def unflush (w : World) (h : Nat) : Res (World × Reply) :=
  let H := w.hs h
  if H.boxes then
    match countDown w H with
    | none => .ok (w, .bool false)
    | some w =>
      match lock_queue w H with
      | none => .ok (w, .blocked)
      | some w =>
        match H.info with
        | none => .ub
        | some key =>
          match w.segs key with
          | none => .ub
          | some seg => do
            let (d, seg) ← unflushSeg seg H.buf.length
            .ok ((unlock_queue (w.setSeg key seg) H).setH h { H with buf := d, pos := 0 }, .bool true)
  else .ok (w, .bool false)

/-- boxes_in_queue, pages_used: coda/shm_queue.tcc:341-345, 379-383. -/
def count (w : World) (h : Nat) : Res (World × Reply) :=
  match (w.hs h).sem with
  | none => .ok (w, .num (-1))
  | some k =>
    match w.sems k with
    | none => .ok (w, .num (-1))
    | some s => .ok (w, .num s.w)

/-- set_register: coda/shm_queue.tcc:347-356. -/
def set_register (w : World) (h off v : Nat) : Res (World × Reply) :=
  if off < 12 then
    let H := w.hs h
    match lock_queue w H with
    | none => .ok (w, .blocked)
    | some w =>
      match H.info with
      | none => .ub
      | some key =>
        match w.segs key with
        | none => .ub
        | some seg => .ok (unlock_queue (w.setSeg key { seg with info := { seg.info with regs := seg.info.regs.set off v } }) H, .unit)
  else .ok (w, .unit)

/-- get_register: coda/shm_queue.tcc:358-371. -/
def get_register (w : World) (h off : Nat) : Res (World × Reply) :=
  if off < 12 then
    let H := w.hs h
    match lock_queue w H with
    | none => .ok (w, .blocked)
    | some w =>
      match H.info with
      | none => .ub
      | some key =>
        match w.segs key with
        | none => .ub
        | some seg => .ok (unlock_queue w H, .num (seg.info.regs.getD off 0))
  else .ok (w, .num 0)

/-- The calls of the class, on the handle `h`.  Bookkeeping: the public calls of coda/shm_queue.hpp:80-99 one after the other. -/
inductive Op where
  | connect (h key bs max : Nat) (env : Env)
  | disconnect (h : Nat)
  | flush (h : Nat)
  | unflush (h : Nat)
  | put (h : Nat) (m : List UInt8)
  | get (h k : Nat)
  | count (h : Nat)
  | setReg (h off v : Nat)
  | getReg (h off : Nat)

/-- Bookkeeping: the public calls of coda/shm_queue.hpp:80-99 one after the other. -/
def step (w : World) : Op → Res (World × Reply)
  | .connect h key bs max env => connect w h key bs max env
  | .disconnect h => disconnect w h
  | .flush h => flush w h
  | .unflush h => unflush w h
  | .put h m => put w h m
  | .get h k => get w h k
  | .count h => count w h
  | .setReg h off v => set_register w h off v
  | .getReg h off => get_register w h off

/-- Bookkeeping: the public calls of coda/shm_queue.hpp:80-99 one after the other. -/
def run (w : World) : List Op → Res (World × List Reply)
  | [] => .ok (w, [])
  | op :: ops => do
    let (w, r) ← step w op
    let (w, rs) ← run w ops
    .ok (w, r :: rs)

end Verif.QueueApi
