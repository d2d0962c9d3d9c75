/-
  Model of the log as files: log_create and log_rotate (coda/logger.c:39-46, coda/logger.h:81-82, with coda_fdopen and coda_fdmove, coda/system.c:7-33) step by step, in any
  number of processes with any number of threads, while other threads log and somebody renames or removes files (as logrotate does).

  One step is one system call.  Simplified: mkdir of coda_mkpath makes directories only and is one step; the log level filter and the text of a line are those of Verif.LogText;
  a file is the list of the writes it got, each with the name of the line it belongs to; O_APPEND makes a write one step.
-/
import Verif.Mem

namespace Verif.LogFile

/-- One write(2) of a part of a line: by which thread, which of its lines (from 0), which part of the line (from 0), and the bytes. -/
structure Rec where
  proc : Nat
  thr : Nat
  line : Nat
  part : Nat
  data : List UInt8
  deriving DecidableEq

/-- What a descriptor refers to; `own`: it was made by log_create.  Environment: descriptors and files; opened, moved and closed at coda/system.c:7-33. -/
structure Slot where
  file : Nat
  own : Bool
  deriving DecidableEq

/-- Where a thread is.  The places of `log_create`, coda/logger.c:39-46, with coda/system.c:7-33, and of a message, coda/logger.h:51-73. -/
inductive Pc where
  | idle
  /-- inside fprintf: line and number of the next part, the parts to be written -/
  | writing (line part : Nat) (rest : List (List UInt8))
  /-- inside log_create: before coda_mkpath; before open; before dup2; before close; before `log_level = level` -/
  | mkpath (path : Nat) (level : Int)
  | opening (path : Nat) (level : Int)
  | moving (td : Nat) (level : Int)
  | closing (td : Nat) (level : Int)
  | level (level : Int)
  deriving DecidableEq

/-- Environment: descriptors and files; opened, moved and closed at coda/system.c:7-33. -/
structure World where
  /-- the directory -/
  dir : Nat → Option Nat
  /-- the contents of the files -/
  files : Nat → List Rec
  /-- file numbers from here on are unused -/
  fresh : Nat
  /-- the descriptors of the processes -/
  tab : Nat → Nat → Option Slot
  /-- which thread holds the lock of stderr -/
  lock : Nat → Option Nat
  pc : Nat → Nat → Pc
  /-- how many lines a thread has begun -/
  lines : Nat → Nat → Nat
  log_level : Nat → Int
  /-- what the calls of log_create of a thread have returned -/
  rets : Nat → Nat → List Int

/-- Function update.  Environment: descriptors and files; opened, moved and closed at coda/system.c:7-33. -/
def put {α : Type} (f : Nat → α) (a : Nat) (v : α) : Nat → α := fun x => if x = a then v else f x

/-- Environment: descriptors and files; opened, moved and closed at coda/system.c:7-33. -/
def put2 {α : Type} (f : Nat → Nat → α) (a b : Nat) (v : α) : Nat → Nat → α := fun x y => if x = a ∧ y = b then v else f x y

/-- What happens.  `ok`: whether the system call succeeds, as far as that is not determined.  What a thread or another program does next: coda/logger.c:39-46, coda/logger.h:51-73, 81-82, rename(2). -/
inductive Act where
  /-- thread `t` of process `p` calls fprintf(stderr, …), which will write the text in these parts -/
  | log (p t : Nat) (parts : List (List UInt8))
  | write (p t : Nat) (ok : Bool)
  /-- the thread leaves fprintf -/
  | logged (p t : Nat)
  | create (p t path : Nat) (level : Int)
  | mkpath (p t : Nat) (ok : Bool)
  /-- open; `some d`: it returns descriptor `d`, any that is not in use -/
  | open (p t : Nat) (d : Option Nat)
  | dup (p t : Nat) (ok : Bool)
  | close (p t : Nat) (ok : Bool)
  | level (p t : Nat)
  /-- somebody renames or removes a file -/
  | rename (a b : Nat)
  | unlink (a : Nat)
  /-- other descriptors of the process -/
  | openOther (p d file : Nat)
  | closeOther (p d : Nat)
  deriving DecidableEq

/-- STDERR_FILENO.  STDERR_FILENO: coda/logger.c:42, 45. -/
def STDERR : Nat := 2

/-- The thread returns from log_create.  Parts of `log_create`: coda/logger.c:39-46, and of `coda_fdopen`: coda/system.c:25-33. -/
def ret (w : World) (p t : Nat) (r : Int) : World := { w with pc := put2 w.pc p t .idle, rets := put2 w.rets p t (w.rets p t ++ [r]) }

/-- write(2, data): to the file that descriptor 2 refers to; nothing if it is not open (EBADF), or if the call fails. -/
def write (w : World) (p : Nat) (r : Rec) (ok : Bool) : World :=
  match w.tab p STDERR with
  | none => w
  | some s => if ok then { w with files := put w.files s.file (w.files s.file ++ [r]) } else w

/-- open(path, O_CREAT|O_APPEND|O_WRONLY) with the result `d`.  Parts of `log_create`: coda/logger.c:39-46, and of `coda_fdopen`: coda/system.c:25-33. -/
def openLog (w : World) (p path d : Nat) : World :=
  match w.dir path with
  | some f => { w with tab := put2 w.tab p d (some ⟨f, true⟩) }
  | none => { w with dir := put w.dir path (some w.fresh), fresh := w.fresh + 1, tab := put2 w.tab p d (some ⟨w.fresh, true⟩) }

/-- One step; `none`: it is not possible.  Bookkeeping: the steps of coda/logger.c:39-46 and coda/logger.h:51-73 in any order. -/
def step (w : World) : Act → Option World
  | .log p t parts =>
    if w.pc p t = .idle ∧ w.lock p = none then
      some { w with pc := put2 w.pc p t (.writing (w.lines p t) 0 parts), lock := put w.lock p (some t), lines := put2 w.lines p t (w.lines p t + 1) }
    else none
  | .write p t ok =>
    match w.pc p t with
    | .writing l i (d :: rest) => some { write w p ⟨p, t, l, i, d⟩ ok with pc := put2 w.pc p t (.writing l (i + 1) rest) }
    | _ => none
  | .logged p t =>
    match w.pc p t with
    | .writing _ _ [] => some { w with pc := put2 w.pc p t .idle, lock := put w.lock p none }
    | _ => none
  -- coda/logger.c:39
  | .create p t path level => if w.pc p t = .idle then some { w with pc := put2 w.pc p t (.mkpath path level) } else none
  -- coda/logger.c:41
  | .mkpath p t ok =>
    match w.pc p t with
    | .mkpath path level => some (if ok then { w with pc := put2 w.pc p t (.opening path level) } else ret w p t (-1))
    | _ => none
  -- coda/system.c:29-30 and 9-12: a descriptor that is STDERR_FILENO already is not moved
  | .open p t d =>
    match w.pc p t with
    | .opening path level =>
      match d with
      | none => some (ret w p t (-1))
      | some d =>
        if w.tab p d = none then
          some { openLog w p path d with pc := put2 w.pc p t (if d = STDERR then .level level else .moving d level) }
        else none
    | _ => none
  -- coda/system.c:14-15
  | .dup p t ok =>
    match w.pc p t with
    | .moving td level =>
      match w.tab p td with
      | none => some (ret w p t (-1))
      | some s => some (if ok then { w with tab := put2 w.tab p STDERR (some s), pc := put2 w.pc p t (.closing td level) } else ret w p t (-1))
    | _ => none
  -- coda/system.c:17-20; close frees the descriptor also if it reports an error
  | .close p t ok =>
    match w.pc p t with
    | .closing td level =>
      let w := { w with tab := put2 w.tab p td none }
      some (if ok then { w with pc := put2 w.pc p t (.level level) } else ret w p t (-1))
    | _ => none
  -- coda/logger.c:44-45
  | .level p t =>
    match w.pc p t with
    | .level level => some (ret { w with log_level := put w.log_level p level } p t STDERR)
    | _ => none
  | .rename a b =>
    match w.dir a with
    | none => none
    | some f => some { w with dir := put (put w.dir a none) b (some f) }
  | .unlink a => some { w with dir := put w.dir a none }
  | .openOther p d f => if w.tab p d = none ∧ d ≠ STDERR then some { w with tab := put2 w.tab p d (some ⟨f, false⟩) } else none
  | .closeOther p d =>
    match w.tab p d with
    | some ⟨_, false⟩ => if d ≠ STDERR then some { w with tab := put2 w.tab p d none } else none
    | _ => none

/-- Bookkeeping: the steps of coda/logger.c:39-46 and coda/logger.h:51-73 in any order. -/
def run (w : World) : List Act → Option World
  | [] => some w
  | a :: as => (step w a).bind (run · as)

end Verif.LogFile
