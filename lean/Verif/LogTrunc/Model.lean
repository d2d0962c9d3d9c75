import Verif.Mem
/-
  Model of logs that another program copies and truncates while they are written (as logrotate does with copytruncate), byte by byte: log_create opens with O_APPEND (coda/logger.c:39-46), a
  message is written to descriptor 2 (coda/logger.h:51-73).

  Simplified: log_create is one step that succeeds, and so is a message, which is one write(2) of the whole line (Verif.LogFile has the steps, failures, renames and threads).
-/
namespace Verif.LogTrunc

/-- An open file description: the file, whether it was opened with O_APPEND, and the offset.  Environment: opened at coda/system.c:25-33 for coda/logger.c:42. -/
structure Desc where
  file : Nat
  append : Bool
  off : Nat
  deriving DecidableEq

/-- The system.  Environment: files and open file descriptions; coda/logger.c:39-46. -/
structure World where
  files : Nat → List UInt8
  /-- the copies that were made of a file -/
  copies : Nat → List (List UInt8)
  desc : Nat → Desc
  /-- descriptions from here on are unused -/
  fresh : Nat
  /-- what descriptor 2 of a process refers to -/
  err : Nat → Nat

/-- Function update.  Environment: coda/logger.c:39-46. -/
def put {α : Type} (f : Nat → α) (a : Nat) (v : α) : Nat → α := fun x => if x = a then v else f x

/-- The bytes of a file after a write at an offset; a gap behind its end is filled with zeros.  Environment: write(2), of a message, coda/logger.h:51-73. -/
def writeAt (b : List UInt8) (off : Nat) (d : List UInt8) : List UInt8 := b.take off ++ List.replicate (off - b.length) 0 ++ d ++ b.drop (off + d.length)

/-- What happens: log_create(file f), coda/logger.c:39-46; a message, coda/logger.h:51-73; fork(2), coda/daemon.c:62-102; and another program copies a file, or truncates it to length 0. -/
inductive Act where
  | create (p f : Nat)
  | log (p : Nat) (line : List UInt8)
  | fork (p q : Nat)
  | copy (f : Nat)
  | truncate (f : Nat)
  deriving DecidableEq

/-- open(path, O_CREAT|O_APPEND|O_WRONLY), dup2 and close: descriptor 2 refers to a new description.  coda/logger.c:39-46. -/
def create (w : World) (p f : Nat) : World := { w with desc := put w.desc w.fresh ⟨f, true, 0⟩, fresh := w.fresh + 1, err := put w.err p w.fresh }

/-- write(2, line): with O_APPEND at the end of the file, otherwise at the offset.  coda/logger.h:51-73. -/
def log (w : World) (p : Nat) (line : List UInt8) : World :=
  let d := w.desc (w.err p)
  let off := if d.append then (w.files d.file).length else d.off
  { w with files := put w.files d.file (writeAt (w.files d.file) off line), desc := put w.desc (w.err p) { d with off := off + line.length } }

/-- One step.  coda/logger.c:39-46, coda/logger.h:51-73, in any order. -/
def step (w : World) : Act → World
  | .create p f => create w p f
  | .log p line => log w p line
  | .fork p q => { w with err := put w.err q (w.err p) }
  | .copy f => { w with copies := put w.copies f (w.copies f ++ [w.files f]) }
  | .truncate f => { w with files := put w.files f [] }

/-- Any number of steps.  coda/logger.c:39-46, coda/logger.h:51-73, in any order. -/
def run (w : World) : List Act → World
  | [] => w
  | a :: as => run (step w a) as

end Verif.LogTrunc
