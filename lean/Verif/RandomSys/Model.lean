/-
  coda_random_init and coda_random called by the threads of a program, step by step: coda/random.c:8-31, coda/random.h:10-11.

  The generator of the C library is a function from seeds and positions to numbers; its own lock makes `random` and `srandom` atomic.
  Simplified: a read of /dev/urandom gives all four bytes or fails (short reads and the descriptors: Verif.Fd, C88); the flag is read and
  written atomically and in order (it is a volatile int, for which the C standard promises neither).
-/
import Mathlib.Data.List.Basic

namespace Verif.RandomSys

/-- Where a thread is.  The points between the accesses of `coda_random_init`: coda/random.c:10-31. -/
inductive Pc where
  | idle
  | flag                  -- before coda/random.c:12
  | opn                   -- before coda/random.c:17
  | rd                    -- before coda/random.c:22
  | cls (v : UInt32)      -- before coda/random.c:25
  | seed (v : UInt32)     -- before coda/random.c:27
  | set                   -- before coda/random.c:28
  | fin                   -- before coda/random.c:30
  deriving DecidableEq

/-- The flag (coda/random.c:8), the generator as the seed and the number of values drawn since, and the threads.  coda/random.c:8, 27. -/
structure Sys where
  inited : Bool
  seed : UInt32
  pos : Nat
  pc : Nat → Pc

/-- A program starts: coda/random.c:8; random(3) is as if seeded with 1. -/
def Sys.init : Sys := ⟨false, 1, 0, fun _ => .idle⟩

/-- Environment: a thread of the program is at another point of coda/random.c:10-31. -/
def Sys.goto (s : Sys) (t : Nat) (p : Pc) : Sys := { s with pc := fun u => if u = t then p else s.pc u }

/-- What happens.  `call` and `draw`: the program calls coda_random_init or coda_random; `go`: the next access of a call, with the outcome of the system call
if it is one (none for an error).  coda/random.c:10-31, coda/random.h:11. -/
inductive Act where
  | call (t : Nat)
  | draw (t : Nat)
  | go (t : Nat) (v : Option UInt32)

/-- What can be seen: calls, their return values, numbers drawn, and what the device gave.  Bookkeeping for the calls of coda/random.c:10-31, coda/random.h:11. -/
inductive Obs where
  | call (t : Nat)
  | ret (t : Nat) (rc : Int)
  | draw (t : Nat) (x : Nat)
  | got (t : Nat) (v : UInt32)
  deriving DecidableEq

/-- The next access of a thread inside of `coda_random_init`: coda/random.c:10-31. -/
def advance (s : Sys) (t : Nat) (v : Option UInt32) : Option (Sys × List Obs) :=
  match s.pc t with
  | .idle => none
  -- coda/random.c:12-15
  | .flag => if s.inited then some (s.goto t .idle, [.ret t 0]) else some (s.goto t .opn, [])
  -- coda/random.c:17-18
  | .opn => match v with
    | none => some (s.goto t .idle, [.ret t (-1)])
    | some _ => some (s.goto t .rd, [])
  -- coda/random.c:20-23
  | .rd => match v with
    | none => some (s.goto t .idle, [.ret t (-1)])
    | some x => some (s.goto t (.cls x), [.got t x])
  -- coda/random.c:25
  | .cls x => some (s.goto t (.seed x), [])
  -- coda/random.c:27
  | .seed x => some ({ s with seed := x, pos := 0 }.goto t .set, [])
  -- coda/random.c:28
  | .set => some ({ s with inited := true }.goto t .fin, [])
  -- coda/random.c:30
  | .fin => some (s.goto t .idle, [.ret t 0])

/-- One step of the program; none if it is not possible.  coda/random.c:10-31, coda/random.h:11. -/
def step (gen : UInt32 → Nat → Nat) (s : Sys) : Act → Option (Sys × List Obs)
  | .call t => if s.pc t = .idle then some (s.goto t .flag, [.call t]) else none
  | .draw t => if s.pc t = .idle then some ({ s with pos := s.pos + 1 }, [.draw t (gen s.seed s.pos)]) else none
  | .go t v => advance s t v

/-- The executions of a program: the states and what has been seen up to them.  coda/random.c:10-31, coda/random.h:11. -/
inductive Reach (gen : UInt32 → Nat → Nat) : Sys → List Obs → Prop
  | init : Reach gen .init []
  | step {s tr s' o} (a : Act) : Reach gen s tr → step gen s a = some (s', o) → Reach gen s' (tr ++ o)

end Verif.RandomSys
