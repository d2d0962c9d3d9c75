/-
  Model of coda_mkpath (coda/system.c) and of the way log_create (coda/logger.c) calls it.

  The file system is arbitrary: a state `σ` and an operation `mk` that takes the argument of mkdir and gives the new state and the
  outcome.  Other processes may be part of `σ` and of `mk`.
-/
import Verif.Mem

namespace Verif.Mkpath

/-- What mkdir(2) did: returned 0, or -1 with errno EEXIST, or -1 with another errno. -/
inductive Outcome where
  | made
  | eexist
  | error (errno : Nat)
  deriving DecidableEq

/-- A file system: the effect and the outcome of `mkdir(path, 0755)`. -/
abbrev Mkdir (σ : Type) := σ → List UInt8 → σ × Outcome

/-- What coda_mkpath did: its result, the buffer, the file system, and (history) the arguments of its calls of mkdir in their order.  Environment: the calls of mkdir(2) at coda/system.c:45 and what they made. -/
structure Done (σ : Type) where
  ret : Int
  buf : Buf
  fs : σ
  calls : List (List UInt8)
  deriving DecidableEq

/-- The C string at the beginning of a buffer; reading past the end is undefined.  The path that mkdir gets at coda/system.c:45: up to the NUL. -/
def cstr : Buf → Res (List UInt8)
  | [] => .ub
  | c :: b => if c = 0 then .ok [] else (cstr b).map (c :: ·)

/-- `*p = v` in memory that is writable or not (string literals).  The stores of coda/system.c:44, 46. -/
def wrm (writable : Bool) (b : Buf) (i : Nat) (v : UInt8) : Res Buf :=
  if writable then wr b i v else .ub

/-- One round of the loop for a character '/': terminate, call mkdir, restore.  coda/system.c:44-46. -/
def cut {σ : Type} (mk : Mkdir σ) (writable : Bool) (b : Buf) (fs : σ) (p : Nat) : Res (Buf × σ × List UInt8 × Outcome) := do
  let b1 ← wrm writable b p 0
  let arg ← cstr b1
  let r := mk fs arg
  let b2 ← wrm writable b1 p 47
  pure (b2, r.1, arg, r.2)

/-- The loop of `coda_mkpath`: coda/system.c:40-54.  `fuel` bounds the number of rounds; `coda_mkpath` gives enough of it, see
`C67_terminates`.  Running out of it is reported as undefined. -/
def loop {σ : Type} (mk : Mkdir σ) (writable : Bool) : Nat → Buf → σ → List (List UInt8) → Nat → Res (Done σ)
  | 0, _, _, _, _ => .ub
  | fuel + 1, b, fs, calls, p => do
    let c ← rd b p
    if c = 0 then pure ⟨0, b, fs, calls⟩
    else if c ≠ 47 then loop mk writable fuel b fs calls (p + 1)
    else
      let (b2, fs2, arg, o) ← cut mk writable b fs p
      match o with
      | .error _ => pure ⟨-1, b2, fs2, calls ++ [arg]⟩
      | _ => loop mk writable fuel b2 fs2 (calls ++ [arg]) (p + 1)

/-- `coda_mkpath`: coda/system.c:35-55.  The loop starts at the second character. -/
def coda_mkpath {σ : Type} (mk : Mkdir σ) (writable : Bool) (b : Buf) (fs : σ) : Res (Done σ) :=
  loop mk writable (b.length + 1) b fs [] 1

end Verif.Mkpath
