import Verif.Gmtime.Model
/-
  Model of coda_msleep, coda/gmtime.h:7-16, with signals: when it returns and what.  The clock is in nanoseconds; `sig t` says that a signal with a handler arrives at the time `t`; `late` is how
  much later than it could the process goes on.
-/
namespace Verif.Sleep

/-- The first signal after `now` and before `now + d`.  Environment: the signals during coda/gmtime.h:15. -/
def firstSig (sig : Nat → Bool) (now d : Nat) : Option Nat :=
  ((List.range d).find? (fun k => decide (0 < k) && sig (now + k))).map (fun k => now + k)

/-- `nanosleep(&ts, NULL)`, coda/gmtime.h:15 (environment): EINVAL for times that are not normalised, EINTR at the first signal.  The time after it, and what it returns. -/
def nanosleep (sig : Nat → Bool) (now late : Nat) (ts : Int × Int) : Nat × Int :=
  if ts.1 < 0 ∨ ts.2 < 0 ∨ 1000000000 ≤ ts.2 then (now, -1)
  else match firstSig sig now (ts.1 * 1000000000 + ts.2).toNat with
    | some s => (s + late, -1)
    | none => (now + (ts.1 * 1000000000 + ts.2).toNat + late, 0)

/-- `coda_msleep`: coda/gmtime.h:8-16. -/
def coda_msleep (sig : Nat → Bool) (now late : Nat) (ms : Int) : Nat × Int := nanosleep sig now late (Gmtime.msleep ms)

/-- `while (0 != coda_msleep(ms));`, a program that insists (not in /repo; it uses coda/gmtime.h:8-16): one entry of `lates` for each call; `none`: it has not ended after these calls. -/
def insist (sig : Nat → Bool) (now : Nat) (ms : Int) : List Nat → Option Nat
  | [] => none
  | late :: ls =>
    let r := coda_msleep sig now late ms
    if r.2 ≠ 0 then insist sig r.1 ms ls else some r.1

end Verif.Sleep
