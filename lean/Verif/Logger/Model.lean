/-
  Model of the level handling of coda/logger.c and coda/logger.h.
-/
import Verif.Mem

namespace Verif.Logger

/-- LOG_access … LOG_debug: coda/logger.h:18-26. -/
inductive Level where
  | access | emerg | alert | crit | error | warn | notice | info | debug
  deriving DecidableEq, Repr

/-- Their values.  The numbers of coda/logger.h:18-26. -/
def Level.num : Level → Int
  | .access => 0 | .emerg => 1 | .alert => 2 | .crit => 3 | .error => 4 | .warn => 5 | .notice => 6 | .info => 7 | .debug => 8

/-- `log_levels`: coda/logger.c:11-37.  The argument is the memory from `level` on; reading outside of it is undefined. -/
def log_levels (level : List UInt8) : Res Level := do
  let c ← rd level 0
  if c = 97 ∨ c = 65 then           -- a A
    let d ← rd level 1
    if d = 99 ∨ d = 67 then pure .access
    else if d = 108 ∨ d = 76 then pure .alert
    else pure .info
  else if c = 100 ∨ c = 68 then pure .debug
  else if c = 99 ∨ c = 67 then pure .crit
  else if c = 101 ∨ c = 69 then     -- e E
    let d ← rd level 1
    if d = 109 ∨ d = 77 then pure .emerg
    else if d = 114 ∨ d = 82 then pure .error
    else pure .info
  else if c = 105 ∨ c = 73 then pure .info
  else if c = 110 ∨ c = 78 then pure .notice
  else if c = 119 ∨ c = 87 then pure .warn
  else pure .info

/-- The test of `log_fmt`: coda/logger.h:53. -/
def written (level : Level) (log_level : Int) : Bool := level.num ≤ log_level

/-- `log_create_from_str(path, level)` when opening the file succeeds or fails: the new value of log_level, and the result.
coda/logger.c:39-46, coda/logger.h:81. -/
def log_create_from_str (level : List UInt8) (log_level : Int) (opened : Bool) : Res (Int × Int) := do
  let l ← log_levels level
  pure (if opened then (l.num, 2) else (log_level, -1))

end Verif.Logger
