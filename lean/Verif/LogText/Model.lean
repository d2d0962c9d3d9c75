/-
  Model of the text of log messages (coda/logger.h, coda/logger.c) and of coda_error (coda/error.hpp).

  printf is modelled for literal bytes, %%, %s, %d, %u, %lu, the flag 0 and field widths.  Everything else in a format, and arguments
  that do not fit to it, is `ub` here: undefined, or outside of the model.
-/
import Verif.Mem
import Verif.Logger.Model

namespace Verif.LogText

/-! printf -/

/-- An argument as the caller passes it: unsigned, unsigned long, int, string (without its NUL).  Environment: the conversions of fprintf(3) and vsnprintf(3) used by LOG_FORMAT, coda/logger.h:47, and coda/error.hpp:10-23. -/
inductive Arg where
  | uint (n : Nat)
  | ulong (n : Nat)
  | int (i : Int)
  | str (t : List UInt8)
  deriving DecidableEq

/-- The digits of a number.  Environment: the conversions of fprintf(3) and vsnprintf(3) used by LOG_FORMAT, coda/logger.h:47, and coda/error.hpp:10-23. -/
def dec (n : Nat) : List UInt8 :=
  if n < 10 then [UInt8.ofNat (48 + n)] else dec (n / 10) ++ [UInt8.ofNat (48 + n % 10)]
termination_by n

/-- A field of at least `w` bytes, filled with zeros or blanks on the left.  Environment: the conversions of fprintf(3) and vsnprintf(3) used by LOG_FORMAT, coda/logger.h:47, and coda/error.hpp:10-23. -/
def field (zero : Bool) (w : Nat) (t : List UInt8) : List UInt8 :=
  List.replicate (w - t.length) (if zero then 48 else 32) ++ t

/-- %d; zeros go between the sign and the digits.  Environment: the conversions of fprintf(3) and vsnprintf(3) used by LOG_FORMAT, coda/logger.h:47, and coda/error.hpp:10-23. -/
def signed (zero : Bool) (w : Nat) (i : Int) : List UInt8 :=
  if 0 ≤ i then field zero w (dec i.toNat)
  else if zero then 45 :: field true (w - 1) (dec (-i).toNat)
  else field false w (45 :: dec (-i).toNat)

/-- An int or unsigned read as unsigned of 32 bits.  Environment: the conversions of fprintf(3) and vsnprintf(3) used by LOG_FORMAT, coda/logger.h:47, and coda/error.hpp:10-23. -/
def u32 (i : Int) : Nat := (i % 2^32).toNat

/-- Where printf is in its format: outside of a directive; after `%` and so many flags and digits; after `l`.  log_level and the names of the threads: coda/logger.c:9, 50-72. -/
inductive St where
  | text
  | pct                               -- right after %
  | width (zero : Bool) (w : Nat)
  | long (zero : Bool) (w : Nat)

/-- One conversion: the text of the argument.  Environment: the conversions of fprintf(3) and vsnprintf(3) used by LOG_FORMAT, coda/logger.h:47, and coda/error.hpp:10-23. -/
def conv (zero : Bool) (w : Nat) (c : UInt8) : Arg → Res (List UInt8)
  | .uint n => if c = 117 then .ok (field zero w (dec n)) else .ub
  | .int i => if c = 117 then .ok (field zero w (dec (u32 i))) else if c = 100 then .ok (signed zero w i) else .ub
  | .str t => if c = 115 then .ok (field false w t) else .ub
  | .ulong _ => .ub

/-- The conversion of the next argument: its text, and the other arguments.  Environment: the conversions of fprintf(3) and vsnprintf(3) used by LOG_FORMAT, coda/logger.h:47, and coda/error.hpp:10-23. -/
def convNext (zero : Bool) (w : Nat) (c : UInt8) : List Arg → Res (List UInt8 × List Arg)
  | [] => .ub
  | a :: as => (conv zero w c a).map fun t => (t, as)

/-- The same after `l`: %lu.  Environment: the conversions of fprintf(3) and vsnprintf(3) used by LOG_FORMAT, coda/logger.h:47, and coda/error.hpp:10-23. -/
def convLong (zero : Bool) (w : Nat) (c : UInt8) : List Arg → Res (List UInt8 × List Arg)
  | .ulong n :: as => if c = 117 then .ok (field zero w (dec n), as) else .ub
  | _ => .ub

/-- printf: the text, and the arguments that were not used.  Environment: the conversions of fprintf(3) and vsnprintf(3) used by LOG_FORMAT, coda/logger.h:47, and coda/error.hpp:10-23. -/
def printf : St → List UInt8 → List Arg → Res (List UInt8 × List Arg)
  | .text, [], as => .ok ([], as)
  | _, [], _ => .ub
  | .text, c :: f, as =>
    if c = 37 then printf .pct f as
    else (printf .text f as).map fun r => (c :: r.1, r.2)
  | .pct, c :: f, as =>
    if c = 37 then (printf .text f as).map fun r => (37 :: r.1, r.2)
    else if c = 48 then printf (.width true 0) f as
    else if 49 ≤ c ∧ c ≤ 57 then printf (.width false (c.toNat - 48)) f as
    else if c = 108 then printf (.long false 0) f as
    else (convNext false 0 c as).bind fun x => (printf .text f x.2).map fun r => (x.1 ++ r.1, r.2)
  | .width z w, c :: f, as =>
    if 48 ≤ c ∧ c ≤ 57 then printf (.width z (10 * w + (c.toNat - 48))) f as
    else if c = 108 then printf (.long z w) f as
    else (convNext z w c as).bind fun x => (printf .text f x.2).map fun r => (x.1 ++ r.1, r.2)
  | .long z w, c :: f, as =>
    (convLong z w c as).bind fun x => (printf .text f x.2).map fun r => (x.1 ++ r.1, r.2)

/-! Log messages -/

open Logger (Level written)

/-- `#lev`: coda/logger.h:28. -/
def levelName : Level → List UInt8
  | .access => [97, 99, 99, 101, 115, 115]
  | .emerg => [101, 109, 101, 114, 103]
  | .alert => [97, 108, 101, 114, 116]
  | .crit => [99, 114, 105, 116]
  | .error => [101, 114, 114, 111, 114]
  | .warn => [119, 97, 114, 110]
  | .notice => [110, 111, 116, 105, 99, 101]
  | .info => [105, 110, 102, 111]
  | .debug => [100, 101, 98, 117, 103]

/-- What gettimeofday and localtime_r gave: struct tm as the C library fills it, and tv_usec.  Environment: gettimeofday and localtime_r, called at coda/logger.h:58-59. -/
structure Clock where
  tm_year : Int
  tm_mon : Int
  tm_mday : Int
  tm_hour : Int
  tm_min : Int
  tm_sec : Int
  tv_usec : Nat
  deriving DecidableEq

/-- "%04u-%02u-%02u %02u:%02u:%02u.%03u " of LOG_FORMAT: coda/logger.h:47. -/
def stampFormat : List UInt8 :=
  [37, 48, 52, 117, 45, 37, 48, 50, 117, 45, 37, 48, 50, 117, 32, 37, 48, 50, 117, 58, 37, 48, 50, 117, 58, 37, 48, 50, 117, 46,
   37, 48, 51, 117, 32]

/-- LOG_FORMAT(lvstr,tname,fmt): coda/logger.h:47. -/
def LOG_FORMAT (lvstr tname fmt : List UInt8) : List UInt8 := stampFormat ++ lvstr ++ [32] ++ tname ++ [32] ++ fmt ++ [10]

/-- LOG_VALUES: coda/logger.h:48-49.  `(unsigned) tv.tv_usec / 1000` is a division of unsigned. -/
def LOG_VALUES (t : Clock) (tname : Arg) (args : List Arg) : List Arg :=
  [.int (t.tm_year + 1900), .int (t.tm_mon + 1), .int t.tm_mday, .int t.tm_hour, .int t.tm_min, .int t.tm_sec,
   .uint (t.tv_usec % 2^32 / 1000), tname] ++ args

/-- log_level, the value of the key log_thread_name in every thread (a pointer), the memory for names (none: not allocated), and what was
written to stderr.  coda/logger.c:9, 50-72. -/
structure World where
  log_level : Int
  names : Nat → Option Nat
  mem : Nat → Option (List UInt8)
  out : List UInt8

/-- At the start: log_level is LOG_info, no thread has a name.  The initial values: coda/logger.c:9, 50-53. -/
def init : World := ⟨7, fun _ => none, fun _ => none, []⟩

/-- `log_fmt` in thread `thr`, whose pthread_self() is `thr`: coda/logger.h:51-73.  Writing to stderr does not fail and is not mixed with
other output. -/
def log_fmt (w : World) (thr : Nat) (level : Level) (fmt : List UInt8) (args : List Arg) (t : Clock) : Res World :=
  if written level w.log_level then
    match w.names thr with
    | some p =>
      match w.mem p with
      | none => .ub
      | some name =>
        (printf .text (LOG_FORMAT (levelName level) [37, 115] fmt) (LOG_VALUES t (.str name) args)).map fun r =>
          { w with out := w.out ++ r.1 }
    | none =>
      (printf .text (LOG_FORMAT (levelName level) [37, 108, 117] fmt) (LOG_VALUES t (.ulong thr) args)).map fun r =>
        { w with out := w.out ++ r.1 }
  else .ok w

/-- " (%d: %s)": coda/logger.h:29, coda/error.hpp:10. -/
def errSuffix : List UInt8 := [32, 40, 37, 100, 58, 32, 37, 115, 41]

/-- `log_err(err,fmt,...)`: coda/logger.h:29.  `text`: what coda_strerror gives for the number. -/
def log_err (w : World) (thr : Nat) (err : Int) (text : List UInt8) (fmt : List UInt8) (args : List Arg) (t : Clock) : Res World :=
  log_fmt w thr .error (fmt ++ errSuffix ++ [10]) (args ++ [.int err, .str text]) t

/-- What happens in a program.  Bookkeeping: the calls of coda/logger.h:28-82 one after the other. -/
inductive Op where
  | level (l : Int)                        -- log_create succeeded with this level
  | name (thr p : Nat)                     -- log_thread_name_set(p) in thread thr; p ≠ NULL
  | poke (p : Nat) (t : List UInt8)        -- the program writes a string to p
  | msg (thr : Nat) (level : Level) (fmt : List UInt8) (args : List Arg) (t : Clock)
  | err (thr : Nat) (err : Int) (text : List UInt8) (fmt : List UInt8) (args : List Arg) (t : Clock)

/-- Bookkeeping: the calls of coda/logger.h:28-82 one after the other. -/
def step (w : World) : Op → Res World
  | .level l => .ok { w with log_level := l }
  | .name thr p => .ok { w with names := fun i => if i = thr then some p else w.names i }
  | .poke p t => .ok { w with mem := fun q => if q = p then some t else w.mem q }
  | .msg thr l fmt args t => log_fmt w thr l fmt args t
  | .err thr e text fmt args t => log_err w thr e text fmt args t

/-- Bookkeeping: the calls of coda/logger.h:28-82 one after the other. -/
def run (w : World) : List Op → Res World
  | [] => .ok w
  | o :: r => (step w o).bind fun w' => run w' r

/-! coda_error -/

/-- vsnprintf(buf, size, …): the memory of `buf` afterwards.  size = 4096 > 0. -/
def vsnprintf (buf : List UInt8) (size : Nat) (fmt : List UInt8) (args : List Arg) : Res (List UInt8) :=
  (printf .text fmt args).bind fun r =>
    let t := r.1.take (size - 1) ++ [0]
    .ok (t ++ buf.drop t.length)

/-- CODA_ERROR_BUFSZ: coda/error.h:13. -/
def CODA_ERROR_BUFSZ : Nat := 4096

/-- The constructor of coda_error: coda/error.hpp:18-23: its member msg.  `garbage`: what was in its memory. -/
def coda_error (garbage : List UInt8) (fmt : List UInt8) (args : List Arg) : Res (List UInt8) :=
  vsnprintf garbage CODA_ERROR_BUFSZ fmt args

/-- `coda_errno(err,fmt,...)`: coda/error.hpp:10-11. -/
def coda_errno (garbage : List UInt8) (err : Int) (text : List UInt8) (fmt : List UInt8) (args : List Arg) : Res (List UInt8) :=
  coda_error garbage (fmt ++ errSuffix) (args ++ [.int err, .str text])

/-- The string that starts at the beginning of a memory: the bytes before the first NUL; undefined if there is none.  The C string at the beginning of a memory: for coda/error.hpp:26. -/
def cstr : List UInt8 → Res (List UInt8)
  | [] => .ub
  | c :: r => if c = 0 then .ok [] else (cstr r).map (c :: ·)

/-- `what()`: coda/error.hpp:26, as a string. -/
def what (msg : List UInt8) : Res (List UInt8) := cstr msg

end Verif.LogText
