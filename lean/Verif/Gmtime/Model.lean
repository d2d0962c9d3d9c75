/-
  Model of coda/gmtime.h.  Unsigned 64-bit arithmetic (uintptr_t) is computed modulo 2^64, conversions to int modulo 2^32 into the signed
  range (what gcc and clang define).
-/
namespace Verif.Gmtime

/-- Value of a uintptr_t expression.  Conversions between the integer types of coda/gmtime.h:18-106. -/
def u64 (x : Int) : Int := x % 18446744073709551616

/-- Conversion to int.  Conversions between the integer types of coda/gmtime.h:18-106. -/
def i32 (x : Int) : Int := (x + 2147483648) % 4294967296 - 2147483648

/-- The fields of struct tm which the function stores: coda/gmtime.h:99-105.  tm_yday, tm_isdst, … are left as they were. -/
structure Tm where
  sec : Int
  min : Int
  hour : Int
  mday : Int
  mon : Int
  year : Int
  wday : Int
  deriving DecidableEq, Repr

/-- "days since March 1, 1 BC": coda/gmtime.h:26-27, 44. -/
def marchDays (t : Int) : Int := u64 (u64 (u64 t / 86400 - (31 + 28)) + 719527)

/-- First estimate of the year: coda/gmtime.h:53. -/
def year0 (days : Int) : Int := u64 (u64 (days + 2) * 400) / (365 * 400 + 100 - 4 + 1)

/-- First value of yday: coda/gmtime.h:54. -/
def yday0 (days : Int) : Int :=
  let year := year0 days
  i32 (u64 (days - u64 (u64 (u64 (u64 (365 * year) + year / 4) - year / 100) + year / 400)))

/-- `leap`: coda/gmtime.h:58. -/
def leap (year : Int) : Int := if year % 4 = 0 ∧ (year % 100 ≠ 0 ∨ year % 400 = 0) then 1 else 0

/-- (year, yday) after the correction: coda/gmtime.h:56-61. -/
def fix (year yday : Int) : Int × Int :=
  if yday < 0 then (u64 (year - 1), i32 (u64 (u64 (365 + leap year) + u64 yday))) else (year, yday)

/-- (year, mon, mday): coda/gmtime.h:71-97. -/
def month (year yday : Int) : Int × Int × Int :=
  let mon := u64 (((yday + 31) * 10).tdiv 306)
  let mday := u64 (u64 (u64 yday - u64 (u64 (367 * mon) / 12 - 30)) + 1)
  if yday ≥ 306 then (u64 (year + 1), u64 (mon - 10), mday) else (year, u64 (mon + 2), mday)

/-- `coda_gmtime`: coda/gmtime.h:18-106. -/
def gmtime (t : Int) : Tm :=
  let n := u64 t
  let days := n / 86400
  let wday := u64 (4 + days) % 7
  let n1 := n % 86400
  let hour := n1 / 3600
  let n2 := n1 % 3600
  let min := n2 / 60
  let sec := n2 % 60
  let d := marchDays t
  let f := fix (year0 d) (yday0 d)
  let m := month f.1 f.2
  ⟨i32 sec, i32 min, i32 hour, i32 m.2.2, i32 m.2.1, i32 m.1, i32 wday⟩

/-- The argument of nanosleep in `coda_msleep`: (tv_sec, tv_nsec), coda/gmtime.h:8-16. -/
def msleep (ms : Int) : Int × Int := (ms.tdiv 1000, ms.tmod 1000 * 1000000)

end Verif.Gmtime
