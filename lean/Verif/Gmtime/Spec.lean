/-
  The Gregorian calendar.
-/
namespace Verif.Gmtime

/-- Leap years of the Gregorian calendar. -/
def isLeap (y : Nat) : Bool := y % 4 == 0 && (y % 100 != 0 || y % 400 == 0)

def yearLen (y : Nat) : Nat := if isLeap y then 366 else 365

/-- Number of days of month `m` (1 = January) in year `y`. -/
def monthLen (y m : Nat) : Nat :=
  match m with
  | 2 => if isLeap y then 29 else 28
  | 4 | 6 | 9 | 11 => 30
  | _ => 31

/-- Days from 1 January 1970 to 1 January of the year 1970 + k. -/
def newYear : Nat → Nat
  | 0 => 0
  | k + 1 => newYear k + yearLen (1970 + k)

/-- Days of the months before month `m` in year `y`. -/
def beforeMonth (y : Nat) : Nat → Nat
  | 0 => 0
  | 1 => 0
  | m + 2 => beforeMonth y (m + 1) + monthLen y (m + 1)

/-- Year `y`, month `m`, day `d` is a date, not before 1970. -/
def IsDate (y m d : Nat) : Prop := 1970 ≤ y ∧ 1 ≤ m ∧ m ≤ 12 ∧ 1 ≤ d ∧ d ≤ monthLen y m

instance (y m d : Nat) : Decidable (IsDate y m d) := inferInstanceAs (Decidable (_ ∧ _))

/-- Days from 1 January 1970 to that date. -/
def dayNumber (y m d : Nat) : Nat := newYear (y - 1970) + beforeMonth y m + (d - 1)

end Verif.Gmtime
