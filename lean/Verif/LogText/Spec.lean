/-
  What a log file says: lines, and the entries that a reader finds in them.
-/
import Verif.LogText.Model

namespace Verif.LogText

/-- The lines of a text, without their newlines. -/
def lines : List UInt8 → List (List UInt8)
  | [] => []
  | c :: r =>
    if c = 10 then [] :: lines r
    else match lines r with
      | [] => [[c]]
      | l :: ls => (c :: l) :: ls

/-- A number in decimal digits, `acc` being the number read so far. -/
def numberFrom (acc : Nat) : List UInt8 → Option Nat
  | [] => some acc
  | c :: r => if 48 ≤ c ∧ c ≤ 57 then numberFrom (10 * acc + (c.toNat - 48)) r else none

def number (t : List UInt8) : Option Nat := if t = [] then none else numberFrom 0 t

/-- An entry of a log. -/
structure Entry where
  year : Nat
  mon : Nat
  day : Nat
  hour : Nat
  min : Nat
  sec : Nat
  ms : Nat
  level : List UInt8
  thread : List UInt8
  msg : List UInt8
  deriving DecidableEq

/-- The text before the first blank, and the text behind it. -/
def word : List UInt8 → Option (List UInt8 × List UInt8)
  | [] => none
  | c :: r => if c = 32 then some ([], r) else (word r).map fun x => (c :: x.1, x.2)

/-- The `n` bytes from column `i` on. -/
def col (l : List UInt8) (i n : Nat) : List UInt8 := (l.drop i).take n

/-- How a reader takes a line apart: `YYYY-MM-DD hh:mm:ss.mmm level thread message`. -/
def readEntry (l : List UInt8) : Option Entry :=
  match number (col l 0 4), number (col l 5 2), number (col l 8 2), number (col l 11 2), number (col l 14 2), number (col l 17 2),
      number (col l 20 3) with
  | some y, some mo, some d, some h, some mi, some s, some ms =>
    if l[4]? = some 45 ∧ l[7]? = some 45 ∧ l[10]? = some 32 ∧ l[13]? = some 58 ∧ l[16]? = some 58 ∧ l[19]? = some 46 ∧ l[23]? = some 32 then
      match word (l.drop 24) with
      | none => none
      | some (level, r) =>
        match word r with
        | none => none
        | some (thread, msg) => some ⟨y, mo, d, h, mi, s, ms, level, thread, msg⟩
    else none
  | _, _, _, _, _, _, _ => none

/-- A time that localtime_r can give, of a year with at most four digits. -/
def Clock.Valid (t : Clock) : Prop :=
  -1900 ≤ t.tm_year ∧ t.tm_year ≤ 8099 ∧ 0 ≤ t.tm_mon ∧ t.tm_mon ≤ 11 ∧ 1 ≤ t.tm_mday ∧ t.tm_mday ≤ 31 ∧ 0 ≤ t.tm_hour ∧ t.tm_hour ≤ 23 ∧
  0 ≤ t.tm_min ∧ t.tm_min ≤ 59 ∧ 0 ≤ t.tm_sec ∧ t.tm_sec ≤ 60 ∧ t.tv_usec < 1000000

instance (t : Clock) : Decidable t.Valid := by unfold Clock.Valid; exact inferInstance

/-- The bytes of ASCII characters. -/
def chars (l : List Char) : List UInt8 := l.map fun c => UInt8.ofNat c.toNat

/-- The entry for a message that was logged at that time. -/
def entry (t : Clock) (level : Logger.Level) (thread msg : List UInt8) : Entry :=
  ⟨(t.tm_year + 1900).toNat, (t.tm_mon + 1).toNat, t.tm_mday.toNat, t.tm_hour.toNat, t.tm_min.toNat, t.tm_sec.toNat, t.tv_usec / 1000,
   match level with
    | .access => chars ['a', 'c', 'c', 'e', 's', 's'] | .emerg => chars ['e', 'm', 'e', 'r', 'g'] | .alert => chars ['a', 'l', 'e', 'r', 't']
    | .crit => chars ['c', 'r', 'i', 't'] | .error => chars ['e', 'r', 'r', 'o', 'r'] | .warn => chars ['w', 'a', 'r', 'n']
    | .notice => chars ['n', 'o', 't', 'i', 'c', 'e'] | .info => chars ['i', 'n', 'f', 'o'] | .debug => chars ['d', 'e', 'b', 'u', 'g'],
   thread, msg⟩

/-- What printf prints for this format and these arguments. -/
def printed (fmt : List UInt8) (args : List Arg) : List UInt8 :=
  match printf .text fmt args with
  | .ok r => r.1
  | .ub => []

/-- The decimal text of an integer. -/
def intText (i : Int) : List UInt8 := if 0 ≤ i then dec i.toNat else 45 :: dec (-i).toNat

/-- What a program knows about its log: the level, the name that each thread gave itself (and where it is), the strings it has. -/
structure View where
  level : Int
  names : Nat → Option (Nat × List UInt8)
  mem : Nat → Option (List UInt8)

def View.init : View := ⟨7, fun _ => none, fun _ => none⟩

def View.step (v : View) : Op → View
  | .level l => { v with level := l }
  | .name thr p => { v with names := fun i => if i = thr then (v.mem p).map (p, ·) else v.names i }
  | .poke p t => { v with mem := fun q => if q = p then some t else v.mem q }
  | _ => v

/-- The name of a thread, or its number. -/
def View.thread (v : View) (thr : Nat) : List UInt8 :=
  match v.names thr with
  | some x => x.2
  | none => dec thr

/-- The entries that a program expects in its log. -/
def expected (v : View) : List Op → List Entry
  | [] => []
  | .msg thr l fmt args t :: r =>
    (if l.num ≤ v.level then [entry t l (v.thread thr) (printed fmt args)] else []) ++ expected v r
  | .err thr e text fmt args t :: r =>
    (if 4 ≤ v.level then [entry t .error (v.thread thr) (printed fmt args ++ [32, 40] ++ intText e ++ [58, 32] ++ text ++ [41])] else [])
      ++ expected v r
  | o :: r => expected (v.step o) r

/-- The messages have no newlines, their formats go with their arguments; names are words, and are neither changed while a thread has them
nor set without being there. -/
def Proper (v : View) : List Op → Prop
  | [] => True
  | .msg _ _ fmt args t :: r =>
    (∃ m, printf .text fmt args = .ok (m, []) ∧ 10 ∉ m) ∧ t.Valid ∧ Proper v r
  | .err _ _ text fmt args t :: r =>
    (∃ m, printf .text fmt args = .ok (m, []) ∧ 10 ∉ m) ∧ 10 ∉ text ∧ t.Valid ∧ Proper v r
  | .name thr p :: r => (∃ t, v.mem p = some t ∧ 10 ∉ t ∧ 32 ∉ t) ∧ Proper (v.step (.name thr p)) r
  | .poke p t :: r => (∀ thr n, v.names thr ≠ some (p, n)) ∧ Proper (v.step (.poke p t)) r
  | .level l :: r => Proper (v.step (.level l)) r

/-- A time before another one. -/
def Before (a b : Clock) : Prop :=
  a.tm_year < b.tm_year ∨ a.tm_year = b.tm_year ∧ (a.tm_mon < b.tm_mon ∨ a.tm_mon = b.tm_mon ∧ (a.tm_mday < b.tm_mday ∨
  a.tm_mday = b.tm_mday ∧ (a.tm_hour < b.tm_hour ∨ a.tm_hour = b.tm_hour ∧ (a.tm_min < b.tm_min ∨ a.tm_min = b.tm_min ∧
  (a.tm_sec < b.tm_sec ∨ a.tm_sec = b.tm_sec ∧ a.tv_usec / 1000 < b.tv_usec / 1000)))))

end Verif.LogText
