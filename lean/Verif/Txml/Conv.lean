/-
  Model of coda/txml.cpp, the conversions of texts (119-145), and of reading of files and strings (11-58, 95-103).
-/
import Verif.Txml.Model

namespace Verif.Txml

/-! ### Texts to numbers.  The C library is modelled after the C standard, with a `long` of 64 bits and the C locale. -/

/-- `c_str()` as the C library sees it: up to the first 0. -/
def cstr : Text → Text
  | [] => []
  | c :: t => if c = 0 then [] else c :: cstr t

/-- `isspace`.  Environment: strtol(3), strtoul(3), strtoll(3) and strtoull(3), called at coda/txml.cpp:138-142. -/
def isSpace (c : UInt8) : Bool := (9 ≤ c && c ≤ 13) || c = 32

/-- `isdigit`.  Environment: strtol(3), strtoul(3), strtoll(3) and strtoull(3), called at coda/txml.cpp:138-142. -/
def isDigit (c : UInt8) : Bool := 48 ≤ c && c ≤ 57

/-- Environment: strtol(3), strtoul(3), strtoll(3) and strtoull(3), called at coda/txml.cpp:138-142. -/
def skipSpace : Text → Text
  | [] => []
  | c :: t => if isSpace c then skipSpace t else c :: t

/-- The digits at the beginning of a text, as a number.  Environment: strtol(3), strtoul(3), strtoll(3) and strtoull(3), called at coda/txml.cpp:138-142. -/
def scan (acc : Nat) : Text → Nat
  | [] => acc
  | c :: t => if isDigit c then scan (10 * acc + (c.toNat - 48)) t else acc

/-- The optional sign (true: minus) and the digits.  Environment: strtol(3), strtoul(3), strtoll(3) and strtoull(3), called at coda/txml.cpp:138-142. -/
def scanSigned : Text → Bool × Nat
  | [] => (false, 0)
  | c :: t => if c = 45 then (true, scan 0 t) else if c = 43 then (false, scan 0 t) else (false, scan 0 (c :: t))

/-- `strtol(s, NULL, 10)`, `strtoll`: the nearest value of the type if the number is out of range. -/
def strtol (t : Text) : Int :=
  match scanSigned (skipSpace (cstr t)) with
  | (true, n) => if 2 ^ 63 < n then -(2 ^ 63) else -(n : Int)
  | (false, n) => if 2 ^ 63 - 1 < n then 2 ^ 63 - 1 else (n : Int)

/-- `strtoul(s, NULL, 10)`, `strtoull`: the largest value if the number is out of range; a minus sign negates modulo 2^64. -/
def strtoul (t : Text) : Nat :=
  match scanSigned (skipSpace (cstr t)) with
  | (neg, n) => if 2 ^ 64 - 1 < n then 2 ^ 64 - 1 else if neg then (2 ^ 64 - n) % 2 ^ 64 else n

/-- `setValue(int32_t&)`: coda/txml.cpp:138.  The conversion of a long to an int32_t is modulo 2^32. -/
def setI32 (t : Text) : Int := Int.bmod (strtol t) (2 ^ 32)

/-- `setValue(uint32_t&)`: coda/txml.cpp:139. -/
def setU32 (t : Text) : Nat := strtoul t % 2 ^ 32

/-- `setValue(int64_t&)`: coda/txml.cpp:140. -/
def setI64 (t : Text) : Int := strtol t

/-- `setValue(uint64_t&)`: coda/txml.cpp:141. -/
def setU64 (t : Text) : Nat := strtoul t

/-- `setValue(uint8_t&)`: coda/txml.cpp:142. -/
def setU8 (t : Text) : Nat := strtoul t % 2 ^ 8

/-- `tolower` in the C locale.  Environment: strncasecmp(3), called at coda/txml.cpp:119-134. -/
def tolower (c : UInt8) : UInt8 := if 65 ≤ c && c ≤ 90 then c + 32 else c

/-- `0 == strncasecmp(a, b, n)`, for texts that a 0 follows.  Environment: strncasecmp(3), called at coda/txml.cpp:119-134. -/
def caseEq : Nat → Text → Text → Bool
  | 0, _, _ => true
  | n + 1, a, b =>
    if tolower (a.headD 0) ≠ tolower (b.headD 0) then false
    else if a.headD 0 = 0 then true
    else caseEq n a.tail b.tail

/-- `strtobool`: coda/txml.cpp:119-134. -/
def strtobool (s : Text) (sz : Nat) : Bool :=
  if strtol s ≠ 0 then true
  else if caseEq sz s [48] then false
  else if caseEq sz s [116, 114, 117, 101] then true
  else if caseEq sz s [102, 97, 108, 115, 101] then false
  else if caseEq sz s [111, 110] then true
  else if caseEq sz s [111, 102, 102] then false
  else if caseEq sz s [121, 101, 115] then true
  else if caseEq sz s [110, 111] then false
  else false

/-- `setValue(bool&)`: coda/txml.cpp:137. -/
def setBool (t : Text) : Bool := strtobool (cstr t) t.length

/-! ### Files and strings -/

/-- `BUFSZ`: coda/txml.cpp:9. -/
def BUFSZ : Nat := 4096

/-- An open file: what is still to be read, whether the end was reached (`feof`), and after how many more successful reads a read fails (none: never).  Environment: the file that is read at coda/txml.cpp:11-46, and how the call ends. -/
structure File where
  rest : List UInt8
  eof : Bool
  failIn : Option Nat

/-- `fread(buf, 1, BUFSZ, fp)` and `ferror`: none is an error.  The end is noticed by a read that wants more than there is. -/
def fread (f : File) : Option (List UInt8 × File) :=
  match f.failIn with
  | some 0 => none
  | some (n + 1) => some (f.rest.take BUFSZ, ⟨f.rest.drop BUFSZ, decide (f.rest.length < BUFSZ), some n⟩)
  | none => some (f.rest.take BUFSZ, ⟨f.rest.drop BUFSZ, decide (f.rest.length < BUFSZ), none⟩)

/-- What happens to the file and to the XML parser.  Environment: the file that is read at coda/txml.cpp:11-46, and how the call ends. -/
inductive Act where
  | parse (chunk : List UInt8) (fin : Bool)
  | close
  deriving DecidableEq

/-- How load_from_file ends.  Environment: the file that is read at coda/txml.cpp:11-46, and how the call ends. -/
inductive End where
  | done
  | cantOpen
  | cantRead
  | badXml
  deriving DecidableEq

/-- The loop of load_from_file: coda/txml.cpp:26-43. `P` is the XML parser (not modelled): its next state, or none if it reports an error, and `x` its state.  The
fuel bounds the iterations; `loadFile` gives enough of it (theorem `loop_fuel`). -/
def loop {σ : Type} (P : σ → List UInt8 → Bool → Option σ) : Nat → σ → File → List Act × End × σ
  | 0, x, _ => ([], .done, x)
  | n + 1, x, f =>
    if f.eof then ([.close], .done, x)
    else
      match fread f with
      | none => ([.close], .cantRead, x)
      | some (chunk, f) =>
        match P x chunk f.eof with
        | none => ([.parse chunk f.eof, .close], .badXml, x)
        | some x =>
          let (as, e, x) := loop P n x f
          (.parse chunk f.eof :: as, e, x)

/-- load_from_file: coda/txml.cpp:11-46. `content` is none if the file cannot be opened. -/
def loadFile {σ : Type} (P : σ → List UInt8 → Bool → Option σ) (x : σ) (content : Option (List UInt8)) (failIn : Option Nat) : List Act × End × σ :=
  match content with
  | none => ([], .cantOpen, x)
  | some c => loop P (c.length + 2) x ⟨c, false, failIn⟩

/-- The length that XML_Parse gets for a length of type size_t: `unsigned int` for parse, `int` for XML_Parse: coda/txml.cpp:54-58, 95-99. -/
def parseLen (len : Nat) : Int := Int.bmod ((len % 2 ^ 32 : Nat) : Int) (2 ^ 32)

/-- load_from_string with a length: coda/txml.cpp:54-58: the bytes that are parsed; none: the XML parser gets a negative length. -/
def stringChunk (s : List UInt8) : Option (List UInt8) :=
  if parseLen s.length < 0 then none else some (s.take (parseLen s.length).toNat)

end Verif.Txml
