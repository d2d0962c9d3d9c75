import Verif.Fd.Model
import Verif.Inet.Model
/-
  Model of coda_listen and coda_connect (coda/socket.h:112-150, 173-199) with the texts of host and port, as the C library reads them: inet_addr(3) (glibc: inet_aton, parts in decimal, octal or
  hexadecimal, one to four of them) and strtoul(3) with base 10.  The texts are C strings without their final 0.
-/
namespace Verif.InetHost

/-- `isspace` in the C locale.  Environment: the C library, called at coda/socket.h:134-135, 189-190. -/
def isspace (c : UInt8) : Bool := c = 32 || (9 ≤ c && c ≤ 13)

/-- The value of a digit below `base`.  Environment: the C library, called at coda/socket.h:134-135, 189-190. -/
def digit (base : Nat) (c : UInt8) : Option Nat :=
  let v := if 48 ≤ c ∧ c ≤ 57 then c.toNat - 48 else if 97 ≤ c ∧ c ≤ 102 then c.toNat - 87 else if 65 ≤ c ∧ c ≤ 70 then c.toNat - 55 else 16
  if v < base then some v else none

/-- The digits at the beginning of a text: their value and the rest.  Environment: the C library, called at coda/socket.h:134-135, 189-190. -/
def digits (base : Nat) : List UInt8 → Nat → Nat × List UInt8
  | [], acc => (acc, [])
  | c :: s, acc =>
    match digit base c with
    | some v => digits base s (acc * base + v)
    | none => (acc, c :: s)

/-- `0x` and at least one hexadecimal digit.  Environment: strtoul(3) with base 0, called by inet_addr(3) at coda/socket.h:134, 189. -/
def isHex : List UInt8 → Bool
  | 48 :: x :: c :: _ => (x = 120 || x = 88) && (digit 16 c).isSome
  | _ => false

/-- strtoul with base 0 for a text that begins with a digit.  Environment: strtoul(3) with base 0, called by inet_addr(3) at coda/socket.h:134, 189. -/
def strtoul0 (s : List UInt8) : Nat × List UInt8 :=
  if isHex s then digits 16 (s.drop 2) 0 else if s.head? = some 48 then digits 8 s 0 else digits 10 s 0

/-- The parts of an address, `left` dots being allowed still; the result is in network byte order.  Environment: inet_aton(3), called by inet_addr(3) at coda/socket.h:134, 189. -/
def aton (left : Nat) (s : List UInt8) : Option Nat :=
  match s.head? with
  | none => none
  | some c =>
    if ¬ (48 ≤ c ∧ c ≤ 57) then none
    else
      let (v, rest) := strtoul0 s
      match left, rest with
      | left, [] => if v < 256 ^ (left + 1) then some (Inet.htonl v) else none
      | 0, c :: _ => if isspace c ∧ v < 256 then some (Inet.htonl v) else none
      | left + 1, c :: rest =>
        if c = 46 then
          if v < 256 then (aton left rest).map (fun r => v * 256 ^ (2 - left) + r) else none
        else if isspace c ∧ v < 256 ^ (left + 2) then some (Inet.htonl v) else none

/-- inet_addr(3): INADDR_NONE if the text is no address.  Environment: the C library, called at coda/socket.h:134, 189. -/
def inet_addr (host : List UInt8) : Nat := (aton 3 host).getD Inet.NONE

/-- strtoul(3) with base 10: white space, a sign, digits; too large numbers give 2^64 - 1, a minus sign negates modulo 2^64, and no digits give 0.  Environment: the C library, called at
coda/socket.h:135, 190. -/
def strtoul10 (s : List UInt8) : Nat :=
  let s := s.dropWhile isspace
  let neg := decide (s.head? = some 45)
  let s := if s.head? = some 45 ∨ s.head? = some 43 then s.tail else s
  let v := (digits 10 s 0).1
  if 2 ^ 64 ≤ v then 2 ^ 64 - 1 else if neg then (2 ^ 64 - v) % 2 ^ 64 else v

/-- `coda_listen`: coda/socket.h:112-150. -/
def coda_listen (t : Fd.Table) (e : Fd.ListenEnv) (host port : List UInt8) (backlog nonblock : Int) : Int × Fd.Table :=
  Fd.coda_listen t e (inet_addr host) (strtoul10 port) backlog nonblock

/-- `coda_connect`: coda/socket.h:173-199. -/
def coda_connect (t : Fd.Table) (new : Option Int) (nonblkOk closeOk : Bool) (conn : Fd.Conn) (host port : List UInt8) (nonblock : Int) : Int × Fd.Table :=
  Fd.coda_connect t new nonblkOk closeOk conn (inet_addr host) (strtoul10 port) nonblock

end Verif.InetHost
