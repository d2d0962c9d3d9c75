/-
  Model of coda_inet_addr, coda/socket.h.  uintptr_t: modulo 2^64; in_addr_t: modulo 2^32.
-/
namespace Verif.Inet

/-- INADDR_NONE.  INADDR_NONE, returned at coda/socket.h:66-110. -/
def NONE : Nat := 0xffffffff

/-- `htonl` on a little-endian machine: the four bytes reversed.  htonl(3), called at coda/socket.h:106. -/
def htonl (x : Nat) : Nat := x % 256 * 16777216 + x / 256 % 256 * 65536 + x / 65536 % 256 * 256 + x / 16777216 % 256

/-- The loop, coda/socket.h:77-96; `none`: `return INADDR_NONE` inside. -/
def loop : List UInt8 → Nat → Nat → Nat → Option (Nat × Nat × Nat)
  | [], addr, octet, n => some (addr, octet, n)
  | c :: cs, addr, octet, n =>
    if 48 ≤ c ∧ c ≤ 57 then loop cs addr ((octet * 10 + (c.toNat - 48)) % 2 ^ 64) n
    else if c = 46 ∧ octet < 256 then loop cs ((addr * 256 % 2 ^ 32 + octet) % 2 ^ 32) 0 ((n + 1) % 2 ^ 64)
    else none

/-- `coda_inet_addr`: coda/socket.h:66-110. -/
def inet_addr (data : List UInt8) : Nat :=
  match loop data 0 0 0 with
  | none => NONE
  | some (addr, octet, n) =>
    if n ≠ 3 then NONE
    else if octet < 256 then htonl ((addr * 256 % 2 ^ 32 + octet) % 2 ^ 32)
    else NONE

end Verif.Inet
