/-
  Model of coda_unix_send and coda_unix_recv, coda/socket.h:41-64, on the two ends of a connected stream socket.
  The kernel (environment): it takes any non-empty part of the bytes given to send and hands out any non-empty part of the bytes that are under way, in
  order; both calls may be interrupted by a signal or fail with EAGAIN (time-outs, FIONBIO); recv returns 0 when the other end is closed
  and nothing is left; send to an end that is closed fails with EPIPE and, without MSG_NOSIGNAL, kills the process by SIGPIPE.
-/
namespace Verif.Stream

/-- What the kernel does with one system call.  What send(2) and recv(2) return: coda/socket.h:44, 54. -/
inductive Out where
  | bytes (n : Nat)   -- n bytes were taken or handed out
  | intr              -- -1 with EINTR
  | again             -- -1 with EAGAIN or another error
  | pipe              -- send: the other end is closed
  | eof               -- recv: 0
  deriving DecidableEq

/-- Environment: the two ends of a connection; coda/socket.h:41-64 use one of them each. -/
structure State where
  way : List UInt8       -- bytes under way
  wclosed : Bool         -- the sender has closed its end
  rclosed : Bool         -- the receiver has closed its end
  killed : Bool          -- the sender was killed by SIGPIPE
  deriving DecidableEq

/-- `int rc = ssize_t`: the value modulo 2^32, as a signed number. -/
def toInt (n : Nat) : Int := if n % 4294967296 < 2147483648 then (n % 4294967296 : Nat) else (n % 4294967296 : Nat) - 4294967296

/-- send(2): new state and result (none: the kernel cannot do this now); -1 is `none` in the second component. -/
def ksend (nosignal : Bool) (s : State) (data : List UInt8) : Out → Option (State × Option Nat)
  | .bytes n => if !s.rclosed && n ≤ data.length && (0 < n || data.isEmpty) then some ({ s with way := s.way ++ data.take n }, some n) else none
  | .intr => some (s, none)
  | .again => some (s, none)
  | .pipe => if s.rclosed then some ({ s with killed := s.killed || !nosignal }, none) else none
  | .eof => none

/-- recv(2) with room for `size` bytes: new state, result and bytes stored. -/
def krecv (s : State) (size : Nat) : Out → Option (State × Option Nat × List UInt8)
  | .bytes n => if n ≤ size && n ≤ s.way.length && 0 < n then some ({ s with way := s.way.drop n }, some n, s.way.take n) else none
  | .intr => some (s, none, [])
  | .again => some (s, none, [])
  | .pipe => none
  | .eof => if (s.way.isEmpty && s.wclosed) || size = 0 then some (s, some 0, []) else none

/-- `coda_unix_send`: coda/socket.h:42-45. -/
def unix_send (s : State) (data : List UInt8) (o : Out) : Option (State × Int) :=
  match ksend true s data o with
  | none => none
  | some (s, none) => some (s, -1)
  | some (s, some n) => some (s, toInt n)

/-- `coda_unix_recv`: coda/socket.h:48-64; one outcome for each turn of the loop.  `rc` is an int: a count whose sign is lost by the conversion
looks like an error, and errno decides (taken here not to be EINTR). -/
def unix_recv (s : State) (size : Nat) : List Out → Option (State × Int × List UInt8)
  | [] => none
  | o :: os =>
    match krecv s size o with
    | none => none
    | some (s, none, _) => if o = .intr then unix_recv s size os else if os = [] then some (s, -1, []) else none
    | some (s, some n, b) => if os ≠ [] then none else if 0 ≤ toInt n then some (s, toInt n, b) else some (s, -1, b)

/-- Bookkeeping: the calls of coda/socket.h:41-64 at both ends in any order. -/
inductive Op where
  | send (data : List UInt8) (o : Out)
  | recv (size : Nat) (os : List Out)
  | wclose
  | rclose

/-- A conversation: the state; what send said it has sent: the first bytes of its data, as many as it returned; what recv gave: the first bytes of the
buffer, as many as it returned; whether recv has returned 0. -/
structure Conv where
  st : State
  told : List UInt8
  got : List UInt8
  ended : Bool

/-- Bookkeeping: the calls of coda/socket.h:41-64 at both ends in any order. -/
def step (c : Conv) : Op → Option Conv
  | .send data o =>
    if c.st.wclosed || c.st.killed then none
    else match unix_send c.st data o with
      | none => none
      | some (s, r) => some { c with st := s, told := c.told ++ data.take r.toNat }
  | .recv size os =>
    if c.st.rclosed || size = 0 then none
    else match unix_recv c.st size os with
      | none => none
      | some (s, r, b) => some { c with st := s, got := c.got ++ b.take r.toNat, ended := c.ended || r == 0 }
  | .wclose => some { c with st := { c.st with wclosed := true } }
  | .rclose => some { c with st := { c.st with rclosed := true } }

/-- Bookkeeping: the calls of coda/socket.h:41-64 at both ends in any order. -/
def run (c : Conv) : List Op → Option Conv
  | [] => some c
  | a :: as =>
    match step c a with
    | none => none
    | some c => run c as

/-- Environment: the two ends of a connection; coda/socket.h:41-64 use one of them each. -/
def start : Conv := ⟨⟨[], false, false, false⟩, [], [], false⟩

end Verif.Stream
