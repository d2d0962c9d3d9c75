import Verif.Stream.Model
/-
  Model of coda_unix_send and coda_unix_recv, coda/socket.h:41-64, on datagram sockets of the unix domain: any number of senders and one receiver.
  The kernel (environment): it takes a message as a whole or fails (EINTR, EAGAIN or another error); it keeps the messages in order and loses none (unix(7)); recv hands out one message and
  drops what does not fit into the buffer.
-/
namespace Verif.Dgram

/-- What the kernel does with one system call.  What send(2) and recv(2) return: coda/socket.h:44, 54. -/
inductive Out where
  | ok       -- the message is taken, or handed out
  | intr     -- -1 with EINTR
  | again    -- -1 with another error
  deriving DecidableEq

/-- The messages under way, each with its sender.  Environment: the socket; coda/socket.h:41-64. -/
abbrev State := List (Nat × List UInt8)

/-- `coda_unix_send` by sender `i`: coda/socket.h:42-45. -/
def unix_send (s : State) (i : Nat) (data : List UInt8) : Out → State × Int
  | .ok => (s ++ [(i, data)], Stream.toInt data.length)
  | _ => (s, -1)

/-- `coda_unix_recv`: coda/socket.h:48-64; one outcome for each turn of the loop.  `none`: the kernel cannot do this now.  As in Verif.Stream, a count whose sign is lost by the conversion to int
looks like an error (other than EINTR). -/
def unix_recv (s : State) (size : Nat) : List Out → Option (State × Int × List UInt8)
  | [] => none
  | .intr :: os => unix_recv s size os
  | .again :: os => if os = [] then some (s, -1, []) else none
  | .ok :: os =>
    match s with
    | [] => none
    | (_, m) :: s => if os ≠ [] then none else if 0 ≤ Stream.toInt (m.take size).length then some (s, Stream.toInt (m.take size).length, m.take size) else some (s, -1, m.take size)

/-- Bookkeeping: the calls of coda/socket.h:41-64 in any order. -/
inductive Op where
  | send (i : Nat) (data : List UInt8) (o : Out)
  | recv (size : Nat) (os : List Out)

/-- A conversation: the messages under way; the messages for which send has returned a length, with their senders; what recv gave, with the size of the buffer: the first bytes of it, as many as it
returned.  Bookkeeping: the calls of coda/socket.h:41-64 in any order. -/
structure Conv where
  st : State
  told : List (Nat × List UInt8)
  got : List (Nat × List UInt8)

/-- Bookkeeping: the calls of coda/socket.h:41-64 in any order. -/
def step (c : Conv) : Op → Option Conv
  | .send i data o =>
    let r := unix_send c.st i data o
    some { c with st := r.1, told := if 0 ≤ r.2 then c.told ++ [(i, data)] else c.told }
  | .recv size os =>
    match unix_recv c.st size os with
    | none => none
    | some (s, r, b) => some { c with st := s, got := if 0 ≤ r then c.got ++ [(size, b.take r.toNat)] else c.got }

/-- Bookkeeping: the calls of coda/socket.h:41-64 in any order. -/
def run (c : Conv) : List Op → Option Conv
  | [] => some c
  | a :: as =>
    match step c a with
    | none => none
    | some c => run c as

/-- Environment: the socket; coda/socket.h:41-64. -/
def start : Conv := ⟨[], [], []⟩

end Verif.Dgram
