/-
  Model of the option parser and the signal handling of coda/daemon.c, of coda_unix_recv and coda_set_socket_timeout (coda/socket.h), and of
  coda/estimate_capacity.hpp.
-/
namespace Verif.Daemon

/-! Options -/

/-- What getopt_long returned: coda/daemon.c:12-21, 46-58.  The classification of argv is that of getopt_long. -/
inductive Opt where
  | config (arg : List UInt8)
  | pid (arg : List UInt8)
  | daemon
  | noDaemon
  | unknown            -- '?': unknown option or missing argument
  deriving DecidableEq

/-- coda_getopt_t: coda/daemon.h:13-19. -/
structure Getopt where
  config : Option (List UInt8) := none
  pid : Option (List UInt8) := none
  daemon : Bool := false
  deriving DecidableEq

/-- The loop of `coda_getopt_parse`: coda/daemon.c:46-58. -/
def getoptLoop : List Opt → Getopt → Int × Getopt
  | [], o => (0, o)
  | .config a :: r, o => getoptLoop r { o with config := some a }
  | .pid a :: r, o => getoptLoop r { o with pid := some a }
  | .daemon :: r, o => getoptLoop r { o with daemon := true }
  | .noDaemon :: r, o => getoptLoop r { o with daemon := false }
  | .unknown :: _, o => (-1, o)

/-- `coda_getopt_parse`: coda/daemon.c:40-60.  The former content of `*opt` is cleared. -/
def coda_getopt_parse (l : List Opt) (_old : Getopt) : Int × Getopt := getoptLoop l {}

/-! Signals -/

/-- The third column of CODA_SIG_LIST: coda/daemon.c:138-174. -/
inductive Hand where
  | terminate | changecfg | rotatelog | changebin | ignoremsg
  deriving DecidableEq

/-- CODA_SIG_LIST with the signal numbers of Linux on x86 and ARM: coda/daemon.c:138-174. -/
def sigList : List (Nat × Hand) :=
  [(1, .changecfg),   -- HUP
   (2, .terminate),   -- INT
   (15, .terminate),  -- TERM
   (10, .rotatelog),  -- USR1
   (12, .changebin),  -- USR2
   (14, .ignoremsg),  -- ALRM
   (3, .ignoremsg),   -- QUIT
   (13, .ignoremsg),  -- PIPE
   (17, .ignoremsg),  -- CHLD
   (18, .ignoremsg),  -- CONT
   (20, .ignoremsg),  -- TSTP
   (21, .ignoremsg),  -- TTIN
   (22, .ignoremsg),  -- TTOU
   (27, .ignoremsg),  -- PROF
   (31, .ignoremsg),  -- SYS
   (5, .ignoremsg),   -- TRAP
   (23, .ignoremsg),  -- URG
   (26, .ignoremsg),  -- VTALRM
   (24, .ignoremsg),  -- XCPU
   (25, .ignoremsg),  -- XFSZ
   (28, .ignoremsg)]  -- WINCH

/-- coda_terminate, coda_changecfg, coda_rotatelog, coda_changebin: coda/daemon.c:195-198. -/
structure Flags where
  terminate : Bool := false
  changecfg : Bool := false
  rotatelog : Bool := false
  changebin : Bool := false
  deriving DecidableEq

/-- What happens on a signal.  Environment: the dispositions of signal(2), set at coda/daemon.c:178, 210-214, and the flags of coda/daemon.c:195-198. -/
inductive Disp where
  | default
  | handler      -- coda_signal_handle
  deriving DecidableEq

/-- A process: its flags and the dispositions of its signals.  Environment: the dispositions of signal(2), set at coda/daemon.c:178, 210-214, and the flags of coda/daemon.c:195-198. -/
structure Proc where
  flags : Flags
  disp : Nat → Disp

/-- Environment: the dispositions of signal(2), set at coda/daemon.c:178, 210-214, and the flags of coda/daemon.c:195-198. -/
def initProc : Proc := ⟨{}, fun _ => .default⟩

/-- CODA_SIG_CASE_##hand: coda/daemon.c:189-193. -/
def setFlag (f : Flags) : Hand → Flags
  | .terminate => { f with terminate := true }
  | .changecfg => { f with changecfg := true }
  | .rotatelog => { f with rotatelog := true }
  | .changebin => { f with changebin := true }
  | .ignoremsg => f

/-- `coda_signal_handle`: coda/daemon.c:200-208.  Its log messages are left out. -/
def coda_signal_handle (f : Flags) (sig : Nat) : Flags :=
  match sigList.lookup sig with
  | some h => setFlag f h
  | none => f

/-- `signal` for the entries of a list, until one fails; `ok n`: whether signal(n) works.  coda/daemon.c:178, 210-214. -/
def install (ok : Nat → Bool) : List (Nat × Hand) → Proc → Int × Proc
  | [], p => (0, p)
  | (n, _) :: r, p =>
    if ok n = false then (-1, p)
    else install ok r { p with disp := fun k => if k = n then .handler else p.disp k }

/-- `coda_signal_init`: coda/daemon.c:210-214; `coda_signal_init_norestart`, 216-220, installs the same handler. -/
def coda_signal_init (ok : Nat → Bool) (p : Proc) : Int × Proc := install ok sigList p

/-- A signal arrives: the handler runs, or the default action is taken (none: it may end the process).  Environment: a signal arrives and its disposition is executed; the handler is coda/daemon.c:200-208. -/
def deliver (p : Proc) (sig : Nat) : Option Proc :=
  match p.disp sig with
  | .handler => some { p with flags := coda_signal_handle p.flags sig }
  | .default => none

/-- Signals arrive one after the other.  Environment: a signal arrives and its disposition is executed; the handler is coda/daemon.c:200-208. -/
def deliverAll (p : Proc) : List Nat → Option Proc
  | [] => some p
  | s :: r =>
    match deliver p s with
    | some q => deliverAll q r
    | none => none

/-- CODA_SIG_MASK: coda/daemon.c:188: `((mask) & (1 << (SIG##name)))`. -/
def inMask (mask : UInt32) (n : Nat) : Bool := mask.toNat.testBit n

/-- The set that `coda_signal_mask` hands to sigprocmask: coda/daemon.c:222-228.  `1 << 31` is computed in int in the code; here as gcc
defines it. -/
def coda_signal_mask (mask : UInt32) : List Nat := (sigList.filter (fun x => inMask mask x.1)).map (·.1)

/-! recv -/

/-- What one recv(2) gave.  What recv(2) returned: coda/socket.h:54. -/
inductive Recv where
  | got (n : Nat)          -- bytes received, 0 at the end
  | error (errno : Nat)    -- EINTR is 4
  deriving DecidableEq

/-- Conversion of a ssize_t to int.  The conversion of a long to int in coda/socket.h:47-64. -/
def toInt (n : Nat) : Int := if n % 2^32 < 2^31 then (n % 2^32 : Nat) else (n % 2^32 : Nat) - 2^32

/-- `coda_unix_recv`: coda/socket.h:47-64.  `errno` is the value of errno before; a successful recv does not change it.  The list holds the
outcomes of the successive calls; none: the last one has not returned yet. -/
def coda_unix_recv (errno : Nat) : List Recv → Option Int
  | [] => none
  | .got n :: r =>
    let rc := toInt n
    if 0 ≤ rc then some rc
    else if errno ≠ 4 then some (-1)
    else coda_unix_recv errno r
  | .error e :: r => if e ≠ 4 then some (-1) else coda_unix_recv e r

/-- `coda_set_socket_timeout`: coda/socket.h:31-39: the timeval it passes, tv_sec and tv_usec. -/
def coda_set_socket_timeout (timeout : Int) : Int × Int := (0, timeout)

/-- setsockopt(SO_RCVTIMEO) (Linux): rejects tv_usec outside of 0 … 999999; otherwise the timeout in microseconds. -/
def setRcvTimeo (tv : Int × Int) : Option Int :=
  if 0 ≤ tv.2 ∧ tv.2 < 1000000 then some (tv.1 * 1000000 + tv.2) else none

/-! estimate_capacity -/

/-- A value: a number or pointer of `size` bytes; a string or vector (an object of `size` bytes) with room for `cap` elements of `elem`
bytes; the elements of a vector may own memory themselves.  The arguments of `estimate_capacity`: coda/estimate_capacity.hpp:8-112. -/
inductive Val where
  | plain (size : Nat)
  | str (size cap elem : Nat)
  | vec (size cap elem : Nat) (els : List Val)

/-- `estimate_capacity`: coda/estimate_capacity.hpp:8-32 and the specialisations for the arithmetic types, 34-110. -/
def estimate_capacity : Val → Nat
  | .plain size => size
  | .str size cap elem => size + cap * elem
  | .vec size cap elem _ => size + cap * elem

end Verif.Daemon
