/-
  Model of the functions of coda that open, move and close descriptors: coda_fdmove, coda_fdopen, coda_mmap (coda/system.c),
  coda_listen, coda_accept, coda_connect (coda/socket.h), coda_daemon_fork (coda/daemon.c), coda_random_init (coda/random.c).

  A process has a table of descriptors.  The outcome of every system call is an input of the model (an `Env`), as far as the call does
  not fail by itself: a call that returns a new descriptor returns any one that is not in use.  Simplified: close removes the descriptor
  also if it reports an error (Linux); errno is not modelled beyond EINPROGRESS.
-/
namespace Verif.Fd

/-- What a socket has been told to do.  Environment: the table of file descriptors that open, dup2, close, socket and accept work on, called at coda/system.c:7-33, coda/socket.h:112-199. -/
structure Sock where
  nonblk : Bool := false
  reuse : Bool := false
  bound : Option (Nat × Nat) := none      -- address and port
  backlog : Option Int := none            -- listening
  peer : Option (Nat × Nat) := none       -- connected or connecting
  deriving DecidableEq

/-- What a descriptor refers to.  Environment: the table of file descriptors that open, dup2, close, socket and accept work on, called at coda/system.c:7-33, coda/socket.h:112-199. -/
inductive Obj where
  | file (n : Nat)
  | null                -- /dev/null
  | urandom             -- /dev/urandom
  | sock (s : Sock)
  deriving DecidableEq

/-- Descriptors in use.  Environment: the table of file descriptors that open, dup2, close, socket and accept work on, called at coda/system.c:7-33, coda/socket.h:112-199. -/
abbrev Table := Int → Option Obj

/-- Environment: the table of file descriptors that open, dup2, close, socket and accept work on, called at coda/system.c:7-33, coda/socket.h:112-199. -/
def Table.put (t : Table) (d : Int) (o : Obj) : Table := fun e => if e = d then some o else t e

/-- Environment: the table of file descriptors that open, dup2, close, socket and accept work on, called at coda/system.c:7-33, coda/socket.h:112-199. -/
def Table.drop (t : Table) (d : Int) : Table := fun e => if e = d then none else t e

/-- dup2(2): fails with EBADF if `fd` is not open, and if `ok` is false; then nothing changes. -/
def dup2 (t : Table) (fd nd : Int) (ok : Bool) : Int × Table :=
  match t fd with
  | none => (-1, t)
  | some o => if ok then (nd, t.put nd o) else (-1, t)

/-- close(2): fails with EBADF if `fd` is not open. -/
def close (t : Table) (fd : Int) (ok : Bool) : Int × Table :=
  match t fd with
  | none => (-1, t)
  | some _ => (if ok then 0 else -1, t.drop fd)

/-- `coda_fdmove`: coda/system.c:7-23. -/
def coda_fdmove (t : Table) (fd nd : Int) (dupOk closeOk : Bool) : Int × Table :=
  if 0 > nd ∨ fd = nd then (fd, t)
  else
    let r := dup2 t fd nd dupOk
    if 0 > r.1 then (-1, r.2)
    else
      let c := close r.2 fd closeOk
      if 0 > c.1 then (-1, c.2) else (r.1, c.2)

/-- `coda_fdopen`: coda/system.c:25-33.  `new`: what open returned, `o`: the file. -/
def coda_fdopen (t : Table) (fd : Int) (new : Option Int) (o : Obj) (dupOk closeOk : Bool) : Int × Table :=
  match new with
  | none => (-1, t)
  | some td => coda_fdmove (t.put td o) td fd dupOk closeOk

/-- ioctl(FIONBIO), setsockopt, bind, listen, connect: change of a socket.  Environment: the table of file descriptors that open, dup2, close, socket and accept work on, called at coda/system.c:7-33, coda/socket.h:112-199. -/
def Table.sock (t : Table) (d : Int) (f : Sock → Sock) : Table :=
  match t d with
  | some (.sock s) => t.put d (.sock (f s))
  | _ => t

/-- Outcomes of the calls of `coda_listen`.  Environment: the outcomes of the system calls of coda/socket.h:112-150. -/
structure ListenEnv where
  new : Option Int
  nonblkOk : Bool
  reuseOk : Bool
  bindOk : Bool
  listenOk : Bool
  closeOk : Bool

/-- `coda_listen`: coda/socket.h:112-150.  `addr`: what inet_addr(host) gave; `port`: what strtoul gave; htons takes its low 16 bits. -/
def coda_listen (t : Table) (e : ListenEnv) (addr port : Nat) (backlog nonblock : Int) : Int × Table :=
  match e.new with
  | none => (-1, t)
  | some sd =>
    let t := t.put sd (.sock {})
    if nonblock ≠ 0 ∧ e.nonblkOk = false then (-1, (close t sd e.closeOk).2)
    else
      let t := if nonblock ≠ 0 then t.sock sd (fun s => { s with nonblk := decide (nonblock ≠ 0) }) else t
      if e.reuseOk = false then (-1, (close t sd e.closeOk).2)
      else
        let t := t.sock sd (fun s => { s with reuse := true })
        if e.bindOk = false then (-1, (close t sd e.closeOk).2)
        else
          let t := t.sock sd (fun s => { s with bound := some (addr, port % 65536) })
          if e.listenOk = false then (-1, (close t sd e.closeOk).2)
          else (sd, t.sock sd (fun s => { s with backlog := some backlog }))

/-- `coda_accept`: coda/socket.h:152-171; also what `*ip` becomes.  `new`: what accept returned, with the address of the peer. -/
def coda_accept (t : Table) (new : Option (Int × Nat × Nat)) (nonblkOk closeOk : Bool) (nonblock : Int) (ip : Nat) : Int × Table × Nat :=
  match new with
  | none => (-1, t, ip)
  | some (sd, peer) =>
    let t := t.put sd (.sock { peer := some peer })
    if nonblkOk = false then (-1, (close t sd closeOk).2, ip)
    else (sd, t.sock sd (fun s => { s with nonblk := decide (nonblock ≠ 0) }), peer.1)

/-- What connect(2) did.  What accept(2) returned at coda/socket.h:152-171. -/
inductive Conn where
  | ok | inprogress | error
  deriving DecidableEq

/-- `coda_connect`: coda/socket.h:173-199. -/
def coda_connect (t : Table) (new : Option Int) (nonblkOk closeOk : Bool) (conn : Conn) (addr port : Nat) (nonblock : Int) : Int × Table :=
  match new with
  | none => (-1, t)
  | some sd =>
    let t := t.put sd (.sock {})
    if nonblock ≠ 0 ∧ nonblkOk = false then (-1, (close t sd closeOk).2)
    else
      let t := if nonblock ≠ 0 then t.sock sd (fun s => { s with nonblk := decide (nonblock ≠ 0) }) else t
      if conn = .error then (-1, (close t sd closeOk).2)
      else (sd, t.sock sd (fun s => { s with peer := some (addr, port % 65536) }))

/-- What fork(2) returned.  Environment: the outcomes of the system calls of coda/daemon.c:62-101, and the two processes after fork. -/
inductive Fork where
  | error | child | parent
  deriving DecidableEq

/-- Environment: the outcomes of the system calls of coda/daemon.c:62-101, and the two processes after fork. -/
structure DaemonEnv where
  fork : Fork
  setsidOk : Bool
  null : Option Int      -- open("/dev/null")
  dup0Ok : Bool
  dup1Ok : Bool
  closeOk : Bool

/-- How `coda_daemon_fork` ended: with a result in the process that goes on, or with exit(EXIT_SUCCESS) in the parent.  Environment: the outcomes of the system calls of coda/daemon.c:62-101, and the two processes after fork. -/
inductive Forked where
  | ret (r : Int) (t : Table)
  | exited

/-- `coda_daemon_fork`: coda/daemon.c:62-101.  umask is not modelled. -/
def coda_daemon_fork (t : Table) (e : DaemonEnv) : Forked :=
  match e.fork with
  | .error => .ret (-1) t
  | .parent => .exited
  | .child =>
    if e.setsidOk = false then .ret (-1) t
    else match e.null with
      | none => .ret (-1) t
      | some fd =>
        let t := t.put fd .null
        let a := dup2 t fd 0 e.dup0Ok
        if 0 > a.1 then .ret (-1) a.2
        else
          let b := dup2 a.2 fd 1 e.dup1Ok
          if 0 > b.1 then .ret (-1) b.2
          else if fd > 2 then
            let c := close b.2 fd e.closeOk
            if 0 > c.1 then .ret (-1) c.2 else .ret 0 c.2
          else .ret 0 b.2

/-- What read(2) on /dev/urandom gave: an error or some of the four bytes. -/
structure RandomEnv where
  new : Option Int
  read : Option (List UInt8)
  closeOk : Bool

/-- State of coda/random.c: `coda_random_inited` and the argument srandom was last called with: the four bytes of the variable, the ones
that were not read being indeterminate (`none`).  The state of coda/random.c:8. -/
structure Rand where
  inited : Bool
  seed : Option (List (Option UInt8))
  deriving DecidableEq

/-- `coda_random_init`: coda/random.c:10-31. -/
def coda_random_init (t : Table) (r : Rand) (e : RandomEnv) : Int × Table × Rand :=
  if r.inited then (0, t, r)
  else match e.new with
    | none => (-1, t, r)
    | some fd =>
      let t := t.put fd .urandom
      match e.read with
      | none => (-1, t, r)
      | some b => (0, (close t fd e.closeOk).2, ⟨true, some ((b.take 4).map some ++ List.replicate (4 - (b.take 4).length) none)⟩)

/-! coda_mmap -/

/-- Files by number: their sizes.  Mappings: the size and the file of each.  Environment: the outcomes of the system calls of coda/system.c:128-182. -/
structure World where
  fds : Table
  size : Nat → Nat
  maps : List (Nat × Option Nat)

/-- coda_strt: coda/system.h:26-30.  `data`: none is MAP_FAILED, otherwise the number of the mapping. -/
structure Area where
  size : Nat
  data : Option Nat
  deriving DecidableEq

/-- Environment: the outcomes of the system calls of coda/system.c:128-182. -/
structure MmapEnv where
  new : Option Int
  truncOk : Bool
  statOk : Bool
  mmapOk : Bool
  closeOk : Bool

/-- mmap(2): a size of 0 fails with EINVAL. -/
def mmap (w : World) (size : Nat) (file : Option Nat) (ok : Bool) : Option Nat × World :=
  if size = 0 ∨ ok = false then (none, w) else (some w.maps.length, { w with maps := w.maps ++ [(size, file)] })

/-- The calls of `coda_mmap` after the size is settled: coda/system.c:167-181. -/
def mmapTail (w : World) (fd : Int) (file size : Nat) (e : MmapEnv) : Int × World × Area :=
  let m := mmap w size (some file) e.mmapOk
  match m.1 with
  | none => (-1, { m.2 with fds := (close m.2.fds fd e.closeOk).2 }, ⟨size, none⟩)
  | some d =>
    let c := close m.2.fds fd e.closeOk
    (if 0 > c.1 then -1 else 0, { m.2 with fds := c.2 }, ⟨size, some d⟩)

/-- `coda_mmap`: coda/system.c:128-182.  `file`: the file `filename` names, none for NULL; `write`: prot_flags & PROT_WRITE.
ftruncate fails by itself if the file is not open for writing. -/
def coda_mmap (w : World) (area : Area) (write : Bool) (file : Option Nat) (e : MmapEnv) : Int × World × Area :=
  match file with
  | none =>
    let m := mmap w area.size none e.mmapOk
    (if m.1 = none then -1 else 0, m.2, { area with data := m.1 })
  | some f =>
    match e.new with
    | none => (-1, w, area)
    | some fd =>
      let w := { w with fds := w.fds.put fd (.file f) }
      if area.size ≠ 0 then
        if write = false ∨ e.truncOk = false then (-1, { w with fds := (close w.fds fd e.closeOk).2 }, area)
        else mmapTail { w with size := fun g => if g = f then area.size else w.size g } fd f area.size e
      else
        if e.statOk = false then (-1, { w with fds := (close w.fds fd e.closeOk).2 }, area)
        else mmapTail w fd f (w.size f) e

end Verif.Fd
