/-
  Model of memory mapped with coda_mmap (coda/system.c:128-182) and given back with coda_umap (coda/system.h:33): what reads and writes through it
  do, for any number of mappings of any files, in one process or several.  The system calls succeed unless they cannot (Verif/Fd/Model.lean has all outcomes).
  Environment: mmap(2) as Linux implements it, pages of 4096 bytes.  Bytes of the last page behind the end of a file read as 0, and writes to them are lost.
-/
import Verif.Mem

namespace Verif.FileMap

/-- The size of a page; environment of coda/system.c:135, 167. -/
def PAGE : Nat := 4096

/-- The end of the last page that holds one of `n` bytes; environment of coda/system.c:135, 167. -/
def roundUp (n : Nat) : Nat := (n + PAGE - 1) / PAGE * PAGE

/-- A mapping made at coda/system.c:135 (no file) or 167-168.  `copied`: the pages that are no longer those of the file, `own`: their bytes. -/
structure Mapping where
  live : Bool
  file : Option Nat
  size : Nat
  write : Bool
  shared : Bool
  copied : Nat → Bool
  own : Nat → UInt8

/-- The files and the mappings: the effects of coda/system.c:128-182. -/
structure State where
  files : Nat → List UInt8
  maps : List Mapping

/-- ftruncate of coda/system.c:147: cut, or filled with zeros. -/
def truncate (l : List UInt8) (n : Nat) : List UInt8 := l.take n ++ List.replicate (n - l.length) 0

/-- `coda_mmap`, coda/system.c:128-182.  `size`: area->size before the call; result: area->size afterwards, and the number of the mapping for area->data, or
none for -1.  ftruncate (:147) fails without PROT_WRITE (:140, EINVAL); mmap fails for 0 bytes. -/
def coda_mmap (s : State) (file : Option Nat) (size : Nat) (write shared : Bool) : State × Option (Nat × Nat) :=
  match file with
  | none =>
    if size = 0 then (s, none)
    else ({ s with maps := s.maps ++ [⟨true, none, size, write, shared, fun _ => true, fun _ => 0⟩] }, some (size, s.maps.length))
  | some f =>
    if size ≠ 0 then
      if write then
        (⟨fun g => if g = f then truncate (s.files f) size else s.files g, s.maps ++ [⟨true, some f, size, write, shared, fun _ => false, fun _ => 0⟩]⟩,
          some (size, s.maps.length))
      else (s, none)
    else
      if (s.files f).length = 0 then (s, none)
      else ({ s with maps := s.maps ++ [⟨true, some f, (s.files f).length, write, shared, fun _ => false, fun _ => 0⟩] }, some ((s.files f).length, s.maps.length))

/-- `coda_umap(area)`: munmap(area->data, area->size), coda/system.h:33. -/
def coda_umap (s : State) (i : Nat) : State :=
  { s with maps := s.maps.modify i (fun m => { m with live := false }) }

/-- The byte of a mapping at `off`; ub: SIGBUS or SIGSEGV.  Environment of coda/system.c:135, 167. -/
def view (s : State) (m : Mapping) (off : Nat) : Res UInt8 :=
  if m.live && decide (off < roundUp m.size) then
    if m.copied (off / PAGE) then .ok (m.own off)
    else
      match m.file with
      | none => .ok (m.own off)
      | some f => if off < roundUp (s.files f).length then .ok ((s.files f).getD off 0) else .ub
  else .ub

/-- A read through area->data; environment of coda/system.c:135, 167. -/
def read (s : State) (i off : Nat) : Res UInt8 :=
  match s.maps[i]? with
  | none => .ub
  | some m => view s m off

/-- Copy on write: the page of `off` as it is, with one byte changed.  Environment of coda/system.c:135, 167. -/
def copyPage (s : State) (m : Mapping) (off : Nat) (b : UInt8) : Mapping :=
  { m with
    copied := fun p => if p = off / PAGE then true else m.copied p
    own := fun o =>
      if o = off then b
      else if o / PAGE = off / PAGE then (match view s m o with | .ok x => x | .ub => 0)
      else m.own o }

/-- A write through area->data; environment of coda/system.c:135, 167. -/
def write (s : State) (i off : Nat) (b : UInt8) : Res State :=
  match s.maps[i]? with
  | none => .ub
  | some m =>
    match view s m off with
    | .ub => .ub
    | .ok _ =>
      if m.write then
        match m.file with
        | none => .ok { s with maps := s.maps.set i { m with own := fun o => if o = off then b else m.own o } }
        | some f =>
          if m.shared then .ok { s with files := fun g => if g = f then (s.files f).set off b else s.files g }
          else .ok { s with maps := s.maps.set i (copyPage s m off b) }
      else .ub

/-- Bookkeeping: the calls of coda/system.c:128-182 and coda/system.h:33, and accesses between them. -/
inductive Op where
  | map (file : Option Nat) (size : Nat) (write shared : Bool)
  | umap (i : Nat)
  | read (i off : Nat)
  | write (i off : Nat) (b : UInt8)

/-- Bookkeeping: what the calls of coda/system.c:128-182 and the reads give. -/
inductive Ret where
  | area (r : Option (Nat × Nat))
  | byte (b : UInt8)
  | unit
  deriving DecidableEq

/-- Bookkeeping: the calls of coda/system.c:128-182 and coda/system.h:33, and accesses between them. -/
def step (s : State) : Op → Res (State × Ret)
  | .map file size w sh =>
    let r := coda_mmap s file size w sh
    .ok (r.1, .area r.2)
  | .umap i => .ok (coda_umap s i, .unit)
  | .read i off =>
    match read s i off with
    | .ub => .ub
    | .ok b => .ok (s, .byte b)
  | .write i off b =>
    match write s i off b with
    | .ub => .ub
    | .ok s => .ok (s, .unit)

/-- Bookkeeping: a history of calls of coda/system.c:128-182 and coda/system.h:33, and accesses between them. -/
def run (s : State) : List Op → Res (State × List Ret)
  | [] => .ok (s, [])
  | op :: ops =>
    match step s op with
    | .ub => .ub
    | .ok (s, r) =>
      match run s ops with
      | .ub => .ub
      | .ok (s, rs) => .ok (s, r :: rs)

end Verif.FileMap
