import Verif.Mkpath.Model
/-
  Model of coda_mkpath (coda/system.c:35-55) in a tree of files and directories with permissions, while other processes make directories too (with coda_mkpath or otherwise).
  Verif.Mkpath has the function itself, for any file system; here is mkdir(2) (environment).  Not modelled: . and .., symbolic links, permissions to search, removals.
-/
namespace Verif.MkTree

/-- The names on the way to a file or directory.  Environment: the paths that mkdir(2) gets at coda/system.c:45. -/
abbrev CPath := List (List UInt8)

/-- Environment: how the kernel reads the path of mkdir(2) at coda/system.c:45: the end of a name; empty names do not count. -/
def flush (st : CPath × List UInt8) : CPath := if st.2 = [] then st.1 else st.1 ++ [st.2]

/-- Environment: how the kernel reads the path of mkdir(2) at coda/system.c:45: one byte. -/
def compStep (st : CPath × List UInt8) (c : UInt8) : CPath × List UInt8 := if c = 47 then (flush st, []) else (st.1, st.2 ++ [c])

/-- Environment: how the kernel reads the path of mkdir(2) at coda/system.c:45.  The root is where the path begins: / or the current directory. -/
def comps (p : List UInt8) : CPath := flush (p.foldl compStep ([], []))

/-- What stands in a place.  Environment: the file system that mkdir(2) changes at coda/system.c:45. -/
inductive Kind where
  | dir | file
  deriving DecidableEq

/-- What stands where, and in which directories the process may make entries.  Environment: the file system that mkdir(2) changes at coda/system.c:45. -/
structure Tree where
  node : CPath → Option Kind
  may : CPath → Bool

/-- `mkdir(path, 0755)`, coda/system.c:45 (environment): ENOTDIR and ENOENT for paths whose directory is none (2 stands for both), EEXIST, EACCES. -/
def mkdir (free : Bool) (t : Tree) (c : CPath) : Tree × Mkpath.Outcome :=
  if c = [] then (t, .eexist)
  else if t.node c.dropLast ≠ some .dir then (t, .error 2)
  else if t.node c ≠ none then (t, .eexist)
  else if free || t.may c.dropLast then ({ t with node := fun q => if q = c then some .dir else t.node q }, .made)
  else (t, .error 13)

/-- The file system as one process sees it: before each of its calls at coda/system.c:45 others make directories (with their own permissions). -/
abbrev World := Tree × List (List CPath)

/-- What others do.  Environment: between the calls at coda/system.c:45. -/
def others (t : Tree) (b : List CPath) : Tree := b.foldl (fun t c => (mkdir true t c).1) t

/-- `mkdir(path, 0755)` at coda/system.c:45 among other processes. -/
def mk : Mkpath.Mkdir World := fun w p =>
  let t := others w.1 (w.2.headD [])
  (((mkdir false t (comps p)).1, w.2.tail), (mkdir false t (comps p)).2)

end Verif.MkTree
