/-
  Model of coda_getopt_parse (coda/daemon.c:12-60) on the whole command line.

  getopt_long is a function of the C library, not of coda; it is modelled here as glibc documents and implements it for the table of options of coda: words are permuted
  unless the variable POSIXLY_CORRECT is set, names may be abbreviated, letters may be bundled, "--" ends the options, and the position is kept in global variables from
  one call to the next.  The messages it prints are left out.  A word is a C string without its terminator.
-/
import Verif.Mem

namespace Verif.GetOpt

/-- An element of argv: coda/daemon.c:40-46. -/
abbrev Word := List UInt8

/-- `struct option`; `flag` is NULL in the table of coda.  struct option, as used at coda/daemon.c:12-19. -/
structure LongOpt where
  name : Word
  arg : Bool
  val : UInt8
  deriving DecidableEq

/-- coda_getopt_opts: coda/daemon.c:12-19: "config", "pid", "daemon", "no-daemon". -/
def longopts : List LongOpt :=
  [⟨[99, 111, 110, 102, 105, 103], true, 99⟩, ⟨[112, 105, 100], true, 112⟩, ⟨[100, 97, 101, 109, 111, 110], false, 100⟩,
   ⟨[110, 111, 45, 100, 97, 101, 109, 111, 110], false, 68⟩]

/-- CODA_GETOPT_OPTS, "c:p:dD": coda/daemon.c:21. -/
def optstring : Word := [99, 58, 112, 58, 100, 68]

/-- The state of getopt and the words of argv.  `next` is `nextchar` ([]: NULL or at the end of a word); `ordered`: the words are not permuted.  Environment: glibc's getopt_long, called at coda/daemon.c:46; modelled after its documentation and source, not part of /repo. -/
structure G where
  argv : List Word
  optind : Nat
  next : Word
  first : Nat
  last : Nat
  inited : Bool
  ordered : Bool
  optarg : Option Word
  deriving DecidableEq

/-- The global variables at the start of a program.  Environment: glibc's getopt_long, called at coda/daemon.c:46; modelled after its documentation and source, not part of /repo. -/
def G.start : G := ⟨[], 1, [], 0, 0, false, false, none⟩

/-- NONOPTION_P: a word that does not begin with '-' or is only "-".  Environment: glibc's getopt_long, called at coda/daemon.c:46; modelled after its documentation and source, not part of /repo. -/
def nonopt : Word → Bool
  | 45 :: _ :: _ => false
  | _ => true

/-- _getopt_initialize; `posix`: POSIXLY_CORRECT is in the environment.  Environment: glibc's getopt_long, called at coda/daemon.c:46; modelled after its documentation and source, not part of /repo. -/
def setUp (posix : Bool) (g : G) : G :=
  if g.optind = 0 ∨ g.inited = false then
    let i := if g.optind = 0 then 1 else g.optind
    { g with optind := i, first := i, last := i, next := [], inited := true, ordered := posix }
  else g

/-- exchange: the words [first, last) and [last, optind) change places.  Environment: glibc's getopt_long, called at coda/daemon.c:46; modelled after its documentation and source, not part of /repo. -/
def exchange (g : G) : G :=
  { g with
    argv := g.argv.take g.first ++ (g.argv.drop g.last).take (g.optind - g.last) ++ (g.argv.drop g.first).take (g.last - g.first) ++ g.argv.drop g.optind
    first := g.first + (g.optind - g.last)
    last := g.optind }

/-- Environment: glibc's getopt_long, called at coda/daemon.c:46; modelled after its documentation and source, not part of /repo. -/
def clamp (g : G) : G := { g with last := min g.last g.optind, first := min g.first g.optind }

/-- Words that are no options are passed over and gathered behind the options.  Environment: glibc's getopt_long, called at coda/daemon.c:46; modelled after its documentation and source, not part of /repo. -/
def gather (g : G) : G :=
  let g := if g.first ≠ g.last ∧ g.last ≠ g.optind then exchange g else if g.last ≠ g.optind then { g with first := g.optind } else g
  let i := g.optind + ((g.argv.drop g.optind).takeWhile nonopt).length
  { g with optind := i, last := i }

/-- Environment: glibc's getopt_long, called at coda/daemon.c:46; modelled after its documentation and source, not part of /repo. -/
def advance (g : G) : G := if g.ordered then clamp g else gather (clamp g)

/-- The word "--": the rest are no options.  Environment: glibc's getopt_long, called at coda/daemon.c:46; modelled after its documentation and source, not part of /repo. -/
def dashes (g : G) : G :=
  if g.argv[g.optind]? = some [45, 45] then
    let g := { g with optind := g.optind + 1 }
    let g := if g.first ≠ g.last ∧ g.last ≠ g.optind then exchange g else if g.first = g.last then { g with first := g.optind } else g
    { g with last := g.argv.length, optind := g.argv.length }
  else g

/-- The options whose name begins with `name`; one of that very name comes first.  Environment: glibc's getopt_long, called at coda/daemon.c:46; modelled after its documentation and source, not part of /repo. -/
def lookup (name : Word) : Option LongOpt :=
  match longopts.find? (fun p => p.name = name) with
  | some p => some p
  | none =>
    match longopts.filter (fun p => name.isPrefixOf p.name) with
    | [] => none
    | p :: ps => if ps.all (fun q => q.arg = p.arg ∧ q.val = p.val) then some p else none

/-- process_long_option; 63 is '?', 61 is '='.  Environment: glibc's getopt_long, called at coda/daemon.c:46; modelled after its documentation and source, not part of /repo. -/
def longOpt (g : G) (w : Word) : Int × G :=
  match lookup ((w.drop 2).takeWhile (· ≠ 61)) with
  | none => (63, { g with optind := g.optind + 1, next := [] })
  | some p =>
    let g := { g with optind := g.optind + 1, next := [] }
    match (w.drop 2).dropWhile (· ≠ 61) with
    | _ :: v => if p.arg then (p.val.toNat, { g with optarg := some v }) else (63, g)
    | [] =>
      if p.arg then
        match g.argv[g.optind]? with
        | some v => (p.val.toNat, { g with optarg := some v, optind := g.optind + 1 })
        | none => (63, g)
      else (p.val.toNat, g)

/-- One letter; 58 is ':', 59 is ';'.  Optional arguments ("::") are not in the string of coda. -/
def shortOpt (g : G) : Int × G :=
  match g.next with
  | [] => (63, g)
  | c :: cs =>
    let g := { g with next := cs, optind := if cs = [] then g.optind + 1 else g.optind }
    match optstring.dropWhile (· ≠ c) with
    | [] => (63, g)
    | _ :: t =>
      if c = 58 ∨ c = 59 then (63, g)
      else if t.head? = some 58 then
        if cs ≠ [] then (c.toNat, { g with optarg := some cs, optind := g.optind + 1, next := [] })
        else
          match g.argv[g.optind]? with
          | some v => (c.toNat, { g with optarg := some v, optind := g.optind + 1, next := [] })
          | none => (63, { g with next := [] })
      else (c.toNat, g)

/-- The next word: what getopt does when it is not inside of a bundle of letters.  Environment: glibc's getopt_long, called at coda/daemon.c:46; modelled after its documentation and source, not part of /repo. -/
def nextWord (g : G) : Int × G :=
  match g.argv[g.optind]? with
  | none => (-1, if g.first ≠ g.last then { g with optind := g.first } else g)
  | some w =>
    if nonopt w then (-1, g)
    else if (w.drop 1).head? = some 45 then longOpt g w
    else shortOpt { g with next := w.drop 1 }

/-- getopt_long(argc, argv, CODA_GETOPT_OPTS, coda_getopt_opts, NULL).  Environment: glibc's getopt_long, called at coda/daemon.c:46; modelled after its documentation and source, not part of /repo. -/
def getopt_long (posix : Bool) (g : G) : Int × G :=
  if g.argv = [] then (-1, g)
  else
    let g := setUp posix { g with optarg := none }
    if g.next = [] then nextWord (dashes (advance g)) else shortOpt g

/-- coda_getopt_t: coda/daemon.h:13-19. none is NULL. -/
structure Settings where
  config : Option Word
  pid : Option Word
  daemon : Bool
  deriving DecidableEq

/-- coda_clrptr(opt): coda/daemon.c:44. -/
def Settings.clear : Settings := ⟨none, none, false⟩

/-- The switch: coda/daemon.c:49-56. none: return -1. -/
def apply (c : Int) (optarg : Option Word) (s : Settings) : Option Settings :=
  if c = 99 then some { s with config := optarg }
  else if c = 112 then some { s with pid := optarg }
  else if c = 100 then some { s with daemon := true }
  else if c = 68 then some { s with daemon := false }
  else none

/-- The loop: coda/daemon.c:46-59. none: it does not end within `n` rounds. -/
def loop (posix : Bool) : Nat → G → Settings → Option (Int × Settings × G)
  | 0, _, _ => none
  | n + 1, g, s =>
    let (c, g) := getopt_long posix g
    if c = -1 then some (0, s, g)
    else
      match apply c g.optarg s with
      | none => some (-1, s, g)
      | some s => loop posix n g s

/-- No more rounds than letters and words (that this is enough is proved).  A bound for the rounds of the loop coda/daemon.c:46-57. -/
def rounds (argv : List Word) : Nat := (argv.map (fun w => w.length + 1)).sum + 1

/-- coda_getopt_parse: coda/daemon.c:40-60.  `g` holds the global variables of getopt; the result has the words as the call leaves them. -/
def coda_getopt_parse (posix : Bool) (g : G) (argv : List Word) : Option (Int × Settings × G) :=
  loop posix (rounds argv) { g with argv := argv } .clear

end Verif.GetOpt
