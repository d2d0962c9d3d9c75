/-
  Model of coda/url_parser.cpp when malloc may fail.  The code does not look at the result of malloc: NULL is a block of which no byte may be written.
-/
import Verif.UrlParser.Props

namespace Verif.UrlMem
open Verif.UrlParser Verif.Str

/-- The block that `val_str` points to after malloc: coda/url_parser.cpp:30, 57, 95, 110.  At NULL there is no byte that may be accessed. -/
def block : Option Buf → Buf
  | some b => b
  | none => []

/-- `create_absolute`: coda/url_parser.cpp:87-100; `m n` is what malloc(n) gives. -/
def createAbs (m : Nat → Option Buf) (x : Url) (u : Option Buf) (sz : Nat) (f : Flags) : Res (Int × Url) :=
  create_absolute (fun n => block (m n)) x u sz f

/-- `create_relative`: coda/url_parser.cpp:102-132; `m n` is what malloc(n) gives. -/
def createRel (m : Nat → Option Buf) (x : Url) (u : Option Buf) (sz : Nat) (f : Flags) (parent : Url) : Res (Int × Url) :=
  create_relative (fun n => block (m n)) x u sz f parent

/-- The copying part: coda/url_parser.cpp:17-34 and 44-61; `ok`: malloc succeeds. -/
def copyFromM (ok : Bool) (h : List (Option Buf)) (u : Obj) : Res (List (Option Buf) × Obj) :=
  if u.len = 0 then .ok (h, ⟨none, 0, 0, 0⟩)
  else
    match u.blk with
    | none => .ub
    | some i => do
      let b ← bytesOf h i
      let n := u.len + u.dlen + 2
      let c ← memcpy (block (if ok then some (List.replicate n 0) else none)) 0 b n
      .ok (h ++ [some c], ⟨some h.length, u.len, u.len + 1, u.dlen⟩)

/-- One operation on the objects, as `UrlParser.step`: coda/url_parser.cpp:9-132.  A creation whose malloc fails is undefined (`C171_refuted_abs`,
`C171_refuted_rel`). -/
def step (s : St) (ok : Bool) : Op → Res St
  -- coda/url_parser.cpp:95, 110
  | .make x u => if ok then UrlParser.step s (.make x u) else .ub
  -- coda/url_parser.cpp:15-35
  | .copy x y => match s.obj x, s.obj y with
    | none, some o => do
      let (h, o') ← copyFromM ok s.heap o
      .ok ⟨h, setObj s.obj x (some o')⟩
    | _, _ => .ub
  -- coda/url_parser.cpp:37-64
  | .assign x y => match s.obj x, s.obj y with
    | some o, some u => do
      let h ← release s.heap o
      let (h, o') ← copyFromM ok h u
      .ok ⟨h, setObj s.obj x (some o')⟩
    | _, _ => .ub
  | op => UrlParser.step s op

/-- Bookkeeping: several operations of coda/url_parser.cpp:9-132, each with what its malloc does, if it calls it. -/
def run (s : St) : List (Bool × Op) → Res St
  | [] => .ok s
  | (ok, op) :: ops => do
    let s ← step s ok op
    run s ops

end Verif.UrlMem
