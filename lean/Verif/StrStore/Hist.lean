/-
  Histories of calls on a string storage, and what they should do.
-/
import Verif.StrStore.Model
import Verif.StrStore.Spec

namespace Verif.StrStore

/-- A storage between two calls.  Bookkeeping: the calls of coda/stringstorage.c:141-173 one after the other. -/
structure St where
  sb : SB
  root : Node

/-- `string_storage_init`: coda/stringstorage.c:36-46. -/
def St.init (uds : Nat) : St := ⟨initSB uds, initRoot⟩

/-- What a user does: add a string, look it up, look it up and write into its user data, look it up and read its user data.  Bookkeeping: the calls of coda/stringstorage.c:141-173 one after the other. -/
inductive Op where
  | add (x : List UInt8)
  | find (x : List UInt8)
  | put (x d : List UInt8)
  | get (x : List UInt8)

/-- Bookkeeping: the calls of coda/stringstorage.c:141-173 one after the other. -/
inductive Out where
  | slot (p : Option Ptr)
  | data (d : Option (List UInt8))
  deriving DecidableEq

/-- One action, with the functions of coda/stringstorage.c.  Bookkeeping: the calls of coda/stringstorage.c:141-173 one after the other. -/
def step (st : St) : Op → Res (St × Out)
  | .add x => do
    let (sb, root, p) ← string_storage_add st.sb st.root x
    .ok (⟨sb, root⟩, .slot p)
  | .find x => do
    let (sb, root, p) ← string_storage_find st.sb st.root x
    .ok (⟨sb, root⟩, .slot p)
  | .put x d => do
    let (sb, root, p) ← string_storage_find st.sb st.root x
    match p with
    | none => .ok (⟨sb, root⟩, .data none)
    | some p => do
      let sb ← userWrite sb p d
      .ok (⟨sb, root⟩, .data (some d))
  | .get x => do
    let (sb, root, p) ← string_storage_find st.sb st.root x
    match p with
    | none => .ok (⟨sb, root⟩, .data none)
    | some p => do
      let d ← userRead sb p
      .ok (⟨sb, root⟩, .data (some d))

/-- Bookkeeping: the calls of coda/stringstorage.c:141-173 one after the other. -/
def run : St → List Op → Res (St × List Out)
  | st, [] => .ok (st, [])
  | st, o :: os => do
    let (st, r) ← step st o
    let (st, rs) ← run st os
    .ok (st, r :: rs)

/-! What should happen: a map from strings to user data. -/

/-- Specification, not code: what the calls of coda/stringstorage.c:141-173 should do to a dictionary. -/
abbrev Dict := List UInt8 → Option (List UInt8)

/-- Specification, not code: what the calls of coda/stringstorage.c:141-173 should do to a dictionary. -/
inductive View where
  | found (b : Bool)
  | data (d : Option (List UInt8))
  deriving DecidableEq

/-- Specification, not code: what the calls of coda/stringstorage.c:141-173 should do to a dictionary. -/
def Out.view : Out → View
  | .slot p => .found p.isSome
  | .data d => .data d

/-- Specification, not code: what the calls of coda/stringstorage.c:141-173 should do to a dictionary. -/
def Dict.set (m : Dict) (x d : List UInt8) : Dict := fun y => if y = x then some d else m y

/-- New strings get zeros as user data.  Specification, not code: what the calls of coda/stringstorage.c:141-173 should do to a dictionary. -/
def Dict.step (uds : Nat) (m : Dict) : Op → Dict × View
  | .add x => (if m x = none then m.set x (List.replicate uds 0) else m, .found true)
  | .find x => (m, .found (m x).isSome)
  | .put x d => match m x with
    | none => (m, .data none)
    | some o => (m.set x (d ++ o.drop d.length), .data (some d))
  | .get x => (m, .data (m x))

/-- Specification, not code: what the calls of coda/stringstorage.c:141-173 should do to a dictionary. -/
def Dict.run (uds : Nat) : Dict → List Op → Dict × List View
  | m, [] => (m, [])
  | m, o :: os => ((Dict.run uds (m.step uds o).1 os).1, (m.step uds o).2 :: (Dict.run uds (m.step uds o).1 os).2)

/-- Specification, not code: what the calls of coda/stringstorage.c:141-173 should do to a dictionary. -/
def Op.str : Op → List UInt8
  | .add x | .find x | .put x _ | .get x => x

/-- Users write at most as many bytes as they asked for.  Specification, not code: what the calls of coda/stringstorage.c:141-173 should do to a dictionary. -/
def Op.fits (uds : Nat) : Op → Prop
  | .put _ d => d.length ≤ uds
  | _ => True

end Verif.StrStore
