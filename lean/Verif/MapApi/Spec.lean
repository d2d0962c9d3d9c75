/-
  Specification of hash maps as their users see them (C111): for each key file a finite map, for each handle the key it is connected to.
-/
import Verif.MapApi.Model
import Verif.ShmMap.Spec

namespace Verif.MapApi.Spec

open Verif.ShmMap (Op Ret)

variable {V : Type}

/-- A map: the parameters of the class that made it, and its bindings. -/
structure Table (V : Type) where
  par : Params
  items : List (UInt64 × V)

structure State (V : Type) where
  ts : Nat → Option (Table V)
  us : Nat → Option Nat

def State.init : State V := ⟨fun _ => none, fun _ => none⟩

/-- Parameters that the implementation is made for: less than 2 GiB of nodes, at least one bucket, non-empty objects. -/
def Fit (p : Params) : Prop := 0 < p.H ∧ p.H < 2 ^ 31 ∧ 0 < p.tsz ∧ 0 < p.nsz ∧ 4 * p.N + p.nsz * p.N + 3070 < 2 ^ 31

instance (p : Params) : Decidable (Fit p) := by unfold Fit; infer_instance

/-- The bytes that a map of these parameters needs. -/
def bytes (p : Params) : Nat := 1024 + (4 * p.N + 1023) / 1024 * 1024 + (p.nsz * p.N + 1023) / 1024 * 1024 + 4 * p.H

/-- Several inserts in a row, and whether all of them succeeded. -/
def insertAll (N : Nat) (l : List (UInt64 × V)) : List (UInt64 × V) → List (UInt64 × V) × Bool
  | [] => (l, true)
  | (k, v) :: ps =>
    let ok := decide (ShmMap.Spec.has l k ∨ l.length < N)
    let r := insertAll N (if ok then ShmMap.Spec.bind l k v else l) ps
    (r.1, ok && r.2)

/-- Several erases in a row, and whether all keys were there. -/
def eraseAll (l : List (UInt64 × V)) : List UInt64 → List (UInt64 × V) × Bool
  | [] => (l, true)
  | k :: ks =>
    let r := eraseAll (ShmMap.Spec.unbind l k) ks
    (r.1, decide (ShmMap.Spec.has l k) && r.2)

/-- An operation on the map the handle is connected to; an exception if it is not connected. -/
def onTable (s : State V) (h : Nat) (f : Table V → List (UInt64 × V) × Reply V) : Option (State V × Reply V) :=
  match s.us h with
  | none => some (s, .threw)
  | some k =>
    match s.ts k with
    | none => none
    | some t => some ({ s with ts := set s.ts k (some { t with items := (f t).1 }) }, (f t).2)

/-- One call: the new state and the reply; none: not specified. -/
def step (par : Nat → Params) (s : State V) : Call V → Option (State V × Reply V)
  | .connect h key env =>
    match s.us h with
    | some _ => none
    | none =>
      if env.ftok = false then some (s, .threw)
      else if env.ftok2 && env.semget && env.shmget && env.shmat && decide (Fit (par h)) then
        match s.ts key with
        | none => some (⟨set s.ts key (some ⟨par h, []⟩), set s.us h (some key)⟩, .unit)
        | some t =>
          if par h = t.par then some (⟨s.ts, set s.us h (some key)⟩, .unit)
          else if bytes (par h) ≤ bytes t.par then some (s, .threw)
          else none
      else none
  | .disconnect h => some ({ s with us := set s.us h none }, .unit)
  | .isConnected h => some (s, .bool (s.us h).isSome)
  | .capacity h => some (s, .num (par h).N)
  | .op h o => onTable s h (fun t => ((ShmMap.Spec.step t.par.N t.items o).1, .ret (ShmMap.Spec.step t.par.N t.items o).2))
  | .insertMany h ps => onTable s h (fun t => ((insertAll t.par.N t.items ps).1, .bool (insertAll t.par.N t.items ps).2))
  | .eraseMany h ks => onTable s h (fun t => ((eraseAll t.items ks).1, .bool (eraseAll t.items ks).2))
  | .nonEmpty h =>
    match s.us h with
    | none => none
    | some k =>
      match s.ts k with
      | none => none
      | some t => some (s, .bool (!t.items.isEmpty))

/-- A history of calls; none: one of them is not specified. -/
def run (par : Nat → Params) (s : State V) : List (Call V) → Option (State V × List (Reply V))
  | [] => some (s, [])
  | c :: cs =>
    match step par s c with
    | none => none
    | some (s, r) =>
      match run par s cs with
      | none => none
      | some (s, rs) => some (s, r :: rs)

end Verif.MapApi.Spec
