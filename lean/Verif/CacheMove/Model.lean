/-
  Any number of `coda_cache` objects in one memory: construction, calls, copies, assignments, moves, std::swap and destruction.
  The class declares none of the copying and moving members (coda/cache.hpp:15-70), so the compiler makes them: member by member, in the
  order of coda/cache.hpp:40-46.  The table of a copy gets nodes of its own; the table of a moved cache takes the nodes of the source, which
  is left empty; the pointers and numbers are copied as they are in both cases.
-/
import Verif.CacheRef.Model

namespace Verif.CacheMove
open Cache CacheRef

variable {K V : Type} [DecidableEq K] [Inhabited V]

/-- The memory and the members of the objects that are alive: coda/cache.hpp:40-46. -/
structure St (K V : Type) where
  heap : Heap K V
  fresh : Nat
  obj : Nat → Option (View K)

/-- Nothing is alive.  Objects of the class at coda/cache.hpp:15-70. -/
def St.init : St K V := ⟨fun _ => none, 0, fun _ => none⟩

/-- Bookkeeping: one object of the class at coda/cache.hpp:15-70 changes. -/
def setO {α : Type} (f : Nat → α) (x : Nat) (o : α) : Nat → α := fun z => if z = x then o else f z

/-- The constructor, coda/cache.hpp:51-58. -/
def blank (max tmax : UInt64) : View K := ⟨fun _ => none, none, none, 0, max, tmax⟩

/-- A cache that has been moved from: its table (coda/cache.hpp:40) is empty, the other members (coda/cache.hpp:41-46) are what they were. -/
def left (v : View K) : View K := { v with data := fun _ => none }

/-- The nodes that a copy of the table `data` (coda/cache.hpp:40) of `v` allocates: the copy of the node at `a` is at `fresh + a`.  Simplified: an assignment may use the nodes of the
target again, at their addresses; here it frees them and takes new ones. -/
def copyNodes (h : Heap K V) (fresh : Nat) (v : View K) : Heap K V := fun x => if x < fresh then h x else copied (asCache v h fresh) (x - fresh)

/-- The members of a copy: coda/cache.hpp:40-46; only the table refers to the new nodes. -/
def copyView (v : View K) (fresh : Nat) : View K := { v with data := fun k => (v.data k).map (fresh + ·) }

/-- What a program does with its caches: coda/cache.hpp:51-69 and the members that the compiler makes. -/
inductive Act (K V : Type) where
  | new (x : Nat) (max tmax : UInt64)
  | call (x : Nat) (o : Op K V)
  | copy (x y : Nat)          -- coda_cache x(y);
  | assign (x y : Nat)        -- x = y;
  | move (x y : Nat)          -- coda_cache x(std::move(y));
  | moveAssign (x y : Nat)    -- x = std::move(y);
  | swap (x y : Nat)          -- std::swap(x, y);
  | destroy (x : Nat)

/-- `x = y;` of different objects: the table of `x` gives up its nodes and copies those of `y`, coda/cache.hpp:40; the other members, coda/cache.hpp:41-46, are copied. -/
def assignObj (s : St K V) (x : Nat) (vx vy : View K) : St K V :=
  let h := CacheRef.destroy s.heap vx
  ⟨copyNodes h s.fresh vy, s.fresh + s.fresh, setO s.obj x (some (copyView vy s.fresh))⟩

/-- `x = std::move(y);` of different objects: coda/cache.hpp:40-46, member by member. -/
def moveObj (s : St K V) (x y : Nat) (vx vy : View K) : St K V :=
  ⟨CacheRef.destroy s.heap vx, s.fresh, setO (setO s.obj y (some (left vy))) x (some vy)⟩

/-- One statement of the program.  Using an object that is not alive, and constructing one that is, is undefined.  A move of an object to itself is not modelled (the standard does
not say what the table is then): it is undefined too.  Objects of the class at coda/cache.hpp:15-70. -/
def step (cap : V → UInt64) (s : St K V) : Act K V → Res (St K V)
  -- coda/cache.hpp:51-58
  | .new x max tmax => match s.obj x with
    | none => .ok { s with obj := setO s.obj x (some (blank max tmax)) }
    | some _ => .ub
  -- coda/cache.tcc:3-159
  | .call x o => match s.obj x with
    | none => .ub
    | some v => do
      let c ← Cache.step cap (asCache v s.heap s.fresh) o
      .ok ⟨c.heap, c.fresh, setO s.obj x (some (viewOf c))⟩
  -- coda/cache.hpp:40-46, implicit copy constructor
  | .copy x y => match s.obj x, s.obj y with
    | none, some vy => .ok ⟨copyNodes s.heap s.fresh vy, s.fresh + s.fresh, setO s.obj x (some (copyView vy s.fresh))⟩
    | _, _ => .ub
  -- coda/cache.hpp:40-46, implicit copy assignment
  | .assign x y => match s.obj x, s.obj y with
    | some vx, some vy => if x = y then .ok s else .ok (assignObj s x vx vy)
    | _, _ => .ub
  -- coda/cache.hpp:40-46, implicit move constructor
  | .move x y => match s.obj x, s.obj y with
    | none, some vy => .ok ⟨s.heap, s.fresh, setO (setO s.obj y (some (left vy))) x (some vy)⟩
    | _, _ => .ub
  -- coda/cache.hpp:40-46, implicit move assignment
  | .moveAssign x y => match s.obj x, s.obj y with
    | some vx, some vy => if x = y then .ub else .ok (moveObj s x y vx vy)
    | _, _ => .ub
  -- coda/cache.hpp:40-46: std::swap is `tmp(move(x)); x = move(y); y = move(tmp);` and the end of tmp
  | .swap x y => match s.obj x, s.obj y with
    | some vx, some vy =>
      if x = y then .ub else
      let s1 := moveObj { s with obj := setO s.obj x (some (left vx)) } x y (left vx) vy
      .ok ⟨CacheRef.destroy (CacheRef.destroy s1.heap (left vy)) (left vx), s1.fresh, setO s1.obj y (some vx)⟩
    | _, _ => .ub
  -- coda/cache.hpp:15-70, implicit destructor
  | .destroy x => match s.obj x with
    | none => .ub
    | some v => .ok ⟨CacheRef.destroy s.heap v, s.fresh, setO s.obj x none⟩

/-- Bookkeeping: a program with objects of the class at coda/cache.hpp:15-70. -/
def run (cap : V → UInt64) (s : St K V) : List (Act K V) → Res (St K V)
  | [] => .ok s
  | a :: as => do
    let s ← step cap s a
    run cap s as

end Verif.CacheMove
