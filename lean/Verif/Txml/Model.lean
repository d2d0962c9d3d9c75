/-
  Model of coda/txml.hpp and coda/txml.cpp: loading of objects from XML.

  The XML parser (expat) is not modelled: it calls begelement, characters and endelement in the order of the document.  The objects that are loaded are trees of
  members; `determine` of a class calls determineMember for each of its members in order (the return value, which says whether the key fits, is not used).
-/
import Verif.Mem

namespace Verif.Txml

/-- A std::string: coda/txml.hpp:42. -/
abbrev Text := List UInt8

mutual
/-- A variable that determineMember can be called with. `leaf`: a std::string or a number: the text it was last set from (none: not set yet); what the text means is
modelled in Verif.Txml.Conv.  `str`: an object with members.  `seq`: a std::list or std::vector; `d` is the value `_T()` of a new item.  The members of a user's class that txml_member can name, and their values: coda/txml.hpp:61-121. -/
inductive Val where
  | leaf (x : Option Text)
  | str (fs : Flds)
  | seq (d : Val) (items : Vals)
/-- The members of an object, with the keys that `determine` uses for them.  The members of a user's class that txml_member can name, and their values: coda/txml.hpp:61-121. -/
inductive Flds where
  | nil
  | cons (k : Text) (v : Val) (fs : Flds)
/-- The items of a list.  The members of a user's class that txml_member can name, and their values: coda/txml.hpp:61-121. -/
inductive Vals where
  | nil
  | cons (v : Val) (vs : Vals)
end

/-- `push_back`.  The members of a user's class that txml_member can name, and their values: coda/txml.hpp:61-121. -/
def Vals.snoc : Vals → Val → Vals
  | .nil, x => .cons x .nil
  | .cons v vs, x => .cons v (vs.snoc x)

/-- `level_desc`: coda/txml.hpp:27-36. -/
structure Level where
  key : Text
  pushed : Bool
  deriving DecidableEq

mutual
/-- `setValue`: coda/txml.hpp:61-97, coda/txml.cpp:136-145.  The text is `current_value`; `prev` is the level before `det_iter` (none at the beginning of `levels`, where
it may not be decremented), `rest` the levels from `det_iter` on.  `back` of an empty list is undefined. -/
def setVal (t : Text) : Val → Option Level → List Level → Res (Val × Option Level × List Level)
  | .leaf _, prev, rest => .ok (.leaf (some t), prev, rest)
  | .str fs, prev, rest => do
    let (fs, prev, rest) ← detFlds t fs prev rest
    .ok (.str fs, prev, rest)
  | .seq d items, prev, rest =>
    match prev with
    | none => .ub
    | some l =>
      if l.pushed = false then do
        let (x, prev, rest) ← setVal t d (some { l with pushed := true }) rest
        .ok (.seq d (items.snoc x), prev, rest)
      else do
        let (items, prev, rest) ← setBack t items prev rest
        .ok (.seq d items, prev, rest)
/-- The calls of `determineMember` for the members of an object: coda/txml.hpp:102-121. -/
def detFlds (t : Text) : Flds → Option Level → List Level → Res (Flds × Option Level × List Level)
  | .nil, prev, rest => .ok (.nil, prev, rest)
  | .cons k v fs, prev, rest =>
    match rest with
    | [] =>
      if k ≠ [] then do
        let (fs, prev, rest) ← detFlds t fs prev []
        .ok (.cons k v fs, prev, rest)
      else do
        let (v, prev, rest) ← setVal t v prev []
        let (fs, prev, rest) ← detFlds t fs prev rest
        .ok (.cons k v fs, prev, rest)
    | l :: rest =>
      if k = l.key then do
        let (v, l, rest) ← setVal t v (some l) rest
        let (fs, prev, rest) ← detFlds t fs prev (l.toList ++ rest)
        .ok (.cons k v fs, prev, rest)
      else do
        let (fs, prev, rest) ← detFlds t fs prev (l :: rest)
        .ok (.cons k v fs, prev, rest)
/-- `setValue(var.back())`.  The members of a user's class that txml_member can name, and their values: coda/txml.hpp:61-121. -/
def setBack (t : Text) : Vals → Option Level → List Level → Res (Vals × Option Level × List Level)
  | .nil, _, _ => .ub
  | .cons v vs, prev, rest =>
    match vs with
    | .nil => do
      let (v, prev, rest) ← setVal t v prev rest
      .ok (.cons v .nil, prev, rest)
    | .cons _ _ => do
      let (vs, prev, rest) ← setBack t vs prev rest
      .ok (.cons v vs, prev, rest)
end

/-- The object that is loaded, `levels` and `current_value`: coda/txml.hpp:38-44. -/
structure St (α : Type) where
  obj : α
  levels : List Level
  cur : Text

/-- What `determine` does with the object and the levels, for `current_value = t`.  What `determineMember` compares: coda/txml.hpp:102-121. -/
abbrev Det (α : Type) := Text → α → List Level → Res (α × List Level)

/-- `data->determine(this)` with `det_iter = levels.begin()`: coda/txml.cpp:113-117. -/
def detRoot : Det Flds := fun t fs levels => do
  let (fs, _, levels) ← detFlds t fs none levels
  .ok (fs, levels)

/-- coda/txml.cpp:158-161 and 165-168: a level is pushed, the current value set, `determine`, the level popped. -/
def probe {α : Type} (D : Det α) (s : St α) (kv : Text × Text) : Res (St α) := do
  let (obj, levels) ← D kv.2 s.obj (s.levels ++ [⟨kv.1, false⟩])
  .ok ⟨obj, levels.dropLast, kv.2⟩

/-- What `determineMember` compares: coda/txml.hpp:102-121. -/
def probes {α : Type} (D : Det α) (s : St α) : List (Text × Text) → Res (St α)
  | [] => .ok s
  | kv :: as => do
    let s ← probe D s kv
    probes D s as

/-- The calls of the XML parser.  Environment: the calls that expat makes, coda/txml.cpp:60-78, one after the other. -/
inductive Ev where
  | beg (name : Text) (attrs : List (Text × Text))
  | chars (t : Text)
  | fin

/-- `begelement`, `characters`, `endelement`: coda/txml.cpp:147-179. -/
def step {α : Type} (D : Det α) (s : St α) : Ev → Res (St α)
  | .beg n as => do
    let s ← probes D ⟨s.obj, s.levels ++ [⟨n, false⟩], s.cur⟩ as
    probe D s ([], [])
  | .chars t => .ok ⟨s.obj, s.levels, s.cur ++ t⟩
  | .fin => do
    let (obj, levels) ← D s.cur s.obj s.levels
    .ok ⟨obj, levels.dropLast, []⟩

/-- Environment: the calls that expat makes, coda/txml.cpp:60-78, one after the other. -/
def run {α : Type} (D : Det α) (s : St α) : List Ev → Res (St α)
  | [] => .ok s
  | e :: es => do
    let s ← step D s e
    run D s es

/-- A new txml_parser: coda/txml.cpp:80-88. -/
def start (fs : Flds) : St Flds := ⟨fs, [], []⟩

end Verif.Txml
