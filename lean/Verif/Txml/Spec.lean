/-
  Specification of loading an object from an XML document (C99): by recursion over the document, without levels.
-/
import Verif.Txml.Model

namespace Verif.Txml.Spec

mutual
/-- An element with its attributes and its content. -/
inductive Elem where
  | mk (name : Text) (attrs : List (Text × Text)) (content : Nodes)
/-- Pieces of text (one text may be in several pieces) and elements. -/
inductive Nodes where
  | nil
  | text (t : Text) (ns : Nodes)
  | elem (e : Elem) (ns : Nodes)
end

def Elem.name : Elem → Text
  | .mk n _ _ => n

mutual
/-- What the XML parser reports for a document. -/
def events : Elem → List Ev
  | .mk n as c => .beg n as :: (nodeEvents c ++ [.fin])
def nodeEvents : Nodes → List Ev
  | .nil => []
  | .text t ns => .chars t :: nodeEvents ns
  | .elem e ns => events e ++ nodeEvents ns
end

/-- The text of an element: what follows its last child; all of its text if it has no children. `cur` is the text before `c`. -/
def lastText (cur : Text) : Nodes → Text
  | .nil => cur
  | .text t ns => lastText (cur ++ t) ns
  | .elem _ ns => lastText [] ns

/-- The member with key `k` is replaced. -/
def upd (k : Text) (f : Val → Val) : Flds → Flds
  | .nil => .nil
  | .cons k' v fs => if k' = k then .cons k' (f v) (upd k f fs) else .cons k' v (upd k f fs)

/-- A list gets a new item, and it is the item that is filled. -/
def put (f : Val → Val) : Val → Val
  | .seq d items => .seq d (items.snoc (f d))
  | v => f v

/-- A text is put into a variable; an object takes it into its member with the empty key. -/
def fillText (t : Text) : Val → Val
  | .leaf _ => .leaf (some t)
  | .str fs => .str (upd [] (fun _ => .leaf (some t)) fs)
  | v => v

/-- An attribute sets the member with its name. -/
def attrTo (fs : Flds) (kv : Text × Text) : Flds := upd kv.1 (put (fillText kv.2)) fs

mutual
/-- An element is put into a variable: its attributes and its children into the members that have their names, its text into the member with the empty key. -/
def fill : Elem → Val → Val
  | .mk _ _ c, .leaf _ => .leaf (some (lastText [] c))
  | .mk _ as c, .str fs => .str (upd [] (fun _ => .leaf (some (lastText [] c))) (fillNodes c (as.foldl attrTo fs)))
  | .mk _ _ _, v => v
/-- Each child goes into the member with its name; other children are ignored. -/
def fillNodes : Nodes → Flds → Flds
  | .nil, fs => fs
  | .text _ ns, fs => fillNodes ns fs
  | .elem e ns, fs => fillNodes ns (upd e.name (put (fill e)) fs)
end

/-- The object after the document with the root element `e` has been loaded. -/
def loaded (e : Elem) (fs : Flds) : Flds := upd e.name (put (fill e)) fs

/-- A member has this key. -/
def HasKey (k : Text) : Flds → Prop
  | .nil => False
  | .cons k' _ fs => k' = k ∨ HasKey k fs

mutual
/-- Objects that can be loaded: the keys of an object differ, the member with the empty key (if any) is a string or a number, and no list is directly in a list. -/
def Good : Val → Prop
  | .leaf _ => True
  | .str fs => GoodFlds fs
  | .seq d _ => Good d ∧ ∀ d' i, d ≠ .seq d' i
def GoodFlds : Flds → Prop
  | .nil => True
  | .cons k v fs => Good v ∧ ¬ HasKey k fs ∧ (k = [] → ∃ x, v = .leaf x) ∧ GoodFlds fs
end

mutual
/-- Names of elements and attributes are not empty. -/
def Named : Elem → Prop
  | .mk n as c => n ≠ [] ∧ (∀ kv ∈ as, kv.1 ≠ []) ∧ NamedNodes c
def NamedNodes : Nodes → Prop
  | .nil => True
  | .text _ ns => NamedNodes ns
  | .elem e ns => Named e ∧ NamedNodes ns
end

end Verif.Txml.Spec
