/-
  Independent specification of query string and header parsing (properties C25–C27).
-/
namespace Verif.Params.Spec

/-- The pieces of a list between occurrences of a separator (always at least one piece). -/
def split (sep : UInt8) : List UInt8 → List (List UInt8)
  | [] => [[]]
  | x :: xs =>
    if x = sep then [] :: split sep xs
    else match split sep xs with
      | p :: ps => (x :: p) :: ps
      | [] => [[x]]

/-- The pieces of a list between CR LF pairs. -/
def lines : List UInt8 → List (List UInt8)
  | [] => [[]]
  | 13 :: 10 :: xs => [] :: lines xs
  | x :: xs => match lines xs with
      | p :: ps => (x :: p) :: ps
      | [] => [[x]]

/-- The map `m` in which `k` has the value `v`. -/
def assign (m : List UInt8 → Option (List UInt8)) (k v : List UInt8) : List UInt8 → Option (List UInt8) :=
  fun x => if x = k then some v else m x

/-- Effect of one piece: `key sep value` assigns, a piece without separator is ignored. -/
def piece (sep : UInt8) (m : List UInt8 → Option (List UInt8)) (p : List UInt8) : List UInt8 → Option (List UInt8) :=
  if sep ∈ p then assign m (p.takeWhile (· ≠ sep)) ((p.dropWhile (· ≠ sep)).drop 1) else m

/-- What is taken for the lines of a header, given its lines: those before the first empty one; but a line that begins with a NUL byte is taken
together with everything behind it, to the end of the data. -/
def taken : List (List UInt8) → List (List UInt8)
  | [] => []
  | l :: ls => if l = [] then [] else if l.head? = some 0 then [[13, 10].intercalate (l :: ls)] else l :: taken ls

/-- Serialisation of key/value pairs: k=v joined by '&'. -/
def serialise : List (List UInt8 × List UInt8) → List UInt8
  | [] => []
  | [(k, v)] => k ++ [61] ++ v
  | (k, v) :: rest => k ++ [61] ++ v ++ [38] ++ serialise rest

/-- The last value given for a key. -/
def lastValue : List (List UInt8 × List UInt8) → List UInt8 → Option (List UInt8)
  | [], _ => none
  | (k, v) :: rest, x => match lastValue rest x with
      | some w => some w
      | none => if x = k then some v else none

end Verif.Params.Spec
