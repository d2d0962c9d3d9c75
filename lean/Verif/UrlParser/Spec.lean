/-
  Specification of the URLs that coda_url creates (C77, C79), independent of the model.
-/
import Verif.Str.Spec

namespace Verif.UrlParser.Spec
open Verif.Str.Spec

/-- The pieces of a text between separators; there is one more than there are separators. -/
def split (sep : UInt8) : List UInt8 → List (List UInt8)
  | [] => [[]]
  | c :: l =>
    if c = sep then [] :: split sep l
    else match split sep l with
      | [] => [[c]]
      | s :: r => (c :: s) :: r

/-- The directories one is in, after `seg` has been followed from the directories `dirs`. -/
def follow (dirs : List (List UInt8)) (seg : List UInt8) : List (List UInt8) :=
  if seg = [] ∨ seg = [46] then dirs
  else if seg = [46, 46] then dirs.dropLast
  else dirs ++ [seg]

/-- "/a/b/c" -/
def join (l : List (List UInt8)) : List UInt8 := l.flatMap (fun s => 47 :: s)

/-- The text for a directory: with a slash at its end if it is the root or if `fetchable`. -/
def dirText (fetchable : Bool) (dirs : List (List UInt8)) : List UInt8 :=
  if dirs = [] then [47] else if fetchable then join dirs ++ [47] else join dirs

/-- The normal form of a path "/..." -/
def normPath (fetchable : Bool) (path : List UInt8) : List UInt8 :=
  let segs := split 47 (path.drop 1)
  let dirs := segs.dropLast.foldl follow []
  let last := segs.getLastD []
  if last = [] ∨ last = [46] ∨ last = [46, 46] then dirText fetchable (follow dirs last)
  else join (dirs ++ [last])

/-- A path "/a/b" or "/a/b/" whose segments are neither empty nor "." nor "..". -/
def NormalPath (p : List UInt8) : Prop :=
  ∃ segs : List (List UInt8), (∀ s ∈ segs, s ≠ [] ∧ s ≠ [46] ∧ s ≠ [46, 46] ∧ 47 ∉ s) ∧
    ((segs ≠ [] ∧ p = join segs) ∨ p = join segs ++ [47])

/-- The characters of a host (a port belongs to it): letters, digits, '.', ':', '-', '_'. -/
def hostChar (c : UInt8) : Bool :=
  (97 ≤ c.toNat && c.toNat ≤ 122) || (65 ≤ c.toNat && c.toNat ≤ 90) || (48 ≤ c.toNat && c.toNat ≤ 57) ||
    c = 46 || c = 58 || c = 45 || c = 95

/-- A text without the dots at its beginning and at its end. -/
def stripDots (l : List UInt8) : List UInt8 := ((l.dropWhile (· == 46)).reverse.dropWhile (· == 46)).reverse

/-- "http://", "https://" -/
def http : List UInt8 := [104, 116, 116, 112, 58, 47, 47]
def https : List UInt8 := [104, 116, 116, 112, 115, 58, 47, 47]

/-- The text begins with `p`, up to ASCII case. -/
def startsI (p u : List UInt8) : Bool := (u.take p.length).map lower == p

/-- The scheme of an absolute URL as given, "http://" if there is none. -/
def scheme (u : List UInt8) : List UInt8 :=
  if startsI https u then u.take 8 else if startsI http u then u.take 7 else http

/-- What follows the scheme, without the anchor "#...". -/
def body (u : List UInt8) : List UInt8 :=
  (if startsI https u then u.drop 8 else if startsI http u then u.drop 7 else u).takeWhile (· != 35)

/-- The host: in lower case, without dots at its ends. -/
def host (u : List UInt8) : List UInt8 := stripDots (((body u).takeWhile hostChar).map lower)

/-- What follows the host; a slash is put before it if there is none. -/
def tail (u : List UInt8) : List UInt8 :=
  let r := (body u).dropWhile hostChar
  if r.head? = some 47 then r else 47 :: r

/-- The path and the query of an absolute URL. -/
def path (u : List UInt8) : List UInt8 := (tail u).takeWhile (· != 63)
def query (u : List UInt8) : List UInt8 := (tail u).dropWhile (· != 63)

/-- The text of the URL that is created from `u`. -/
def absText (fetchable : Bool) (u : List UInt8) : List UInt8 :=
  scheme u ++ host u ++ normPath fetchable (path u) ++ query u

/-- `u` is resolved against a URL that consists of `pre` (scheme and host), the path `path` and a query: what follows the last slash of the path is replaced by `u`,
or the whole path if `u` begins with a slash; the anchor of `u` is dropped. -/
def merge (path u : List UInt8) : List UInt8 :=
  let v := u.takeWhile (· != 35)
  if u.head? = some 47 then v else (path.reverse.dropWhile (· != 47)).reverse ++ v

def relText (fetchable : Bool) (pre path u : List UInt8) : List UInt8 :=
  pre ++ normPath fetchable ((merge path u).takeWhile (· != 63)) ++ (merge path u).dropWhile (· != 63)

/-- "mailto:", "javascript:" -/
def mailtoText : List UInt8 := [109, 97, 105, 108, 116, 111, 58]
def javascriptText : List UInt8 := [106, 97, 118, 97, 115, 99, 114, 105, 112, 116, 58]

/-- The last two labels of a host, or all of it. -/
def lastTwo (h : List UInt8) : List UInt8 :=
  let l := split 46 h
  [46].intercalate (l.drop (l.length - 2))

/-- The domain `d` of a host `h`: it is what follows one of its dots, or the whole host, and if the host has no empty labels, it consists of the last two. -/
def DomainOf (h d : List UInt8) : Prop :=
  ∃ a, h = a ++ d ∧ (a = [] ∨ ∃ a', a = a' ++ [46]) ∧ d.count 46 ≤ 2 ∧
    ((∀ i, ¬ Occurs [46, 46] h i) → d = lastTwo h)

/-- `u` is scheme, host, normal path and query. -/
def GoodUrl (u s h p q : List UInt8) : Prop :=
  u = s ++ h ++ p ++ q ∧ (s.map lower = http ∨ s.map lower = https) ∧ (∀ c ∈ h, hostChar c = true ∧ lower c = c) ∧
    NormalPath p ∧ 63 ∉ p ∧ (q = [] ∨ ∃ q', q = 63 :: q') ∧ 35 ∉ u

/-- An argument `u` of `sz` bytes: `v` are these bytes, `rest` is the rest of the object they are in.  The object has at least `n` bytes, and the end of `v` does
not cut a scheme in two. -/
def Usable (n : Nat) (v rest : List UInt8) : Prop :=
  v ≠ [] ∧ n ≤ (v ++ rest).length ∧ (startsI https (v ++ rest) = true → 8 ≤ v.length) ∧ (startsI http (v ++ rest) = true → 7 ≤ v.length)

end Verif.UrlParser.Spec
