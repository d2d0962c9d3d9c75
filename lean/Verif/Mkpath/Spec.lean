/-
  What coda_mkpath is to do.
-/
import Verif.Mkpath.Model

namespace Verif.Mkpath

/-- The directories of a path: what stands before each '/', except one at the very beginning; the shortest first. -/
def parents (s : List UInt8) : List (List UInt8) :=
  ((List.range s.length).filter (fun i => i ≠ 0 ∧ s[i]? = some 47)).map (fun i => s.take i)

/-- Make directories one after the other up to the first failure: the result, the file system, the directories tried. -/
def makeAll {σ : Type} (mk : Mkdir σ) : σ → List (List UInt8) → Int × σ × List (List UInt8)
  | fs, [] => (0, fs, [])
  | fs, d :: ds =>
    match (mk fs d).2 with
    | .error _ => (-1, (mk fs d).1, [d])
    | _ => let r := makeAll mk (mk fs d).1 ds; (r.1, r.2.1, d :: r.2.2)

example : parents "/ab/c//d".toUTF8.toList = ["/ab".toUTF8.toList, "/ab/c".toUTF8.toList, "/ab/c/".toUTF8.toList] := by decide +kernel

end Verif.Mkpath
