/-
  Independent specification vocabulary for coda/string.cpp and coda/easy_parsing.cpp (properties C34–C39).
-/
import Verif.Str.Spec

namespace Verif.StrCpp.Spec
open Verif.Str.Spec

/-- p0 d0 p1 d1 … pn: pieces interleaved with separators. -/
def weave : List (List UInt8) → List UInt8 → List UInt8
  | [], _ => []
  | [p], _ => p
  | p :: ps, d :: ds => p ++ [d] ++ weave ps ds
  | p :: _, [] => p

/-- `ps` are the maximal pieces of `data` without separators: none contains a separator, and interleaved with
a sequence of separators (one less than pieces) they give `data`. -/
def IsSplit (sep : UInt8 → Prop) (data : List UInt8) (ps : List (List UInt8)) : Prop :=
  (∀ p ∈ ps, ∀ c ∈ p, ¬ sep c) ∧
  ∃ ds, (∀ d ∈ ds, sep d) ∧ ps.length = ds.length + 1 ∧ weave ps ds = data

def IsSpace (c : UInt8) : Prop := c = 32 ∨ c = 9 ∨ c = 10 ∨ c = 11 ∨ c = 12 ∨ c = 13

/-- `v` is the number at the start of `p`, in the sense of scanf's %u: white space, optional sign, all the digits that
follow; the value saturates at 2^64-1, a minus sign negates modulo 2^64. -/
def IsNumber (p : List UInt8) (v : UInt64) : Prop :=
  ∃ ws sign ds tail, p = ws ++ sign ++ ds ++ tail ∧ (∀ c ∈ ws, IsSpace c) ∧ (sign = [] ∨ sign = [43] ∨ sign = [45]) ∧
    ds ≠ [] ∧ (∀ c ∈ ds, IsDigit c) ∧ (∀ c, tail.head? = some c → ¬ IsDigit c) ∧
    v = if decVal ds < 2 ^ 64 then (if sign = [45] then - UInt64.ofNat (decVal ds) else UInt64.ofNat (decVal ds))
        else UInt64.ofNat (2 ^ 64 - 1)

/-- Blank characters of get_next_word. -/
def Blank (c : UInt8) : Prop := c = 32 ∨ c = 9 ∨ c = 10 ∨ c = 13

end Verif.StrCpp.Spec
