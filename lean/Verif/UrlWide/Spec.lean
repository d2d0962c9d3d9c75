/-
  Specification for long URLs (C177): the part of a text that is kept.
-/
import Verif.UrlParser.Spec

namespace Verif.UrlWide.Spec
open Verif.UrlParser.Spec

/-- Does the text begin with http:// or https://? -/
def hasScheme (v : List UInt8) : Prop := startsI https v = true ∨ startsI http v = true

/-- The length of the text together with the scheme that is put before it if there is none. -/
def total (v : List UInt8) : Nat := if startsI https v = true ∨ startsI http v = true then v.length else 7 + v.length

/-- As many bytes as are left if this length, modulo 2^32, is taken for the length of the text. -/
def kept (v : List UInt8) : List UInt8 :=
  if startsI https v = true ∨ startsI http v = true then v.take (total v % 2^32) else v.take (total v % 2^32 - 7)

end Verif.UrlWide.Spec
