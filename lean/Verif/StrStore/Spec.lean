/-
  Vocabulary for the theorems on the string storage.
-/
namespace Verif.StrStore

/-- No nine bytes that follow each other occur at two different positions in the strings of a set. -/
def NoShift (S : List UInt8 → Prop) : Prop :=
  ∀ s t, S s → S t → ∀ i j, ((s.drop i).take 9).length = 9 → (s.drop i).take 9 = (t.drop j).take 9 → i = j

/-- A set of C strings shorter than 256 bytes. -/
def Short (S : List UInt8 → Prop) : Prop := ∀ s, S s → s.length < 256 ∧ 0 ∉ s

end Verif.StrStore
