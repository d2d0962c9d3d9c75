/-
  What a text means as a number or a switch (C101-C103).
-/
import Verif.Txml.Conv

namespace Verif.Txml.Spec

/-- The value of decimal digits. -/
def value : Text → Nat
  | [] => 0
  | d :: ds => (d.toNat - 48) * 10 ^ ds.length + value ds

def Digit (c : UInt8) : Prop := 48 ≤ c.toNat ∧ c.toNat ≤ 57

def White (c : UInt8) : Prop := c.toNat = 32 ∨ 9 ≤ c.toNat ∧ c.toNat ≤ 13

/-- The text begins, after white space, with the decimal number `n`. -/
def Denotes (t : Text) (n : Int) : Prop :=
  ∃ ws sign ds tail : Text, t = ws ++ sign ++ ds ++ tail ∧ (∀ c ∈ ws, White c) ∧ ds ≠ [] ∧ (∀ c ∈ ds, Digit c) ∧ (∀ c ∈ tail.head?, ¬ Digit c) ∧
    ((sign = [] ∨ sign = [43]) ∧ n = value ds ∨ sign = [45] ∧ n = -(value ds : Int))

/-- The text in small letters. -/
def small (t : Text) : Text := t.map fun c => if 65 ≤ c.toNat ∧ c.toNat ≤ 90 then c + 32 else c

/-- Texts that switch on. -/
def onWords : List Text :=
  [[116], [116, 114], [116, 114, 117], [116, 114, 117, 101],  -- t tr tru true
   [111], [111, 110],                                         -- o on
   [121], [121, 101], [121, 101, 115]]                        -- y ye yes

def SwitchedOn (t : Text) : Prop := (∃ n, Denotes t n ∧ n ≠ 0) ∨ small t ∈ onWords

/-- The parser is given pieces one after the other. -/
def feed {σ : Type} (P : σ → List UInt8 → Bool → Option σ) : σ → List (List UInt8 × Bool) → Option σ
  | x, [] => some x
  | x, (c, fin) :: cs =>
    match P x c fin with
    | none => none
    | some x => feed P x cs

/-- The parser is given these pieces; then the file is closed, once. -/
def acts (cs : List (List UInt8 × Bool)) : List Act := cs.map (fun c => Act.parse c.1 c.2) ++ [.close]

end Verif.Txml.Spec
