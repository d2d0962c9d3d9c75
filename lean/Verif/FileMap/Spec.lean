/-
  What users expect of memory that coda_mmap gives them: bytes, without pages.
-/
import Verif.FileMap.Model

namespace Verif.FileMap.Spec

/-- An area: the file it belongs to, its size, whether it may be written, whether writes go to the file, and the bytes that were written only to it. -/
structure Area where
  live : Bool
  file : Option Nat
  size : Nat
  write : Bool
  shared : Bool
  mine : Nat → Option UInt8

/-- The lengths and the bytes of the files; the areas. -/
structure World where
  len : Nat → Nat
  byte : Nat → Nat → UInt8
  areas : List Area

/-- The use is right: areas are used between coda_mmap and coda_umap, inside of their sizes, and written only if asked for; and nobody makes a file smaller. -/
def Right (w : World) : Op → Prop
  | .map (some f) size _ _ => size = 0 ∨ w.len f ≤ size
  | .map none _ _ _ => True
  | .umap _ => True
  | .read i off => ∃ a, w.areas[i]? = some a ∧ a.live = true ∧ off < a.size
  | .write i off _ => ∃ a, w.areas[i]? = some a ∧ a.live = true ∧ off < a.size ∧ a.write = true

/-- The world after an operation. -/
def next (w : World) : Op → World
  | .map none size wr sh => if size = 0 then w else { w with areas := w.areas ++ [⟨true, none, size, wr, sh, fun _ => some 0⟩] }
  | .map (some f) size wr sh =>
    if size = 0 then
      if w.len f = 0 then w else { w with areas := w.areas ++ [⟨true, some f, w.len f, wr, sh, fun _ => none⟩] }
    else if wr then
      { w with
        len := fun g => if g = f then size else w.len g
        areas := w.areas ++ [⟨true, some f, size, wr, sh, fun _ => none⟩] }
    else w
  | .umap i => { w with areas := w.areas.modify i (fun a => { a with live := false }) }
  | .read _ _ => w
  | .write i off b =>
    match w.areas[i]? with
    | none => w
    | some a =>
      match a.file, a.shared with
      | some f, true => { w with byte := fun g o => if g = f ∧ o = off then b else w.byte g o }
      | _, _ => { w with areas := w.areas.set i { a with mine := fun o => if o = off then some b else a.mine o } }

/-- The replies that are right.  A byte of an area that does not share its writes, and that was not written through it, may or may not show what others
write to the file. -/
def Good (w : World) : Op → Ret → Prop
  | .map none size _ _, r => r = .area (if size = 0 then none else some (size, w.areas.length))
  | .map (some f) size wr _, r =>
    r = .area (if size = 0 then (if w.len f = 0 then none else some (w.len f, w.areas.length)) else if wr then some (size, w.areas.length) else none)
  | .read i off, r =>
    ∃ a b, w.areas[i]? = some a ∧ r = .byte b ∧
      match a.file, a.shared with
      | some f, true => b = w.byte f off
      | _, _ => ∀ x, a.mine off = some x → b = x
  | .umap _, r => r = .unit
  | .write _ _ _, r => r = .unit

/-- All operations are used right. -/
def AllRight (w : World) : List Op → Prop
  | [] => True
  | op :: ops => Right w op ∧ AllRight (next w op) ops

/-- All replies are right. -/
def AllGood (w : World) : List Op → List Ret → Prop
  | [], [] => True
  | op :: ops, r :: rs => Good w op r ∧ AllGood (next w op) ops rs
  | _, _ => False

end Verif.FileMap.Spec
