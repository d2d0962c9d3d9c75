/-
  What tone removal does to a character: independent of the model.
-/
namespace Verif.Vietnam

/-- The Vietnamese letters and the letter that each of them becomes. -/
def table : List (String × Char) :=
  [("ÐĐ", 'D'), ("ðđ", 'd'),
   ("ÀÁÂÃĂẠẢẤẦẨẪẬẮẰẲẴẶ", 'A'), ("àáâãăạảấầẩẫậắằẳẵặ", 'a'),
   ("ÈÉÊẸẺẼẾỀỂỄỆ", 'E'), ("èéêẹẻẽếềểễệ", 'e'),
   ("ÌÍĨỈỊ", 'I'), ("ìíĩỉị", 'i'),
   ("ÒÓÔÕƠỌỎỐỒỔỖỘỚỜỞỠỢ", 'O'), ("òóôõơọỏốồổỗộớờởỡợ", 'o'),
   ("ÙÚŨƯỤỦỨỪỬỮỰ", 'U'), ("ùúũưụủứừửữự", 'u'),
   ("ÝỲỴỶỸ", 'Y'), ("ýỳỵỷỹ", 'y')]

/-- A combining diacritical mark: U+0300 … U+036F. -/
def isMark (c : Char) : Bool := 0x300 ≤ c.toNat && c.toNat ≤ 0x36F

/-- What becomes of a character. -/
def plain (c : Char) : List Char :=
  if isMark c then []
  else match table.find? (fun e => e.1.toList.contains c) with
    | some e => [e.2]
    | none => [c]

/-- The bytes of a text. -/
def utf8 (t : List Char) : List UInt8 := t.flatMap String.utf8EncodeChar

/-- Length of a multi-byte sequence by its first byte: 1111xxxx, 1110xxxx, all others. -/
def seqLen (a : UInt8) : Nat := if 0xF0 ≤ a then 4 else if 0xE0 ≤ a then 3 else 2

/-- All payload bits of a multi-byte sequence are 0, e.g. C0 80. -/
def isZero : List UInt8 → Bool
  | a :: r => (if 0xF0 ≤ a then a.toNat % 8 == 0 else if 0xE0 ≤ a then a.toNat % 16 == 0 else a.toNat % 32 == 0) && r.all (fun c => c.toNat % 64 == 0)
  | [] => false

/-- Some complete multi-byte sequence of a text encodes 0 (`fuel`: the length of the text is enough). -/
def hasZero : Nat → List UInt8 → Bool
  | 0, _ => false
  | _, [] => false
  | fuel + 1, a :: r =>
    if a < 0x80 then hasZero fuel r
    else if r.length + 1 < seqLen a then false
    else isZero ((a :: r).take (seqLen a)) || hasZero fuel ((a :: r).drop (seqLen a))

end Verif.Vietnam
