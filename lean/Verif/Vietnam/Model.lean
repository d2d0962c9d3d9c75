/-
  Model of coda/vietnam.cpp.  `std::string result` is the list of its bytes; `reserve` is not modelled.
-/
import Verif.Mem

namespace Verif.Vietnam

/-- `(b[p] & mask) << s`, coda/vietnam.cpp:28-31, 38-40, 47-48. -/
def part (b : Buf) (p : Nat) (mask : UInt8) (s : Nat) : Res Nat := do
  let c ← rd b p
  .ok ((c &&& mask).toNat * 2^s)

/-- The code, the new `p` and `char_len` of the sequence at `p` whose first byte is `c`: coda/vietnam.cpp:20-52.  All codes are below 2^21, so that
uint32_t does not overflow. -/
def decode (b : Buf) (p e : Nat) (c : UInt8) : Res (Nat × Nat × Nat) :=
  if c &&& 0xF0 = 0xF0 then
    if p + 3 < e then do
      let x ← part b p 0x07 18
      let y ← part b (p + 1) 0x3F 12
      let z ← part b (p + 2) 0x3F 6
      let w ← part b (p + 3) 0x3F 0
      .ok (x + y + z + w, p + 4, 4)
    else .ok (0, p, 0)
  else if c &&& 0xF0 = 0xE0 then
    if p + 2 < e then do
      let x ← part b p 0x0F 12
      let y ← part b (p + 1) 0x3F 6
      let z ← part b (p + 2) 0x3F 0
      .ok (x + y + z, p + 3, 3)
    else .ok (0, p, 0)
  else
    if p + 1 < e then do
      let x ← part b p 0x1F 6
      let y ← part b (p + 1) 0x3F 0
      .ok (x + y, p + 2, 2)
    else .ok (0, p, 0)

/-- `while (p < e) result.push_back(*p++)`, coda/vietnam.cpp:62-65 and 115-119; `n = e - p`. -/
def copy (b : Buf) : Nat → Nat → List UInt8 → Res (List UInt8)
  | 0, _, result => .ok result
  | n + 1, p, result => do
    let c ← rd b p
    copy b n (p + 1) (result ++ [c])

/-- The cases of the switch that write one letter: coda/vietnam.cpp:67-112. -/
def cases : List (List Nat × UInt8) :=
  [([0x00D0, 0x0110], 68),
   ([0x00F0, 0x0111], 100),
   ([0x00C0, 0x00C1, 0x00C2, 0x00C3, 0x0102, 0x1EA0, 0x1EA2, 0x1EA4, 0x1EA6,
     0x1EA8, 0x1EAA, 0x1EAC, 0x1EAE, 0x1EB0, 0x1EB2, 0x1EB4, 0x1EB6], 65),
   ([0x00E0, 0x00E1, 0x00E2, 0x00E3, 0x0103, 0x1EA1, 0x1EA3, 0x1EA5, 0x1EA7,
     0x1EA9, 0x1EAB, 0x1EAD, 0x1EAF, 0x1EB1, 0x1EB3, 0x1EB5, 0x1EB7], 97),
   ([0x00C8, 0x00C9, 0x00CA, 0x1EB8, 0x1EBA, 0x1EBC, 0x1EBE, 0x1EC0, 0x1EC2, 0x1EC4, 0x1EC6], 69),
   ([0x00E8, 0x00E9, 0x00EA, 0x1EB9, 0x1EBB, 0x1EBD, 0x1EBF, 0x1EC1, 0x1EC3, 0x1EC5, 0x1EC7], 101),
   ([0x00CC, 0x00CD, 0x0128, 0x1EC8, 0x1ECA], 73),
   ([0x00EC, 0x00ED, 0x0129, 0x1EC9, 0x1ECB], 105),
   ([0x00D2, 0x00D3, 0x00D4, 0x00D5, 0x01A0, 0x1ECC, 0x1ECE, 0x1ED0, 0x1ED2,
     0x1ED4, 0x1ED6, 0x1ED8, 0x1EDA, 0x1EDC, 0x1EDE, 0x1EE0, 0x1EE2], 79),
   ([0x00F2, 0x00F3, 0x00F4, 0x00F5, 0x01A1, 0x1ECD, 0x1ECF, 0x1ED1, 0x1ED3,
     0x1ED5, 0x1ED7, 0x1ED9, 0x1EDB, 0x1EDD, 0x1EDF, 0x1EE1, 0x1EE3], 111),
   ([0x00D9, 0x00DA, 0x0168, 0x01AF, 0x1EE4, 0x1EE6, 0x1EE8, 0x1EEA, 0x1EEC, 0x1EEE, 0x1EF0], 85),
   ([0x00F9, 0x00FA, 0x0169, 0x01B0, 0x1EE5, 0x1EE7, 0x1EE9, 0x1EEB, 0x1EED, 0x1EEF, 0x1EF1], 117),
   ([0x00DD, 0x1EF2, 0x1EF4, 0x1EF6, 0x1EF8], 89),
   ([0x00FD, 0x1EF3, 0x1EF5, 0x1EF7, 0x1EF9], 121)]

/-- The letter that the switch writes for a code.  The cases of the switch: coda/vietnam.cpp:67-112. -/
def letter (code : Nat) : Option UInt8 :=
  (cases.find? (fun c => c.1.contains code)).map (·.2)

/-- The switch: coda/vietnam.cpp:59-122; the new `p` and `result`. -/
def emit (b : Buf) (e code p len : Nat) (result : List UInt8) : Res (Nat × List UInt8) :=
  if code = 0 then do
    let r ← copy b (e - p) p result
    .ok (e, r)
  else match letter code with
    | some l => .ok (p, result ++ [l])
    | none => do
      let r ← copy b len (p - len) result
      .ok (p, r)

/-- The main loop: coda/vietnam.cpp:12-123.  `fuel` bounds the number of iterations; running out of it counts as undefined behaviour. -/
def loop (b : Buf) (e : Nat) : Nat → Nat → List UInt8 → Res (List UInt8)
  | 0, _, _ => .ub
  | fuel + 1, p, result =>
    if p < e then do
      let c ← rd b p
      if c < 0x80 then loop b e fuel (p + 1) (result ++ [c])
      else do
        let (code, p2, len) ← decode b p e c
        if 0x0300 ≤ code ∧ code ≤ 0x036F then loop b e fuel p2 result
        else do
          let (p3, r) ← emit b e code p2 len result
          loop b e fuel p3 r
    else .ok result

/-- `coda_remove_tones_utf8(s, sz)`: coda/vietnam.cpp:4-126; `b` is the object `s` points to. -/
def coda_remove_tones_utf8 (b : Buf) (sz : Nat) : Res (List UInt8) := loop b sz (sz + 1) 0 []

end Verif.Vietnam
