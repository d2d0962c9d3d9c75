/-
  The tests of the repository, run on the models by the kernel: they show that the models compute what the authors expect of the code.
  They are tests of the models and prove no property.
-/
import Verif.Base58.Props
import Verif.Cache.Model
import Verif.StrStore.Props
import Verif.Txml.Props

namespace Verif.RepoTests

def ascii (s : String) : List UInt8 := s.toUTF8.data.toList

/-- tests/base58/test.c for one pair of lines: the text encoded and its decoding. -/
def base58 (data : List UInt8) (text : String) : Bool :=
  match Base58.coda_base58_encode_alloc (fun n => some (List.replicate n 7)) true data data.length with
  | .ok ⟨_, some blk⟩ =>
    let t := blk.takeWhile (· != 0)
    t == ascii text && blk.contains 0 &&
      match Base58.coda_base58_decode_alloc (fun n => some (List.replicate n 7)) true t t.length with
      | .ok ⟨n, some d⟩ => n == data.length && d.take data.length == data
      | _ => false
  | _ => false

/-! tests/base58/data/test_in.txt and test_control.txt, the lines that are not empty -/

example : base58 [] "" = true := by decide +kernel
example : base58 [97] "2g" = true := by decide +kernel
example : base58 [98, 98, 98] "a3gV" = true := by decide +kernel
example : base58 [99, 99, 99] "aPEr" = true := by decide +kernel
example : base58 [115, 105, 109, 112, 108, 121, 32, 97, 32, 108, 111, 110, 103, 32, 115, 116, 114, 105, 110, 103] "2cFupjhnEsSn59qHXstmK2ffpLv2" = true := by decide +kernel
example : base58 [0, 235, 21, 35, 29, 252, 235, 96, 146, 88, 134, 182, 125, 6, 82, 153, 146, 89, 21, 174, 177, 114, 192, 102, 71] "1NS17iag9jJgTHD1VXjvLCEnZuQ3rJDE9L" = true := by decide +kernel
example : base58 [81, 107, 111, 205, 15] "ABnLTmg" = true := by decide +kernel
example : base58 [191, 79, 137, 0, 30, 103, 2, 116, 221] "3SEo3LWLoPntC" = true := by decide +kernel
example : base58 [87, 46, 71, 148] "3EFU7m" = true := by decide +kernel
example : base58 [236, 172, 137, 202, 217, 57, 35, 192, 35, 33] "EJDM8drfXA6uyA" = true := by decide +kernel
example : base58 [16, 200, 81, 30] "Rt5zm" = true := by decide +kernel
example : base58 [0, 0, 0, 0, 0, 0, 0, 0, 0, 0] "1111111111" = true := by decide +kernel
example : base58 [] "" = true := by decide +kernel

/-! The two long lines: with the specification, which the functions meet by C11 to C15. -/

example : Base58.Spec.Text [0, 1, 17, 211, 142, 95, 201, 7, 31, 252, 210, 11, 74, 118, 60, 201, 174, 79, 37, 43, 180, 228, 143, 214, 106, 131, 94, 37, 42, 218, 147, 255, 72, 13, 109, 212, 61, 198, 42, 100, 17, 85, 165] (ascii "123456789ABCDEFGHJKLMNPQRSTUVWXYZabcdefghijkmnopqrstuvwxyz") :=
  ⟨1, [1, 17, 211, 142, 95, 201, 7, 31, 252, 210, 11, 74, 118, 60, 201, 174, 79, 37, 43, 180, 228, 143, 214, 106, 131, 94, 37, 42, 218, 147, 255, 72, 13, 109, 212, 61, 198, 42, 100, 17, 85, 165], [1, 2, 3, 4, 5, 6, 7, 8, 9, 10, 11, 12, 13, 14, 15, 16, 17, 18, 19, 20, 21, 22, 23, 24, 25, 26, 27, 28, 29, 30, 31, 32, 33, 34, 35, 36, 37, 38, 39, 40, 41, 42, 43, 44, 45, 46, 47, 48, 49, 50, 51, 52, 53, 54, 55, 56, 57], by decide +kernel, by decide +kernel, by decide +kernel,
    ⟨by decide +kernel, by decide +kernel, by decide +kernel⟩⟩

/-- The bytes from 0 to 255. -/
def all256 : List UInt8 := (List.range 256).map UInt8.ofNat
def digits256 : List Nat := [35, 29, 10, 4, 16, 11, 10, 36, 19, 42, 9, 52, 48, 15, 15, 24, 37, 29, 13, 2, 24, 2, 11, 39, 52, 52, 54, 25, 42, 54, 5, 24, 16, 45, 2, 8, 50, 1, 56, 52, 12, 24, 26, 25, 4, 21, 50, 10, 39, 21, 41, 14, 47, 29, 39, 9, 45, 13, 55, 5, 28, 23, 41, 7, 35, 50, 37, 55, 43, 39, 31, 54, 2, 44, 36, 31, 49, 20, 16, 49, 7, 55, 8, 41, 6, 33, 13, 54, 22, 7, 43, 32, 6, 53, 35, 35, 30, 29, 48, 18, 12, 53, 15, 53, 2, 52, 0, 15, 55, 14, 18, 22, 52, 9, 43, 45, 7, 17, 11, 22, 22, 15, 12, 20, 38, 2, 53, 20, 20, 45, 34, 57, 44, 5, 21, 40, 8, 57, 40, 0, 39, 35, 21, 50, 20, 53, 16, 2, 32, 21, 19, 44, 22, 4, 38, 25, 15, 5, 12, 15, 34, 34, 41, 1, 51, 52, 54, 20, 29, 22, 51, 40, 49, 3, 34, 46, 29, 54, 11, 55, 38, 6, 37, 54, 25, 39, 21, 23, 37, 33, 35, 56, 46, 57, 40, 18, 12, 12, 23, 23, 0, 48, 19, 4, 38, 23, 14, 27, 29, 4, 1, 23, 18, 27, 32, 12, 32, 4, 38, 54, 2, 18, 30, 21, 23, 17, 20, 35, 21, 26, 35, 33, 10, 6, 1, 2, 19, 35, 40, 42, 37, 18, 52, 45, 6, 20, 52, 15, 29, 4, 48, 56, 11, 10, 32, 31, 57, 9, 0, 18, 42, 46, 38, 21, 0, 39, 31, 10, 28, 2, 21, 48, 56, 40, 23, 17, 2, 21, 50, 6, 3, 5, 15, 21, 52, 38, 8, 21, 1, 47, 23, 22, 44, 16, 57, 3, 55, 47, 45, 25, 49, 49, 38, 11, 53, 56, 5, 26, 28, 28, 57, 4, 36, 3, 22, 36, 49, 42, 37, 50, 40, 50, 29, 23, 54, 47, 32, 50, 32, 15, 57, 53, 34, 36, 9, 36, 21, 7, 20, 18, 28, 4, 23, 50, 10, 12, 31]

example : Base58.Spec.Text all256 (ascii
    "1cWB5HCBdLjAuqGGReWE3R3CguuwSjw6RHn39s2yuDRTS5NsBgNiFpWgAnEx6VQi8csexkgYw3mdYrMHr8x9i7aEwP8kZ7vccXWqKDvGv3u1GxFKPuAkn8JCPPGDMf3vMMnbzm6Nh9zh1gcNsMvH3ZNLmP5fSG6DGbbi2tuwMWPthr4boWwCxf7ewSgNQeacyozhKDDQQ1qL5fQFUW52QKUZDZ5fw3KXNQJMcNTcaB723LchjeKun7MuGW5qyCBZYzA1KjofN1gYBV3NqyhQJ3Ns746GNuf9N2pQPmHz4xpnSrrfCvy6TVVz5d4PdrjeshsWQwpZsZGzvbdAdN8MKV5QsBDY") :=
  ⟨1, all256.drop 1, digits256, by decide +kernel, by decide +kernel, by decide +kernel,
    ⟨by decide +kernel, by decide +kernel, by decide +kernel⟩⟩

/-! tests/cache/test.cpp -/

/-- The values that `get(0)` returns right after set, one second and four seconds later (0 for none). -/
def cacheTest (time_max : UInt64) (val : Nat) : Res (Nat × Nat × Nat) := do
  let c ← Cache.set (fun _ => 4) (Cache.init 1024 time_max) 0 val false 1000
  let (c, v1) ← Cache.get c 0 1000
  let (c, v2) ← Cache.get c 0 1001
  let (_, v3) ← Cache.get c 0 1004
  .ok (v1.getD 0, v2.getD 0, v3.getD 0)

/-- Test 1: elements in a cache with time_max == 0 do not expire. -/
example : cacheTest 0 23 = .ok (23, 23, 23) := by decide +kernel
/-- Test 2: elements in a cache with time_max == 1 expire "after one second": the comparison is strict, so that the second get still
finds the element. -/
example : cacheTest 1 35 = .ok (35, 35, 0) := by decide +kernel

/-! tests/stringstorage/test.c -/

/-- Three strings are added, 4 bytes are written for each, all are enumerated and their bytes read. -/
def storageTest : Res (List (List UInt8 × List UInt8)) := do
  let (st, _) ← StrStore.run (StrStore.St.init 4) [.add (ascii "AAA"), .put (ascii "AAA") [5, 0, 0, 0],
    .add (ascii "AAAaaaaaaa"), .put (ascii "AAAaaaaaaa") [25, 0, 0, 0],
    .add (ascii "AAAaaaaabbbb"), .put (ascii "AAAaaaaabbbb") [26, 0, 0, 0]]
  let l ← StrStore.string_storage_enumerate st.sb st.root
  l.mapM fun (k, p) => do
    let d ← StrStore.userRead st.sb p
    .ok (k, d)

example : storageTest = .ok [(ascii "AAA", [5, 0, 0, 0]), (ascii "AAAaaaaaaa", [25, 0, 0, 0]), (ascii "AAAaaaaabbbb", [26, 0, 0, 0])] := by
  decide +kernel

/-! tests/txml/test_txml.cpp -/

/-- `<r><s>s1</s><s>s2</s></r>` -/
def txmlDoc : Txml.Spec.Elem :=
  .mk (ascii "r") [] (.elem (.mk (ascii "s") [] (.text (ascii "s1") .nil)) (.elem (.mk (ascii "s") [] (.text (ascii "s2") .nil)) .nil))

/-- struct config { struct ROOT { vector<string> s } r } -/
def txmlObj (s : Txml.Vals) : Txml.Flds :=
  .cons (ascii "r") (.str (.cons (ascii "s") (.seq (.leaf none) s) .nil)) .nil

example : ∃ st, Txml.run Txml.detRoot (Txml.start (txmlObj .nil)) (Txml.Spec.events txmlDoc) = .ok st ∧
    st.obj = txmlObj (.cons (.leaf (some (ascii "s1"))) (.cons (.leaf (some (ascii "s2"))) .nil)) := ⟨_, rfl, rfl⟩

end Verif.RepoTests
