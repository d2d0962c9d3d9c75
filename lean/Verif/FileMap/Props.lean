/-
  C180: the memory that coda_mmap gives, and the files behind it.
-/
import Verif.FileMap.Lemmas

namespace Verif.FileMap

/-- **C180, partial**: for all files and all histories of mappings and accesses in which no call makes a file smaller, nothing faults and every byte read is right.
Missing: calls that ask for less than the file has (`C180_refuted`, `C180_refuted_lost`). -/
theorem C180_memory_partial (files : Nat → List UInt8) (ops : List Op) (h : Spec.AllRight (world files) ops) :
    ∃ s rs, run ⟨files, []⟩ ops = .ok (s, rs) ∧ Spec.AllGood (world files) ops rs :=
  run_rep ops (start_rep files) h

/-- Two areas of one file and one that does not share: a byte written through the first is seen through the second, and one written through the third is not. -/
example : Spec.AllRight (world (fun _ => [1, 2, 3]))
      [.map (some 5) 5000 true true, .map (some 5) 0 false true, .map (some 5) 0 true false, .write 0 4999 7, .write 2 1 9, .read 1 4999, .read 2 1, .read 0 1] ∧
    (match run ⟨fun _ => [1, 2, 3], []⟩
      [.map (some 5) 5000 true true, .map (some 5) 0 false true, .map (some 5) 0 true false, .write 0 4999 7, .write 2 1 9, .read 1 4999, .read 2 1, .read 0 1] with
     | .ok (_, rs) => some (rs.drop 5)
     | .ub => none) = some [.byte 7, .byte 9, .byte 2] := by
  refine ⟨?_, ?_⟩
  · simp [Spec.AllRight, Spec.Right, Spec.next, world]
  · decide +kernel

/-- **C180**: an area that was given back is gone, whatever happened before; so is nothing else, see `C180_memory_partial`. -/
theorem C180_given_back (s : State) (i off : Nat) (b : UInt8) : run s [.umap i, .read i off] = .ub ∧ run s [.umap i, .write i off b] = .ub := by
  have h : (coda_umap s i).maps[i]? = (s.maps[i]?).map (fun m => { m with live := false }) := by
    simp [coda_umap]
  constructor
  · simp only [run, step, read, h]
    cases s.maps[i]? with
    | none => rfl
    | some m => simp [view]
  · simp only [run, step, write, h]
    cases s.maps[i]? with
    | none => rfl
    | some m => simp [view]

/-- **C180**: memory that was not asked for with PROT_WRITE cannot be written. -/
theorem C180_read_only (s : State) (i off : Nat) (b : UInt8) (m : Mapping) (h : s.maps[i]? = some m) (hw : m.write = false) : run s [.write i off b] = .ub := by
  simp only [run, step, write, h]
  cases view s m off <;> simp [hw]

example : ∃ m, (coda_mmap ⟨fun _ => [1, 2, 3], []⟩ (some 0) 0 false true).1.maps[0]? = some m ∧ m.write = false := ⟨_, rfl, rfl⟩

/-- **C180, refuted**: for every file, every size, every byte of it and every smaller size whose pages end before that byte: when somebody calls coda_mmap with
the smaller size, which succeeds, the next access of the byte through the area that was there before kills the process. -/
theorem C180_refuted (files : Nat → List UInt8) (f size off n : Nat) (b : UInt8) (sh sh' : Bool) (ho : off < size) (hs : 0 < n) (hn : roundUp n ≤ off) :
    (∃ s, run ⟨files, []⟩ [.map (some f) size true sh, .map (some f) n true sh'] = .ok (s, [.area (some (size, 0)), .area (some (n, 1))])) ∧
      run ⟨files, []⟩ [.map (some f) size true sh, .map (some f) n true sh', .read 0 off] = .ub ∧
      run ⟨files, []⟩ [.map (some f) size true sh, .map (some f) n true sh', .write 0 off b] = .ub := by
  have h1 : size ≠ 0 := by omega
  have h2 : n ≠ 0 := by omega
  have h3 : off < roundUp size := lt_roundUp ho
  have h4 : ¬ off < roundUp n := by omega
  refine ⟨⟨_, by simp [run, step, coda_mmap, h1, h2]; rfl⟩, ?_, ?_⟩
  · simp [run, step, coda_mmap, h1, h2, read, view, h3, h4, truncate_length]
  · simp [run, step, coda_mmap, h1, h2, write, view, h3, h4, truncate_length]

example : (4999 < 5000 ∧ 0 < 10 ∧ roundUp 10 ≤ 4999) := by decide

/-- **C180, refuted**: for every file, every size, every byte of it and every smaller size: what was written to a byte behind the smaller size is gone, also for
those who map the file with the old size again. -/
theorem C180_refuted_lost (files : Nat → List UInt8) (f size off n : Nat) (b : UInt8) (ho : off < size) (hs : 0 < n) (hn : n ≤ off) :
    ∃ s, run ⟨files, []⟩ [.map (some f) size true true, .write 0 off b, .read 0 off, .map (some f) n true true, .map (some f) size true true, .read 0 off, .read 2 off] =
      .ok (s, [.area (some (size, 0)), .unit, .byte b, .area (some (n, 1)), .area (some (size, 2)), .byte 0, .byte 0]) := by
  have h1 : size ≠ 0 := by omega
  have h2 : n ≠ 0 := by omega
  have h3 : off < roundUp size := lt_roundUp ho
  have e1 : ∀ l : List UInt8, ((truncate l size).set off b).getD off 0 = b := fun l => by
    rw [getD_set _ _ _ _ (by rw [truncate_length]; exact ho), if_pos rfl]
  have e2 : ∀ l : List UInt8, (truncate (truncate l n) size).getD off 0 = 0 := fun l => by
    rw [truncate_grow _ _ (by rw [truncate_length]; omega), List.getD_eq_default _ _ (by rw [truncate_length]; exact hn)]
  simp only [run, step, coda_mmap, read, write, view, h1, h2, h3, truncate_length, List.length_set, e1, e2, ne_eq, not_false_eq_true, if_true, if_false,
    List.nil_append, List.length_nil, List.length_append, List.length_cons, List.cons_append, List.getElem?_cons_zero, List.getElem?_cons_succ,
    Bool.false_eq_true, Bool.and_self, decide_true]
  exact ⟨_, rfl⟩

example : (4999 < 5000 ∧ 0 < 4998 ∧ 4998 ≤ 4999) := by decide

end Verif.FileMap
