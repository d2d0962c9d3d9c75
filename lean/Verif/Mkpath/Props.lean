/-
  C67: coda_mkpath.  C87: log_create and its path argument.
-/
import Verif.Mkpath.Spec

set_option linter.unusedSimpArgs false

namespace Verif.Mkpath

variable {σ : Type}

theorem cstr_term (s r : List UInt8) (h : 0 ∉ s) : cstr (s ++ 0 :: r) = .ok s := by
  induction s with
  | nil => rfl
  | cons a s ih =>
    have ha : a ≠ 0 := fun e => h (by simp [e])
    have : cstr ((a :: s) ++ 0 :: r) = (cstr (s ++ 0 :: r)).map (a :: ·) := by
      show (if a = 0 then _ else _) = _
      rw [if_neg ha]; rfl
    rw [this, ih (fun hm => h (List.mem_cons_of_mem _ hm))]
    rfl

theorem set_mid (u : List UInt8) (c v : UInt8) (w : List UInt8) : (u ++ c :: w).set u.length v = u ++ v :: w := by
  induction u with
  | nil => rfl
  | cons a u ih => simp

theorem wrm_mid (u : List UInt8) (c v : UInt8) (w : List UInt8) : wrm true (u ++ c :: w) u.length v = .ok (u ++ v :: w) := by
  unfold wrm wr
  rw [if_pos rfl, if_pos (by simp), set_mid]

theorem cut_eq (mk : Mkdir σ) (u w : List UInt8) (fs : σ) (h : 0 ∉ u) :
    cut mk true (u ++ 47 :: w) fs u.length = .ok (u ++ 47 :: w, (mk fs u).1, u, (mk fs u).2) := by
  unfold cut
  rw [wrm_mid]
  simp only [Res.ok_bind]
  rw [cstr_term u w h]
  simp only [Res.ok_bind]
  rw [wrm_mid]
  rfl

/-- the directories whose '/' stands in the second part -/
def later (u : List UInt8) : List UInt8 → List (List UInt8)
  | [] => []
  | c :: v => if c = 47 then u :: later (u ++ [c]) v else later (u ++ [c]) v

theorem loop_eq (mk : Mkdir σ) (v : List UInt8) : ∀ (u r : List UInt8) (fs : σ) (calls : List (List UInt8)) (fuel : Nat),
    0 ∉ u → 0 ∉ v → v.length < fuel →
    loop mk true fuel (u ++ v ++ 0 :: r) fs calls u.length =
      .ok ⟨(makeAll mk fs (later u v)).1, u ++ v ++ 0 :: r, (makeAll mk fs (later u v)).2.1, calls ++ (makeAll mk fs (later u v)).2.2⟩ := by
  induction v with
  | nil =>
    intro u r fs calls fuel hu _ hf
    obtain ⟨f, rfl⟩ : ∃ f, fuel = f + 1 := ⟨fuel - 1, by simp at hf; omega⟩
    unfold loop
    rw [List.append_nil, rd_append_zero]
    simp [later, makeAll]
  | cons c v ih =>
    intro u r fs calls fuel hu hv hf
    obtain ⟨f, rfl⟩ : ∃ f, fuel = f + 1 := ⟨fuel - 1, by simp at hf; omega⟩
    have hc : c ≠ 0 := fun e => hv (by simp [e])
    have hv' : 0 ∉ v := fun hm => hv (List.mem_cons_of_mem _ hm)
    have hu' : 0 ∉ u ++ [c] := by
      simp only [List.mem_append, List.mem_singleton, not_or]; exact ⟨hu, fun e => hc e.symm⟩
    have hb : u ++ (c :: v) ++ 0 :: r = (u ++ [c]) ++ v ++ 0 :: r := by simp
    have hl : u.length + 1 = (u ++ [c]).length := by simp
    have hf' : v.length < f := by simp at hf; omega
    have hrd : rd (u ++ (c :: v) ++ 0 :: r) u.length = .ok c := by
      rw [List.append_assoc, rd_append_zero]; rfl
    unfold loop
    rw [hrd]
    simp only [Res.ok_bind]
    rw [if_neg hc]
    by_cases h47 : c = 47
    · subst h47
      rw [if_neg (by simp)]
      rw [show u ++ (47 :: v) ++ 0 :: r = u ++ 47 :: (v ++ 0 :: r) by simp, cut_eq mk u _ fs hu]
      simp only [Res.ok_bind, later, if_true]
      rw [show u ++ 47 :: (v ++ 0 :: r) = (u ++ [47]) ++ v ++ 0 :: r by simp, hl]
      unfold makeAll
      cases ho : (mk fs u).2 with
      | error e => simp [ho]
      | made =>
        simp only [ho]
        rw [ih (u ++ [47]) r _ _ f hu' hv' hf']
        simp
      | eexist =>
        simp only [ho]
        rw [ih (u ++ [47]) r _ _ f hu' hv' hf']
        simp
    · rw [if_pos h47, hb, hl, ih (u ++ [c]) r fs calls f hu' hv' hf']
      simp only [later, if_neg h47]

theorem later_eq (v : List UInt8) : ∀ u : List UInt8,
    later u v = ((List.range v.length).filter (fun i => v[i]? = some 47)).map (fun i => u ++ v.take i) := by
  induction v with
  | nil => intro u; rfl
  | cons c v ih =>
    intro u
    rw [List.length_cons, List.range_succ_eq_map, List.filter_cons, List.filter_map]
    have hf : ((List.range v.length).filter ((fun i => decide ((c :: v)[i]? = some 47)) ∘ Nat.succ)) =
        (List.range v.length).filter (fun i => v[i]? = some 47) := by
      congr 1
    rw [hf]
    have htl : (((List.range v.length).filter (fun i => v[i]? = some 47)).map Nat.succ).map (fun i => u ++ (c :: v).take i) =
        later (u ++ [c]) v := by
      rw [ih, List.map_map]
      apply List.map_congr_left
      intro i _
      simp
    unfold later
    by_cases h : c = 47
    · simp only [h, if_true, List.getElem?_cons_zero, decide_true, List.map_cons, List.take_zero, List.append_nil]
      subst h
      rw [htl]
    · have : ¬ ((c :: v)[0]? = some 47) := by simpa using h
      rw [if_neg h, if_neg (by simpa using h), htl]

theorem parents_eq (a : UInt8) (v : List UInt8) : parents (a :: v) = later [a] v := by
  unfold parents
  rw [later_eq, List.length_cons, List.range_succ_eq_map, List.filter_cons, if_neg (by simp), List.filter_map, List.map_map]
  have hf : ((List.range v.length).filter ((fun i => decide (i ≠ 0 ∧ (a :: v)[i]? = some 47)) ∘ Nat.succ)) =
      (List.range v.length).filter (fun i => v[i]? = some 47) := by
    congr 1
    funext i
    simp
  rw [hf]
  apply List.map_congr_left
  intro i _
  simp

/-- C67, partial (the path must not be empty, see `C67_refuted`): coda_mkpath on any non-empty C string in writable memory restores
the buffer, calls mkdir exactly for the directories of the path in order up to the first failure other than EEXIST, and returns -1
exactly if there is one.  It is never undefined. -/
theorem C67_mkpath_partial (mk : Mkdir σ) (s r : List UInt8) (fs : σ) (hs : s ≠ []) (h0 : 0 ∉ s) :
    coda_mkpath mk true (s ++ 0 :: r) fs =
      .ok ⟨(makeAll mk fs (parents s)).1, s ++ 0 :: r, (makeAll mk fs (parents s)).2.1, (makeAll mk fs (parents s)).2.2⟩ := by
  match s, hs with
  | a :: v, _ =>
    unfold coda_mkpath
    have := loop_eq mk v [a] r fs [] (((a :: v) ++ 0 :: r).length + 1) (fun h => h0 (by simp at h; simp [h]))
      (fun h => h0 (List.mem_cons_of_mem _ h)) (by simp; omega)
    rw [parents_eq]
    simpa using this

/-- C67: the result is 0 or -1; the calls are an initial part of the directories of the path, and all of them if the result is 0. -/
theorem C67_result (mk : Mkdir σ) (s r : List UInt8) (fs : σ) (hs : s ≠ []) (h0 : 0 ∉ s) (d : Done σ)
    (h : coda_mkpath mk true (s ++ 0 :: r) fs = .ok d) :
    (d.ret = 0 ∨ d.ret = -1) ∧ d.calls <+: parents s ∧ (d.ret = 0 → d.calls = parents s) := by
  rw [C67_mkpath_partial mk s r fs hs h0] at h
  injection h with h
  subst h
  generalize parents s = ds
  show ((makeAll mk fs ds).1 = 0 ∨ (makeAll mk fs ds).1 = -1) ∧ (makeAll mk fs ds).2.2 <+: ds ∧ ((makeAll mk fs ds).1 = 0 → (makeAll mk fs ds).2.2 = ds)
  clear hs h0
  induction ds generalizing fs with
  | nil => exact ⟨.inl rfl, List.prefix_refl _, fun _ => rfl⟩
  | cons x ds ih =>
    unfold makeAll
    cases ho : (mk fs x).2 with
    | error e => exact ⟨.inr rfl, ⟨ds, rfl⟩, fun h => absurd (show (-1 : Int) = 0 from h) (by decide)⟩
    | made =>
      obtain ⟨h1, h2, h3⟩ := ih (mk fs x).1
      exact ⟨h1, (List.prefix_cons_inj x).mpr h2, fun h => by simp only []; rw [h3 h]⟩
    | eexist =>
      obtain ⟨h1, h2, h3⟩ := ih (mk fs x).1
      exact ⟨h1, (List.prefix_cons_inj x).mpr h2, fun h => by simp only []; rw [h3 h]⟩

/-- C67: if `there fs p` means that something exists at `p`, mkdir makes its argument exist, reports EEXIST only for what exists, and
removes nothing, then after a result of 0 every directory of the path exists. -/
theorem C67_exist (mk : Mkdir σ) (there : σ → List UInt8 → Prop)
    (hmade : ∀ fs p, (mk fs p).2 = .made → there (mk fs p).1 p)
    (hex : ∀ fs p, (mk fs p).2 = .eexist → there (mk fs p).1 p)
    (hkeep : ∀ fs p q, there fs q → there (mk fs p).1 q)
    (s r : List UInt8) (fs : σ) (hs : s ≠ []) (h0 : 0 ∉ s) (d : Done σ)
    (h : coda_mkpath mk true (s ++ 0 :: r) fs = .ok d) (hr : d.ret = 0) : ∀ p ∈ parents s, there d.fs p := by
  rw [C67_mkpath_partial mk s r fs hs h0] at h
  injection h with h
  subst h
  revert hr
  generalize parents s = ds
  show (makeAll mk fs ds).1 = 0 → ∀ p ∈ ds, there (makeAll mk fs ds).2.1 p
  clear hs h0
  have keep : ∀ (ds : List (List UInt8)) (fs : σ) (q : List UInt8), there fs q → there (makeAll mk fs ds).2.1 q := by
    intro ds
    induction ds with
    | nil => intro fs q h; exact h
    | cons x ds ih =>
      intro fs q h
      unfold makeAll
      cases ho : (mk fs x).2 <;> simp only [ho]
      · exact ih _ _ (hkeep _ _ _ h)
      · exact ih _ _ (hkeep _ _ _ h)
      · exact hkeep _ _ _ h
  induction ds generalizing fs with
  | nil => intro _ p hp; exact absurd hp (by simp)
  | cons x ds ih =>
    unfold makeAll
    intro hr p hp
    cases ho : (mk fs x).2 with
    | error e => simp [ho] at hr
    | made =>
      simp only [ho] at hr ⊢
      rcases List.mem_cons.mp hp with rfl | hp
      · exact keep ds _ _ (hmade _ _ ho)
      · exact ih _ hr p hp
    | eexist =>
      simp only [ho] at hr ⊢
      rcases List.mem_cons.mp hp with rfl | hp
      · exact keep ds _ _ (hex _ _ ho)
      · exact ih _ hr p hp

/-- C67: more memory behind the string changes nothing, so the function looks at the string only; in particular it ends after finitely
many rounds for every non-empty path. -/
theorem C67_terminates (mk : Mkdir σ) (s r : List UInt8) (fs : σ) (hs : s ≠ []) (h0 : 0 ∉ s) (fuel : Nat) (hf : s.length ≤ fuel) :
    loop mk true fuel (s ++ 0 :: r) fs [] 1 = coda_mkpath mk true (s ++ 0 :: r) fs := by
  match s, hs with
  | a :: v, _ =>
    have := fun fuel hf => loop_eq mk v [a] r fs [] fuel (fun h => h0 (by simp at h; simp [h])) (fun h => h0 (List.mem_cons_of_mem _ h)) hf
    unfold coda_mkpath
    have h1 := this fuel (by simp at hf; omega)
    have h2 := this (((a :: v) ++ 0 :: r).length + 1) (by simp; omega)
    exact h1.trans h2.symm

/-! A concrete file system: files and directories by path; the root and the current directory always exist. -/

def txt (s : String) : List UInt8 := s.toUTF8.toList

inductive Kind where
  | dir | file
  deriving DecidableEq

/-- what stands before the last '/', if there is one -/
def up (p : List UInt8) : List UInt8 := ((p.reverse.dropWhile (· ≠ 47)).drop 1).reverse

/-- mkdir in this file system: ENOENT is 2, ENOTDIR is 20. -/
def fsMkdir : Mkdir (List (List UInt8 × Kind)) := fun fs p =>
  if p = [] then (fs, .error 2)
  else match fs.lookup p with
    | some _ => (fs, .eexist)
    | none =>
      if up p = [] then ((p, .dir) :: fs, .made)
      else match fs.lookup (up p) with
        | some .dir => ((p, .dir) :: fs, .made)
        | some .file => (fs, .error 20)
        | none => (fs, .error 2)

example : coda_mkpath fsMkdir true (txt "/var/log/x.log" ++ [0]) [(txt "/var", .dir)] =
    .ok ⟨0, txt "/var/log/x.log" ++ [0], [(txt "/var/log", .dir), (txt "/var", .dir)], [txt "/var", txt "/var/log"]⟩ := by decide +kernel

/-- the failure in the middle: nothing is tried after it -/
example : coda_mkpath fsMkdir true (txt "a/b/c/d" ++ [0]) [(txt "a", .file)] =
    .ok ⟨-1, txt "a/b/c/d" ++ [0], [(txt "a", .file)], [txt "a", txt "a/b"]⟩ := by decide +kernel

/-- the hypotheses of `C67_exist` hold of this file system -/
example : (∀ fs p, (fsMkdir fs p).2 = .made → ((fsMkdir fs p).1.lookup p).isSome) ∧
    (∀ fs p, (fsMkdir fs p).2 = .eexist → ((fsMkdir fs p).1.lookup p).isSome) ∧
    (∀ fs p q, (fs.lookup q).isSome → ((fsMkdir fs p).1.lookup q).isSome) := by
  have add : ∀ (fs : List (List UInt8 × Kind)) (p q : List UInt8) (k : Kind), (fs.lookup q).isSome → (((p, k) :: fs).lookup q).isSome := by
    intro fs p q k h
    rw [List.lookup_cons]
    split <;> simp_all
  have self : ∀ (fs : List (List UInt8 × Kind)) (p : List UInt8) (k : Kind), (((p, k) :: fs).lookup p).isSome := by
    intro fs p k; simp [List.lookup_cons]
  refine ⟨?_, ?_, ?_⟩
  · intro fs p h
    unfold fsMkdir at h ⊢
    repeat' split at h
    all_goals simp_all
  · intro fs p h
    unfold fsMkdir at h ⊢
    repeat' split at h
    all_goals simp_all
  · intro fs p q h
    unfold fsMkdir
    repeat' split
    all_goals first | exact h | exact add _ _ _ _ h

/-- C67 is false for the empty path: coda_mkpath reads past its terminator; if the string is all there is in memory, this is undefined. -/
theorem C67_refuted (mk : Mkdir σ) (fs : σ) : coda_mkpath mk true [0] fs = .ub := rfl

/-- … and otherwise it calls mkdir for garbage behind the string. -/
theorem C67_empty_garbage :
    coda_mkpath fsMkdir true (0 :: txt "x/y" ++ [0]) [] = .ok ⟨-1, 0 :: txt "x/y" ++ [0], [], [[]]⟩ := by decide +kernel

/-- A result of 0 does not mean that the directories can be used: an ordinary file in the place of the last one is taken for it. -/
theorem C67_file_in_place :
    coda_mkpath fsMkdir true (txt "a/b" ++ [0]) [(txt "a", .file)] = .ok ⟨0, txt "a/b" ++ [0], [(txt "a", .file)], [txt "a"]⟩ := by decide +kernel

/-- C87, partial: coda_mkpath works for a path in read-only memory exactly as in writable memory if the path has no directories. -/
theorem C87_readonly_partial (mk : Mkdir σ) (s r : List UInt8) (fs : σ) (hs : s ≠ []) (h0 : 0 ∉ s) (hp : parents s = []) :
    coda_mkpath mk false (s ++ 0 :: r) fs = .ok ⟨0, s ++ 0 :: r, fs, []⟩ := by
  match s, hs with
  | a :: v, _ =>
    rw [parents_eq] at hp
    have key : ∀ (v u : List UInt8) (fuel : Nat), later u v = [] → 0 ∉ v → v.length < fuel →
        loop mk false fuel (u ++ v ++ 0 :: r) fs [] u.length = .ok ⟨0, u ++ v ++ 0 :: r, fs, []⟩ := by
      intro v
      induction v with
      | nil =>
        intro u fuel _ _ hf
        obtain ⟨f, rfl⟩ : ∃ f, fuel = f + 1 := ⟨fuel - 1, by simp at hf; omega⟩
        unfold loop
        rw [List.append_nil, rd_append_zero]
        simp
      | cons c v ih =>
        intro u fuel hl hv hf
        obtain ⟨f, rfl⟩ : ∃ f, fuel = f + 1 := ⟨fuel - 1, by simp at hf; omega⟩
        have hc : c ≠ 0 := fun e => hv (by simp [e])
        unfold later at hl
        by_cases h47 : c = 47
        · simp [h47] at hl
        · rw [if_neg h47] at hl
          have hrd : rd (u ++ (c :: v) ++ 0 :: r) u.length = .ok c := by
            rw [List.append_assoc, rd_append_zero]; rfl
          unfold loop
          rw [hrd]
          simp only [Res.ok_bind]
          rw [if_neg hc, if_pos h47]
          have := ih (u ++ [c]) f hl (fun hm => hv (List.mem_cons_of_mem _ hm)) (by simp at hf; omega)
          simpa using this
    have := key v [a] (((a :: v) ++ 0 :: r).length + 1) hp (fun h => h0 (List.mem_cons_of_mem _ h)) (by simp; omega)
    unfold coda_mkpath
    simpa using this

/-- C87 is false: for every path with a directory in it, a path in read-only memory (a string literal, which `const char*` in the
declaration of log_create allows) is undefined behaviour. -/
theorem C87_refuted (mk : Mkdir σ) (s r : List UInt8) (fs : σ) (hs : s ≠ []) (h0 : 0 ∉ s) (hp : parents s ≠ []) :
    coda_mkpath mk false (s ++ 0 :: r) fs = .ub := by
  match s, hs with
  | a :: v, _ =>
    rw [parents_eq] at hp
    have key : ∀ (v u : List UInt8) (fuel : Nat), later u v ≠ [] → 0 ∉ v → v.length < fuel →
        loop mk false fuel (u ++ v ++ 0 :: r) fs [] u.length = .ub := by
      intro v
      induction v with
      | nil => intro u fuel hl; exact absurd rfl hl
      | cons c v ih =>
        intro u fuel hl hv hf
        obtain ⟨f, rfl⟩ : ∃ f, fuel = f + 1 := ⟨fuel - 1, by simp at hf; omega⟩
        have hc : c ≠ 0 := fun e => hv (by simp [e])
        have hrd : rd (u ++ (c :: v) ++ 0 :: r) u.length = .ok c := by
          rw [List.append_assoc, rd_append_zero]; rfl
        unfold loop
        rw [hrd]
        simp only [Res.ok_bind]
        rw [if_neg hc]
        by_cases h47 : c = 47
        · rw [if_neg (by simp [h47])]
          rfl
        · rw [if_pos h47]
          unfold later at hl
          rw [if_neg h47] at hl
          have := ih (u ++ [c]) f hl (fun hm => hv (List.mem_cons_of_mem _ hm)) (by simp at hf; omega)
          simpa using this
    have := key v [a] (((a :: v) ++ 0 :: r).length + 1) hp (fun h => h0 (List.mem_cons_of_mem _ h)) (by simp; omega)
    unfold coda_mkpath
    simpa using this

example : parents (txt "/x.log") = [] ∧ parents (txt "log/x.log") ≠ [] := by decide +kernel

end Verif.Mkpath
