/-
  Properties of coda_url: C77, C78, C79, C80, C97, C98.
-/
import Verif.UrlParser.Copy

set_option linter.unusedSimpArgs false
set_option linter.unusedVariables false

namespace Verif.UrlParser
open Verif.Str Verif.UrlParser.Spec Verif.Str.Spec

/-- ASCII text. -/
def bytes (s : String) : List UInt8 := s.toList.map (fun c => UInt8.ofNat c.toNat)

/-- What malloc returns in the examples. -/
def junk (n : Nat) : Buf := List.replicate n 88

/-- URLs that can be created, each from bytes for which `N` holds, by create_absolute, and by create_relative with a created URL as parent;
and their copies (C80: same text and domain, in another block). -/
inductive Created (N : List UInt8 → Prop) : Url → Prop
  | abs (fresh : Nat → Buf) (fl : Flags) (v rest : Buf) (y : Url) : (∀ n, (fresh n).length = n) → Usable 8 v rest → N v →
      create_absolute fresh .null (some (v ++ rest)) v.length fl = .ok (0, y) → Created N y
  | rel (fresh : Nat → Buf) (fl : Flags) (v rest : Buf) (p y : Url) : (∀ n, (fresh n).length = n) → Created N p → Usable 11 v rest → N v →
      create_relative fresh .null (some (v ++ rest)) v.length fl p = .ok (0, y) → Created N y
  | copy (y y' : Url) (t d : Buf) : Created N y → Holds y t d → Holds y' t d → Created N y'

/-- Arguments without a NUL. -/
def NoNul (v : List UInt8) : Prop := 0 ∉ v

/-! ### What created objects are like -/

/-- Scheme and host are recognised (1), or the scheme is "HTTPS://", "httpS://", ... (2). -/
def Shape (y : Url) (t d : List UInt8) : Prop :=
  Holds y t d ∧ 0 ∉ d ∧
    ((∃ s h p q, GoodUrl t s h p q ∧ s[4]? ≠ some 83 ∧ DomainOf h d) ∨
     (∃ pre path query, t = pre ++ path ++ query ∧ Parent y pre path query d ∧ pre[4]? = some 83))

theorem holds_inj {y : Url} {t d t' d' : Buf} (h : Holds y t d) (h' : Holds y t' d') : t = t' ∧ d = d' := by
  obtain ⟨a1, -, a3, z1, a2⟩ := h
  obtain ⟨b1, -, b3, z2, b2⟩ := h'
  rw [a2] at b2
  simp only [Option.some.injEq] at b2
  rw [List.append_assoc, List.append_assoc] at b2
  obtain ⟨e1, e2⟩ := List.append_inj b2 (by rw [← a1, ← b1])
  simp only [List.cons_append, List.cons.injEq, true_and] at e2
  exact ⟨e1, (List.append_inj e2 (by rw [← a3, ← b3])).1⟩

theorem shape_of_abs (f : Bool) (v : Buf) (y : Url) (d : Buf) (h1 : Holds y (absText f v) d) (h2 : DomainOf (host v) d) : Shape y (absText f v) d := by
  have hd := dom_no_zero (host v) d (host_char v) h2
  refine ⟨h1, hd, ?_⟩
  by_cases hS : (scheme v)[4]? = some 83
  · right
    have hp := parent_of_bad y _ _ _ _ _ d (abs_parts f v) hS h1 hd
    have hl : 7 ≤ (scheme v).length := by
      rcases scheme_form v with h | h <;> (have := congrArg List.length h; simp [http, https] at this; omega)
    have ht := hp.1
    refine ⟨_, _, _, ?_, hp, by rw [List.getElem?_take_of_lt (by omega)]; exact hS⟩
    exact (holds_inj h1 ht).1
  · left
    exact ⟨_, _, _, _, abs_parts f v, hS, h2⟩

theorem shape_parent {y : Url} {t d : Buf} (h : Shape y t d) : ∃ pre path query, t = pre ++ path ++ query ∧ Parent y pre path query d := by
  obtain ⟨h1, h2, h3⟩ := h
  rcases h3 with ⟨s, h, p, q, hg, hS, -⟩ | ⟨pre, path, query, ht, hp, -⟩
  · exact ⟨_, _, _, by rw [hg.1], parent_of_good y _ s h p q d hg hS h1 h2⟩
  · exact ⟨_, _, _, ht, hp⟩

/-- What is created from a good URL. -/
theorem good_rel (f : Bool) {t s h p q : Buf} (hg : GoodUrl t s h p q) (v : Buf) (hv : v.head? ≠ some 35) (hne : v ≠ []) :
    GoodUrl (relText f (s ++ h) p v) s h (normPath f ((merge p v).takeWhile (· != 63))) ((merge p v).dropWhile (· != 63)) := by
  obtain ⟨hu, hs, hh, hp, hp63, hq, h35⟩ := hg
  obtain ⟨R, hR⟩ := normal_head p hp
  obtain ⟨Q, hQ⟩ := merge_cons p v R hR hv hne
  have htw : (merge p v).takeWhile (· != 63) = 47 :: Q.takeWhile (· != 63) := by rw [hQ]; simp [List.takeWhile_cons]
  have hm35 : 35 ∉ merge p v := by
    intro hm
    rcases mem_merge p v _ hm with h | h
    · exact h35 (by rw [hu]; simp [h])
    · exact h.2 rfl
  refine ⟨by simp [relText], hs, hh, ?_, ?_, cut_query _, ?_⟩
  · rw [htw]; exact normPath_normal _ _
  · rw [htw]; intro h
    rcases mem_normPath _ _ _ h with h | h
    · revert h; decide
    · exact (cut_first 63 Q).1 h
  · unfold relText
    simp only [List.mem_append, not_or]
    refine ⟨⟨⟨(scheme_clean s hs).1, not_host h hh 35 (by decide)⟩, ?_⟩, ?_⟩
    · rw [htw]; intro h
      rcases mem_normPath _ _ _ h with h | h
      · revert h; decide
      · exact hm35 (by rw [hQ]; simp [mem_takeWhile _ _ _ h])
    · intro h
      exact hm35 ((List.dropWhile_sublist _).subset h)

theorem rel_no_zero (f : Bool) (pre path query v : Buf) (h0 : 0 ∉ pre ++ path ++ query) (hR : ∃ R, path = 47 :: R) (hv : v.head? ≠ some 35) (hne : v ≠ [])
    (hv0 : 0 ∉ v) : 0 ∉ relText f pre path v := by
  obtain ⟨R, hR⟩ := hR
  obtain ⟨Q, hQ⟩ := merge_cons path v R hR hv hne
  have htw : (merge path v).takeWhile (· != 63) = 47 :: Q.takeWhile (· != 63) := by rw [hQ]; simp [List.takeWhile_cons]
  simp only [List.mem_append, not_or] at h0
  have hm : 0 ∉ merge path v := by
    intro hm
    rcases mem_merge path v _ hm with h | h
    · exact h0.1.2 h
    · exact hv0 h.1
  unfold relText
  simp only [List.mem_append, not_or]
  refine ⟨⟨h0.1.1, ?_⟩, fun h => hm ((List.dropWhile_sublist _).subset h)⟩
  rw [htw]; intro h
  rcases mem_normPath _ _ _ h with h | h
  · revert h; decide
  · exact hm (by rw [hQ]; simp [mem_takeWhile _ _ _ h])

/-- Everything about create_relative with a parent of this kind. -/
theorem relative_shape (fresh : Nat → Buf) (hf : ∀ n, (fresh n).length = n) (fl : Flags) (v rest : Buf) (hu : Usable 11 v rest) (y : Url) (t d : Buf)
    (hy : Shape y t d) :
    (create_relative fresh .null (some (v ++ rest)) v.length fl y = .ok (-1, .null)) ∨
    (∃ r t' d', create_relative fresh .null (some (v ++ rest)) v.length fl y = .ok (0, r) ∧ Shape r t' d' ∧ (0 ∉ t → 0 ∉ v → 0 ∉ t') ∧
      (fl.subdomain = true → d'.map lower = d.map lower)) := by
  have hne := hu.1
  obtain ⟨pre, path, query, ht, hp⟩ := shape_parent hy
  obtain ⟨c1, c2, c3⟩ := create_relative_spec fresh hf fl v rest hu y pre path query d hp
  by_cases hs : startsI http v = true ∨ startsI https v = true
  · obtain ⟨r, d', h1, h2, h3⟩ := c1 hs
    rw [h3]
    by_cases hd : fl.subdomain = false ∨ d'.map lower = d.map lower
    · right
      rw [if_pos hd]
      refine ⟨r, _, d', rfl, shape_of_abs _ v r d' h1 h2, fun _ hv0 => abs_no_zero _ v hv0, fun hsub => ?_⟩
      rcases hd with h | h
      · rw [hsub] at h; cases h
      · exact h
    · left; rw [if_neg hd]
  · by_cases hr : startsI mailtoText (v ++ rest) = true ∨ startsI javascriptText (v ++ rest) = true ∨ v.head? = some 35
    · left; exact c2 hs hr
    · right
      have hv35 : v.head? ≠ some 35 := fun h => hr (Or.inr (Or.inr h))
      have hd0 := hy.2.1
      rcases hy.2.2 with ⟨s, h, p, q, hg, hS, hD⟩ | ⟨pre', path', query', ht', hp', hS⟩
      · have hp2 := parent_of_good y t s h p q d hg hS hy.1 hd0
        obtain ⟨r, e1, e2⟩ := (create_relative_spec fresh hf fl v rest hu y _ _ _ d hp2).2.2 hs hr
        refine ⟨r, _, d, e1, ⟨e2, hd0, Or.inl ⟨s, h, _, _, good_rel fl.fetchable hg v hv35 hne, hS, hD⟩⟩, fun ht0 hv0 => ?_, fun _ => rfl⟩
        rw [hg.1] at ht0
        exact rel_no_zero _ _ p q v ht0 (normal_head p hg.2.2.2.1) hv35 hne hv0
      · obtain ⟨r, e1, e2⟩ := (create_relative_spec fresh hf fl v rest hu y _ _ _ d hp').2.2 hs hr
        obtain ⟨path'', query'', hpr⟩ := rel_holds_parent fl.fetchable y r pre' path' query' d v hp' hv35 hne e2
        refine ⟨r, pre' ++ path'' ++ query'', d, e1, ⟨hpr.1, hd0, Or.inr ⟨pre', path'', query'', rfl, hpr, hS⟩⟩, fun ht0 hv0 => ?_, fun _ => rfl⟩
        have h6 := rel_no_zero fl.fetchable pre' path' query' v (by rw [← ht']; exact ht0) hp'.2.1 hv35 hne hv0
        have h7 := (holds_inj hpr.1 e2).1
        rw [h7]; exact h6

theorem created_shape {N : List UInt8 → Prop} {y : Url} (h : Created N y) : ∃ t d, Shape y t d ∧ ((∀ v, N v → 0 ∉ v) → 0 ∉ t) := by
  induction h with
  | abs fresh fl v rest y hf hu hN hc =>
    obtain ⟨y', d, h1, h2, h3⟩ := create_absolute_spec fresh hf fl v rest hu
    rw [h1] at hc
    cases hc
    exact ⟨_, d, shape_of_abs _ v _ d h2 h3, fun h => abs_no_zero _ v (h v hN)⟩
  | rel fresh fl v rest p y hf hp hu hN hc ih =>
    obtain ⟨t, d, hs, h0⟩ := ih
    rcases relative_shape fresh hf fl v rest hu p t d hs with h | ⟨r, t', d', h1, h2, h3, -⟩
    · rw [h] at hc; cases hc
    · rw [h1] at hc
      cases hc
      exact ⟨t', d', h2, fun h => h3 (h0 h) (h v hN)⟩
  | copy y y' t d hy h1 h2 ih =>
    obtain ⟨t', d', hs, h0⟩ := ih
    obtain ⟨rfl, rfl⟩ := holds_inj h1 hs.1
    refine ⟨t, d, ⟨h2, hs.2.1, ?_⟩, h0⟩
    rcases hs.2.2 with h | ⟨pre, path, query, ht, hp, hS⟩
    · exact Or.inl h
    · refine Or.inr ⟨pre, path, query, ht, ⟨?_, hp.2⟩, hS⟩
      rw [← ht]; exact h2

theorem shape_ne_nil {y : Url} {t d : Buf} (h : Shape y t d) : t ≠ [] := by
  rcases h.2.2 with ⟨s, h, p, q, hg, -⟩ | ⟨pre, path, query, ht, hp, -⟩
  · exact good_ne_nil hg
  · obtain ⟨R, hR⟩ := hp.2.1
    rw [ht, hR]; simp

/-! ### C77 -/

/-- C77 (part), create_absolute.  Missing: texts with a NUL, and objects of fewer than eight bytes (C78).  Hosts with empty labels have a domain of up to three. -/
theorem C77_format_partial (fresh : Nat → Buf) (hf : ∀ n, (fresh n).length = n) (fl : Flags) (v rest : Buf) (hu : Usable 8 v rest) (h0 : 0 ∉ v) :
    ∃ y s h q d, create_absolute fresh .null (some (v ++ rest)) v.length fl = .ok (0, y) ∧
      -- the text: scheme, host, slash; no anchor
      get_url y = .ok (s ++ h ++ 47 :: q) ∧ get_url_len y = (s ++ h ++ 47 :: q).length ∧
      (s = v.take s.length ∨ s = http) ∧ (s.map lower = http ∨ s.map lower = https) ∧ (∀ c ∈ h, hostChar c = true ∧ lower c = c) ∧ 35 ∉ s ++ h ++ 47 :: q ∧
      -- all of it
      s ++ h ++ 47 :: q = absText fl.fetchable v ∧ h = host v ∧
      -- the domain: a suffix of the host, the last two labels if there are no empty ones
      get_domain y = .ok d ∧ get_domain_len y = d.length ∧ DomainOf h d := by
  obtain ⟨y, d, h1, h2, h3⟩ := create_absolute_spec fresh hf fl v rest hu
  have hg := abs_parts fl.fetchable v
  obtain ⟨p', hp'⟩ := normal_head _ hg.2.2.2.1
  have ht : absText fl.fetchable v = scheme v ++ host v ++ 47 :: (p' ++ query v) := by rw [hg.1, hp']; simp
  have hne := good_ne_nil hg
  have hz := abs_no_zero fl.fetchable v h0
  have hd0 := dom_no_zero (host v) d (host_char v) h3
  have e1 := holds_url y _ d h2 hz hne
  have e2 := holds_dom y _ d h2 hd0 hne
  refine ⟨y, scheme v, host v, p' ++ query v, d, h1, ?_, ?_, ?_, hg.2.1, host_char v, ?_, ht.symm, rfl, e2.1, e2.2, h3⟩
  · rw [← ht]; exact e1.1
  · rw [← ht]; exact e1.2
  · unfold scheme
    split
    · left; rw [List.length_take]
      apply List.take_eq_take_iff.mpr; omega
    · split
      · left; rw [List.length_take]
        apply List.take_eq_take_iff.mpr; omega
      · right; rfl
  · rw [← ht]; exact hg.2.2.2.2.2.2

/-- C77, hosts without empty labels: the domain has at most two labels. -/
theorem C77_labels (h d : List UInt8) (hd : DomainOf h d) (hne : ∀ i, ¬ Occurs [46, 46] h i) : d = lastTwo h := by
  obtain ⟨a, -, -, -, h4⟩ := hd
  exact h4 hne

example : (match create_absolute junk .null (some (bytes "hTTps://..WWW.Host.Com/a/../b?x#y" ++ [0])) 33 ⟨false, false⟩ with
    | .ok (r, y) => decide (r = 0) && decide (get_url y = .ok (bytes "hTTps://www.host.com/b?x")) && decide (get_domain y = .ok (bytes "host.com"))
    | .ub => false) = true := by decide +kernel

example : Usable 8 (bytes "hTTps://..WWW.Host.Com/a/../b?x#y") [0] ∧ 0 ∉ bytes "hTTps://..WWW.Host.Com/a/../b?x#y" := by
  unfold Usable; decide +kernel

/-- C77 does not hold as stated: with two dots in the host the domain has three labels, and with a NUL the text is shorter than get_url_len says. -/
theorem C77_refuted :
    (match create_absolute junk .null (some (bytes "http://x.a..b/" ++ [0])) 14 ⟨false, false⟩ with
      | .ok (_, y) => decide (get_domain y = .ok (bytes "a..b")) && decide ((split 46 (bytes "a..b")).length = 3)
      | .ub => false) = true ∧
    (match create_absolute junk .null (some (bytes "http://x/a" ++ [0] ++ bytes "b" ++ [0])) 12 ⟨false, false⟩ with
      | .ok (_, y) => decide (get_url y = .ok (bytes "http://x/a")) && decide (get_url_len y = 12)
      | .ub => false) = true := by
  decide +kernel

/-! ### C78 -/

/-- C78 (part), create_absolute.  Missing: objects of fewer than eight bytes, and lengths that cut a scheme in two. -/
theorem C78_abs_partial (fresh : Nat → Buf) (hf : ∀ n, (fresh n).length = n) (fl : Flags) (x : Url) (v rest : Buf) (hu : Usable 8 v rest) :
    create_absolute fresh x (some (v ++ rest)) v.length fl ≠ .ub := by
  obtain ⟨y, d, h1, -⟩ := create_absolute_spec fresh hf fl v rest hu
  by_cases hx : x.empty = true
  · have : create_absolute fresh x (some (v ++ rest)) v.length fl = create_absolute fresh .null (some (v ++ rest)) v.length fl := by
      simp only [create_absolute, hx]; rfl
    rw [this, h1]; intro h; cases h
  · simp [create_absolute, hx]

/-- C78 (part), create_relative with any parent that can be created.  Missing: objects of fewer than eleven bytes, and lengths that cut a scheme in two. -/
theorem C78_rel_partial (fresh : Nat → Buf) (hf : ∀ n, (fresh n).length = n) (fl : Flags) (x : Url) (v rest : Buf) (hu : Usable 11 v rest) (y : Url)
    (hy : Created (fun _ => True) y) :
    create_relative fresh x (some (v ++ rest)) v.length fl y ≠ .ub := by
  obtain ⟨t, d, hs, -⟩ := created_shape hy
  by_cases hx : x.empty = true
  · have : create_relative fresh x (some (v ++ rest)) v.length fl y = create_relative fresh .null (some (v ++ rest)) v.length fl y := by
      simp only [create_relative, hx]; rfl
    rw [this]
    rcases relative_shape fresh hf fl v rest hu y t d hs with h | ⟨r, t', d', h1, -⟩
    · rw [h]; intro h; cases h
    · rw [h1]; intro h; cases h
  · simp [create_relative, hx]

/-- C78: NULL, nothing, or an empty parent: nothing is read. -/
theorem C78_nothing (fresh : Nat → Buf) (fl : Flags) (x : Url) (u : Option Buf) (sz : Nat) (y : Url) :
    (u = none ∨ sz = 0 → create_absolute fresh x u sz fl = .ok (-1, .null)) ∧
    (u = none ∨ sz = 0 ∨ y.len = 0 → create_relative fresh x u sz fl y = .ok (-1, .null)) := by
  constructor
  · intro h
    cases u with
    | none => rfl
    | some u =>
      have : sz = 0 := by simpa using h
      simp [create_absolute, this]
  · intro h
    cases u with
    | none => rfl
    | some u =>
      have h : sz = 0 ∨ y.len = 0 := by simpa using h
      rcases h with h | h <;> simp [create_relative, h, Url.empty]

/-- A URL with this text and domain, for the examples. -/
def exampleUrl (t d : String) : Url :=
  ⟨some (bytes t ++ 0 :: bytes d ++ [0]), (bytes t).length, (bytes t).length + 1, (bytes d).length⟩

theorem example_created (s d : String) (hu : Usable 8 (bytes s) [0]) (h0 : 0 ∉ bytes s) (hs : absText false (bytes s) = bytes s)
    (hd : (match create_absolute junk .null (some (bytes s ++ [0])) (bytes s).length ⟨false, false⟩ with
      | .ok (_, y) => decide (get_domain y = .ok (bytes d))
      | .ub => false) = true) : Created NoNul (exampleUrl s d) := by
  obtain ⟨y, d', h1, h2, h3⟩ := create_absolute_spec junk (by simp [junk]) ⟨false, false⟩ (bytes s) [0] hu
  have hc := Created.abs (N := NoNul) junk _ _ [0] y (by simp [junk]) hu h0 h1
  rw [h1] at hd
  simp only [decide_eq_true_eq] at hd
  have e := (holds_dom y _ d' h2 (dom_no_zero _ _ (host_char _) h3) (good_ne_nil (abs_parts _ _))).1
  rw [hd] at e
  cases e
  rw [show (⟨false, false⟩ : Flags).fetchable = false from rfl, hs] at h2
  exact Created.copy y _ _ _ hc h2 ⟨rfl, rfl, rfl, [], rfl⟩

theorem example1_created : Created NoNul (exampleUrl "http://www.host.com/d/e" "host.com") :=
  example_created _ _ (by unfold Usable; decide +kernel) (by decide +kernel) (by decide +kernel) (by decide +kernel)

theorem example2_created : Created NoNul (exampleUrl "HTTPS://www.host.com/d/e" "host.com") :=
  example_created _ _ (by unfold Usable; decide +kernel) (by decide +kernel) (by decide +kernel) (by decide +kernel)

theorem ub_of {α : Type} (r : Res α) (h : (match r with | .ub => true | .ok _ => false) = true) : r = .ub := by
  cases r with
  | ub => rfl
  | ok _ => cases h

/-- C78 does not hold as stated: coda_strxstr looks at eight bytes whatever `sz` is, even behind the NUL of a C string, and create_relative at eleven; a length that
ends inside "http://" makes memmove run over the block. -/
theorem C78_refuted :
    create_absolute junk .null (some (bytes "a")) 1 ⟨false, false⟩ = .ub ∧
    create_absolute junk .null (some (bytes "a.com" ++ [0])) 5 ⟨false, false⟩ = .ub ∧
    create_absolute junk .null (some (bytes "http://x.com/" ++ [0])) 3 ⟨false, false⟩ = .ub ∧
    create_relative junk .null (some (bytes "/index" ++ [0])) 6 ⟨false, false⟩ (exampleUrl "http://www.host.com/d/e" "host.com") = .ub := by
  exact ⟨ub_of _ (by decide +kernel), ub_of _ (by decide +kernel), ub_of _ (by decide +kernel), ub_of _ (by decide +kernel)⟩

example : (match create_relative junk .null (some (bytes "../f/./index" ++ [0])) 12 ⟨false, false⟩ (exampleUrl "https://www.host.com/d/e/?x" "host.com") with
    | .ok (r, y) => decide (r = 0) && decide (get_url y = .ok (bytes "https://www.host.com/d/f/index"))
    | .ub => false) = true := by decide +kernel

/-! ### C79 -/

/-- "/./", "/../" and "//" do not occur. -/
def Clean (p : List UInt8) : Prop :=
  (∀ i, ¬ Occurs (bytes "/./") p i) ∧ (∀ i, ¬ Occurs (bytes "/../") p i) ∧ (∀ i, ¬ Occurs (bytes "//") p i)

theorem clean_of_normal (p : List UInt8) (h : NormalPath p) : Clean p := by
  refine ⟨fun i => ?_, fun i => ?_, fun i => ?_⟩
  · exact normal_no [46] (by decide) (Or.inr (Or.inl rfl)) p h i
  · exact normal_no [46, 46] (by decide) (Or.inr (Or.inr rfl)) p h i
  · exact normal_no [] (by decide) (Or.inl rfl) p h i

/-- C79, create_absolute: the text is scheme, host, path and query; the path is normal, and scheme and host are those of the argument: ".." has not removed any of them. -/
theorem C79_abs (fresh : Nat → Buf) (hf : ∀ n, (fresh n).length = n) (fl : Flags) (v rest : Buf) (hu : Usable 8 v rest) (h0 : 0 ∉ v) :
    ∃ y p q, create_absolute fresh .null (some (v ++ rest)) v.length fl = .ok (0, y) ∧
      get_url y = .ok (scheme v ++ host v ++ p ++ q) ∧ 63 ∉ p ∧ (q = [] ∨ q.head? = some 63) ∧ p.head? = some 47 ∧ Clean p ∧
      p = normPath fl.fetchable (path v) ∧ q = query v := by
  obtain ⟨y, d, h1, h2, h3⟩ := create_absolute_spec fresh hf fl v rest hu
  have hg := abs_parts fl.fetchable v
  have e1 := holds_url y _ d h2 (abs_no_zero fl.fetchable v h0) (good_ne_nil hg)
  obtain ⟨p', hp'⟩ := normal_head _ hg.2.2.2.1
  refine ⟨y, _, _, h1, e1.1, hg.2.2.2.2.1, ?_, by rw [hp']; rfl, clean_of_normal _ hg.2.2.2.1, rfl, rfl⟩
  rcases hg.2.2.2.2.2.1 with h | ⟨q', h⟩
  · exact Or.inl h
  · right; rw [h]; rfl

example : (match create_absolute junk .null (some (bytes "h.com/../a//b/./../c/..?/../#y" ++ [0])) 30 ⟨true, false⟩ with
    | .ok (r, y) => decide (r = 0) && decide (get_url y = .ok (bytes "http://h.com/a/?/../"))
    | .ub => false) = true := by decide +kernel

/-- Two ways to take a good URL apart give the same scheme and host. -/
theorem good_unique {t s h p q s' h' p' q' : Buf} (hg : GoodUrl t s h p q) (hg' : GoodUrl t s' h' p' q') : s = s' ∧ h = h' ∧ p = p' ∧ q = q' := by
  have key : ∀ {s h p q s' h' p' q' : Buf}, GoodUrl t s h p q → GoodUrl t s' h' p' q' → s.map lower = http → s'.map lower = https → False := by
    intro s h p q s' h' p' q' hg hg' h1 h2
    have e1 : (t.take 5).map lower = http.take 5 := by
      rw [hg.1, List.append_assoc, List.append_assoc, List.take_append_of_le_length (by have := congrArg List.length h1; simp [http] at this; omega), List.map_take, h1]
    have e2 : (t.take 5).map lower = https.take 5 := by
      rw [hg'.1, List.append_assoc, List.append_assoc, List.take_append_of_le_length (by have := congrArg List.length h2; simp [https] at this; omega), List.map_take, h2]
    rw [e1] at e2
    revert e2; decide
  have hs : s.length = s'.length := by
    have l1 := hg.2.1
    have l2 := hg'.2.1
    rcases l1 with l1 | l1 <;> rcases l2 with l2 | l2
    · rw [← List.length_map (f := lower), l1, ← List.length_map (as := s') (f := lower), l2]
    · exact (key hg hg' l1 l2).elim
    · exact (key hg' hg l2 l1).elim
    · rw [← List.length_map (f := lower), l1, ← List.length_map (as := s') (f := lower), l2]
  have e : s ++ (h ++ (p ++ q)) = s' ++ (h' ++ (p' ++ q')) := by
    have := hg.1.symm.trans hg'.1
    simpa using this
  obtain ⟨es, e2⟩ := List.append_inj e hs
  have cutAt : ∀ (c : UInt8) (a b a' b' : Buf), c ∉ a → c ∉ a' → (b = [] ∨ b.head? = some c) → (b' = [] ∨ b'.head? = some c) → a ++ b = a' ++ b' → a = a' ∧ b = b' := by
    intro c a
    induction a with
    | nil =>
      intro b a' b' _ h2 h3 h4 h5
      cases a' with
      | nil => exact ⟨rfl, h5⟩
      | cons x a' =>
        exfalso
        simp only [List.nil_append] at h5
        rw [h5] at h3
        simp at h3
        exact h2 (by simp [h3])
    | cons x a ih =>
      intro b a' b' h1 h2 h3 h4 h5
      cases a' with
      | nil =>
        exfalso
        simp only [List.nil_append] at h5
        rw [← h5] at h4
        simp at h4
        exact h1 (by simp [h4])
      | cons x' a' =>
        simp only [List.cons_append, List.cons.injEq] at h5
        simp only [List.mem_cons, not_or] at h1 h2
        obtain ⟨i1, i2⟩ := ih b a' b' h1.2 h2.2 h3 h4 h5.2
        exact ⟨by rw [h5.1, i1], i2⟩
  obtain ⟨R, hR⟩ := normal_head p hg.2.2.2.1
  obtain ⟨R', hR'⟩ := normal_head p' hg'.2.2.2.1
  obtain ⟨eh, e3⟩ := cutAt 47 h (p ++ q) h' (p' ++ q') (not_host h hg.2.2.1 47 (by decide)) (not_host h' hg'.2.2.1 47 (by decide))
    (by right; rw [hR]; rfl) (by right; rw [hR']; rfl) e2
  have hq : ∀ {q : Buf}, (q = [] ∨ ∃ q', q = 63 :: q') → (q = [] ∨ q.head? = some 63) := by
    rintro q (h | ⟨q', h⟩)
    · exact Or.inl h
    · right; rw [h]; rfl
  obtain ⟨ep, eq⟩ := cutAt 63 p q p' q' hg.2.2.2.2.1 hg'.2.2.2.2.1 (hq hg.2.2.2.2.2.1) (hq hg'.2.2.2.2.2.1) e3
  exact ⟨es, eh, ep, eq⟩

/-- The shape of a created URL whose scheme is not written with an upper-case 'S'. -/
theorem created_good {y : Url} (hy : Created NoNul y) (t : Buf) (ht : get_url y = .ok t) (hS : t[4]? ≠ some 83) :
    ∃ s h p q d, GoodUrl t s h p q ∧ s[4]? ≠ some 83 ∧ DomainOf h d ∧ Shape y t d ∧ 0 ∉ t := by
  obtain ⟨t', d, hs, h0⟩ := created_shape hy
  have h0' := h0 (fun v hv => hv)
  have e := holds_url y t' d hs.1 h0' (shape_ne_nil hs)
  rw [ht] at e
  have et : t = t' := by have := e.1; cases this; rfl
  subst et
  rcases hs.2.2 with ⟨s, h, p, q, hg, hS', hD⟩ | ⟨pre, path, query, ht', hp, hS'⟩
  · exact ⟨s, h, p, q, d, hg, hS', hD, hs, h0'⟩
  · exfalso
    apply hS
    obtain ⟨k, hk, hk2, -⟩ := hp.2.2.2.2.2.2
    have : 7 ≤ pre.length := by
      rw [hk] at hk2; split at hk2 <;> omega
    rw [ht', List.append_assoc, List.getElem?_append_left (by omega)]
    exact hS'

/-- C79 (part), create_relative: the same, for every parent that can be created.  Missing: parents whose scheme is written with an upper-case 'S'. -/
theorem C79_rel_partial (fresh : Nat → Buf) (hf : ∀ n, (fresh n).length = n) (fl : Flags) (v rest : Buf) (hu : Usable 11 v rest) (h0 : 0 ∉ v)
    (y : Url) (hy : Created NoNul y) (t : Buf) (ht : get_url y = .ok t) (hS : t[4]? ≠ some 83) (r : Url)
    (hr : create_relative fresh .null (some (v ++ rest)) v.length fl y = .ok (0, r)) :
    ∃ s h p q, get_url r = .ok (s ++ h ++ p ++ q) ∧ (s.map lower = http ∨ s.map lower = https) ∧ (∀ c ∈ h, hostChar c = true ∧ lower c = c) ∧
      63 ∉ p ∧ (q = [] ∨ q.head? = some 63) ∧ p.head? = some 47 ∧ Clean p ∧
      -- scheme and host are those of the argument, or those of the parent
      ((startsI http v = true ∨ startsI https v = true) → s = scheme v ∧ h = host v) ∧
      (¬ (startsI http v = true ∨ startsI https v = true) → ∃ p' q', GoodUrl t s h p' q') := by
  obtain ⟨s, h, p, q, d, hg, hS', hD, hs, ht0⟩ := created_good hy t ht hS
  have hp := parent_of_good y t s h p q d hg hS' hs.1 hs.2.1
  obtain ⟨c1, c2, c3⟩ := create_relative_spec fresh hf fl v rest hu y _ _ _ d hp
  have hq : ∀ {q : Buf}, (q = [] ∨ ∃ q', q = 63 :: q') → (q = [] ∨ q.head? = some 63) := by
    rintro q (h | ⟨q', h⟩)
    · exact Or.inl h
    · right; rw [h]; rfl
  by_cases hsch : startsI http v = true ∨ startsI https v = true
  · obtain ⟨r', d', h1, h2, h3⟩ := c1 hsch
    rw [h3] at hr
    split at hr
    · cases hr
      have hg := abs_parts fl.fetchable v
      have e1 := holds_url r _ d' h1 (abs_no_zero fl.fetchable v h0) (good_ne_nil hg)
      obtain ⟨p', hp'⟩ := normal_head _ hg.2.2.2.1
      exact ⟨_, _, _, _, e1.1, hg.2.1, hg.2.2.1, hg.2.2.2.2.1, hq hg.2.2.2.2.2.1, by rw [hp']; rfl, clean_of_normal _ hg.2.2.2.1, fun _ => ⟨rfl, rfl⟩,
        fun hn => absurd hsch hn⟩
    · cases hr
  · by_cases hrej : startsI mailtoText (v ++ rest) = true ∨ startsI javascriptText (v ++ rest) = true ∨ v.head? = some 35
    · rw [c2 hsch hrej] at hr; cases hr
    · have hv35 : v.head? ≠ some 35 := fun h => hrej (Or.inr (Or.inr h))
      obtain ⟨r', e1, e2⟩ := c3 hsch hrej
      rw [e1] at hr; cases hr
      have hg2 := good_rel fl.fetchable hg v hv35 hu.1
      have hz : 0 ∉ relText fl.fetchable (s ++ h) p v :=
        rel_no_zero _ _ p q v (by rw [← hg.1]; exact ht0) (normal_head p hg.2.2.2.1) hv35 hu.1 h0
      have e3 := (holds_url r _ d e2 hz (good_ne_nil hg2)).1
      rw [hg2.1] at e3
      obtain ⟨p', hp'⟩ := normal_head _ hg2.2.2.2.1
      exact ⟨s, h, _, _, e3, hg2.2.1, hg2.2.2.1, hg2.2.2.2.2.1, hq hg2.2.2.2.2.2.1, by rw [hp']; rfl, clean_of_normal _ hg2.2.2.2.1, fun hn => absurd hn hsch,
        fun _ => ⟨p, q, hg⟩⟩

example : get_url (exampleUrl "http://www.host.com/d/e" "host.com") = .ok (bytes "http://www.host.com/d/e") ∧ (bytes "http://www.host.com/d/e")[4]? ≠ some 83 := by
  decide +kernel

example : (match create_relative junk .null (some (bytes "/../../x/./..//y/" ++ [0])) 17 ⟨false, false⟩ (exampleUrl "http://www.host.com/d/e" "host.com") with
    | .ok (r, y) => decide (r = 0) && decide (get_url y = .ok (bytes "http://www.host.com/y"))
    | .ub => false) = true := by decide +kernel

/-- C79 does not hold as stated: with a parent "HTTPS://www.host.com/d/e" the host is taken for a directory and climbed out of. -/
theorem C79_refuted :
    Created NoNul (exampleUrl "HTTPS://www.host.com/d/e" "host.com") ∧
    get_url (exampleUrl "HTTPS://www.host.com/d/e" "host.com") = .ok (bytes "HTTPS://www.host.com/d/e") ∧
    (match create_relative junk .null (some (bytes "../../evil.org/" ++ [0])) 15 ⟨true, false⟩ (exampleUrl "HTTPS://www.host.com/d/e" "host.com") with
      | .ok (r, y) => decide (r = 0) && decide (get_url y = .ok (bytes "HTTPS://evil.org/")) && decide (get_domain y = .ok (bytes "host.com"))
      | .ub => false) = true := by
  exact ⟨example2_created, by decide +kernel, by decide +kernel⟩

/-! ### C97: relative URLs -/

/-- C97 (part): a relative URL is resolved against the path of the parent, the domain is the parent's; mailto:, javascript: and "#..." are rejected.  The text
"mailto:" may also lie partly behind the `sz` bytes.  Missing: parents whose scheme is written with an upper-case 'S'. -/
theorem C97_relative_partial (fresh : Nat → Buf) (hf : ∀ n, (fresh n).length = n) (fl : Flags) (v rest : Buf) (hu : Usable 11 v rest) (h0 : 0 ∉ v)
    (y : Url) (hy : Created NoNul y) (s h p q : Buf) (ht : get_url y = .ok (s ++ h ++ p ++ q)) (hg : GoodUrl (s ++ h ++ p ++ q) s h p q) (hS : s[4]? ≠ some 83)
    (hsch : ¬ (startsI http v = true ∨ startsI https v = true)) :
    ((startsI mailtoText (v ++ rest) = true ∨ startsI javascriptText (v ++ rest) = true ∨ v.head? = some 35) →
      create_relative fresh .null (some (v ++ rest)) v.length fl y = .ok (-1, .null)) ∧
    (¬ (startsI mailtoText (v ++ rest) = true ∨ startsI javascriptText (v ++ rest) = true ∨ v.head? = some 35) →
      ∃ r, create_relative fresh .null (some (v ++ rest)) v.length fl y = .ok (0, r) ∧
        get_url r = .ok (relText fl.fetchable (s ++ h) p v) ∧ get_url_len r = (relText fl.fetchable (s ++ h) p v).length ∧
        get_domain r = get_domain y ∧ get_domain_len r = get_domain_len y) := by
  have hl : 7 ≤ s.length := by
    rcases hg.2.1 with h | h <;> (have := congrArg List.length h; simp [http, https] at this; omega)
  have hS4 : (s ++ h ++ p ++ q)[4]? ≠ some 83 := by
    rw [List.append_assoc, List.append_assoc, List.getElem?_append_left (by omega)]; exact hS
  obtain ⟨s', h', p', q', d, hg', -, hD, hs, ht0⟩ := created_good hy _ ht hS4
  have hp := parent_of_good y _ s h p q d hg hS hs.1 hs.2.1
  obtain ⟨-, c2, c3⟩ := create_relative_spec fresh hf fl v rest hu y _ _ _ d hp
  refine ⟨fun h => c2 hsch h, fun hrej => ?_⟩
  have hv35 : v.head? ≠ some 35 := fun h => hrej (Or.inr (Or.inr h))
  obtain ⟨r, e1, e2⟩ := c3 hsch hrej
  have hz : 0 ∉ relText fl.fetchable (s ++ h) p v := rel_no_zero _ _ p q v ht0 (normal_head p hg.2.2.2.1) hv35 hu.1 h0
  have hg2 := good_rel fl.fetchable hg v hv35 hu.1
  have e3 := holds_url r _ d e2 hz (good_ne_nil hg2)
  have e4 := holds_dom r _ d e2 hs.2.1 (good_ne_nil hg2)
  have e5 := holds_dom y _ d hs.1 hs.2.1 (good_ne_nil hg)
  exact ⟨r, e1, e3.1, e3.2, by rw [e4.1, e5.1], by rw [e4.2, e5.2]⟩

/-- Every parent without the upper-case 'S' can be taken apart like this, in one way. -/
theorem C97_parts (y : Url) (hy : Created NoNul y) (t : Buf) (ht : get_url y = .ok t) (hS : t[4]? ≠ some 83) :
    ∃ s h p q, GoodUrl t s h p q ∧ ∀ s' h' p' q', GoodUrl t s' h' p' q' → s' = s ∧ h' = h ∧ p' = p ∧ q' = q := by
  obtain ⟨s, h, p, q, d, hg, -⟩ := created_good hy t ht hS
  exact ⟨s, h, p, q, hg, fun s' h' p' q' hg' => good_unique hg' hg⟩

example : GoodUrl (bytes "http://www.host.com/d/e?x") (bytes "http://") (bytes "www.host.com") (bytes "/d/e") (bytes "?x") := by
  refine ⟨by decide +kernel, by decide +kernel, by decide +kernel, ⟨[bytes "d", bytes "e"], by decide +kernel, Or.inl (by decide +kernel)⟩, by decide +kernel,
    Or.inr ⟨bytes "x", by decide +kernel⟩, by decide +kernel⟩

example : relText false (bytes "http://www.host.com") (bytes "/d/e") (bytes "../f/g/?y#z") = bytes "http://www.host.com/f/g?y" := by decide +kernel

/-- C97 does not hold as stated: the parent's host is lost if its scheme is "HTTPS://". -/
theorem C97_refuted :
    (match create_relative junk .null (some (bytes "/f/./index" ++ [0, 0])) 10 ⟨true, false⟩ (exampleUrl "HTTPS://www.host.com/d/e" "host.com") with
      | .ok (r, y) => decide (r = 0) && decide (get_url y = .ok (bytes "HTTPS://f/index")) && decide (get_domain y = .ok (bytes "host.com"))
      | .ub => false) = true ∧
    relText true (bytes "HTTPS://www.host.com") (bytes "/d/e") (bytes "/f/./index") = bytes "HTTPS://www.host.com/f/index" := by
  decide +kernel

/-- What happens for every parent whose scheme is written with an upper-case 'S': the host is the first directory of the path against which the
relative URL is resolved, and the scheme keeps one slash. -/
theorem C97_upper_exact (fresh : Nat → Buf) (hf : ∀ n, (fresh n).length = n) (fl : Flags) (v rest : Buf) (hu : Usable 11 v rest) (h0 : 0 ∉ v)
    (y : Url) (hy : Created NoNul y) (s h p q : Buf) (ht : get_url y = .ok (s ++ h ++ p ++ q)) (hg : GoodUrl (s ++ h ++ p ++ q) s h p q) (hS : s[4]? = some 83)
    (hsch : ¬ (startsI http v = true ∨ startsI https v = true))
    (hrej : ¬ (startsI mailtoText (v ++ rest) = true ∨ startsI javascriptText (v ++ rest) = true ∨ v.head? = some 35)) :
    ∃ r, create_relative fresh .null (some (v ++ rest)) v.length fl y = .ok (0, r) ∧
      get_url r = .ok (relText fl.fetchable (s.take 7) (47 :: (h ++ p)) v) ∧ get_domain r = get_domain y := by
  obtain ⟨t', d, hs, h0'⟩ := created_shape hy
  have ht0 := h0' (fun v hv => hv)
  have e := (holds_url y t' d hs.1 ht0 (shape_ne_nil hs)).1
  rw [ht] at e
  have et : s ++ h ++ p ++ q = t' := by cases e; rfl
  subst et
  have hp := parent_of_bad y _ s h p q d hg hS hs.1 hs.2.1
  obtain ⟨r, e1, e2⟩ := (create_relative_spec fresh hf fl v rest hu y _ _ _ d hp).2.2 hsch hrej
  have hv35 : v.head? ≠ some 35 := fun h => hrej (Or.inr (Or.inr h))
  have hz : 0 ∉ relText fl.fetchable (s.take 7) (47 :: (h ++ p)) v := by
    refine rel_no_zero _ _ _ q v ?_ ⟨_, rfl⟩ hv35 hu.1 h0
    rw [(holds_inj hp.1 hs.1).1]; exact ht0
  have hne : relText fl.fetchable (s.take 7) (47 :: (h ++ p)) v ≠ [] := by
    intro hc
    have h1 : s.take 7 = [] := by
      unfold relText at hc
      simp only [List.append_assoc] at hc
      exact (List.append_eq_nil_iff.mp hc).1
    have h2 : (s.take 7)[4]? = some 83 := by rw [List.getElem?_take_of_lt (by omega)]; exact hS
    rw [h1] at h2
    cases h2
  have e3 := (holds_url r _ d e2 hz hne).1
  have e4 := (holds_dom r _ d e2 hs.2.1 hne).1
  have e5 := (holds_dom y _ d hs.1 hs.2.1 (shape_ne_nil hs)).1
  exact ⟨r, e1, e3, by rw [e4, e5]⟩

/-- C97 is false for every parent whose scheme is written with an upper-case 'S' and every argument that begins with a slash: the host is missing in
the URL created, while its domain is still the parent's. -/
theorem C97_refuted_all (fresh : Nat → Buf) (hf : ∀ n, (fresh n).length = n) (fl : Flags) (v rest : Buf) (hu : Usable 11 v rest) (h0 : 0 ∉ v)
    (y : Url) (hy : Created NoNul y) (s h p q : Buf) (ht : get_url y = .ok (s ++ h ++ p ++ q)) (hg : GoodUrl (s ++ h ++ p ++ q) s h p q) (hS : s[4]? = some 83)
    (h47 : v.head? = some 47) :
    ∃ r path, create_relative fresh .null (some (v ++ rest)) v.length fl y = .ok (0, r) ∧ get_url r = .ok (s.take 7 ++ path) ∧
      relText fl.fetchable (s ++ h) p v = s ++ h ++ path ∧ get_url r ≠ .ok (relText fl.fetchable (s ++ h) p v) ∧ get_domain r = get_domain y := by
  obtain ⟨w, rfl⟩ : ∃ w, v = 47 :: w := by
    cases v with
    | nil => cases h47
    | cons c w => simp at h47; exact ⟨w, by rw [h47]⟩
  have hsch : ¬ (startsI http (47 :: w) = true ∨ startsI https (47 :: w) = true) := by
    rintro (h | h) <;> · revert h; simp [startsI, http, https, lower]
  have hrej : ¬ (startsI mailtoText (47 :: w ++ rest) = true ∨ startsI javascriptText (47 :: w ++ rest) = true ∨ (47 :: w : Buf).head? = some 35) := by
    rintro (h | h | h) <;> · revert h; simp [startsI, mailtoText, javascriptText, lower]
  obtain ⟨r, e1, e2, e3⟩ := C97_upper_exact fresh hf fl _ rest hu h0 y hy s h p q ht hg hS hsch hrej
  have hm : ∀ path, merge path (47 :: w) = (47 :: w : Buf).takeWhile (· != 35) := fun path => by simp [merge]
  refine ⟨r, _, e1, by rw [e2]; unfold relText; rw [hm, List.append_assoc], by unfold relText; rw [hm, List.append_assoc], ?_, e3⟩
  rw [e2]
  intro hc
  have hc := congrArg List.length (Res.ok.inj hc)
  unfold relText at hc
  rw [hm, hm] at hc
  have hl : 7 ≤ s.length := by
    rcases hg.2.1 with h | h <;> (have := congrArg List.length h; simp [http, https] at this; omega)
  have hl8 : s.length = 8 := by
    rcases hg.2.1 with h | h
    · exfalso
      have h5 := congrArg (fun l => l[4]?) h
      simp [hS, http] at h5
      revert h5; decide
    · have := congrArg List.length h; simpa [https] using this
  simp only [List.length_append, List.length_take] at hc
  omega

example : GoodUrl (bytes "HTTPS://www.host.com/d/e") (bytes "HTTPS://") (bytes "www.host.com") (bytes "/d/e") [] ∧ (bytes "HTTPS://")[4]? = some 83 := by
  refine ⟨⟨by decide +kernel, by decide +kernel, by decide +kernel, ⟨[bytes "d", bytes "e"], by decide +kernel, Or.inl (by decide +kernel)⟩, by decide +kernel,
    Or.inl rfl, by decide +kernel⟩, by decide +kernel⟩

/-! ### C98: CODA_URL_SUBDOMAIN -/

/-- C98: with CODA_URL_SUBDOMAIN, a URL is created only if its domain is that of the parent, up to case; otherwise the object stays empty. -/
theorem C98_subdomain (fresh : Nat → Buf) (hf : ∀ n, (fresh n).length = n) (fetchable : Bool) (v rest : Buf) (hu : Usable 11 v rest)
    (y : Url) (hy : Created (fun _ => True) y) :
    (create_relative fresh .null (some (v ++ rest)) v.length ⟨fetchable, true⟩ y = .ok (-1, .null)) ∨
    (∃ r d d', create_relative fresh .null (some (v ++ rest)) v.length ⟨fetchable, true⟩ y = .ok (0, r) ∧
      get_domain y = .ok d ∧ get_domain r = .ok d' ∧ d'.map lower = d.map lower) := by
  obtain ⟨t, d, hs, -⟩ := created_shape hy
  rcases relative_shape fresh hf ⟨fetchable, true⟩ v rest hu y t d hs with h | ⟨r, t', d', h1, h2, -, h4⟩
  · exact Or.inl h
  · right
    exact ⟨r, d, d', h1, (holds_dom y t d hs.1 hs.2.1 (shape_ne_nil hs)).1, (holds_dom r t' d' h2.1 h2.2.1 (shape_ne_nil h2)).1, h4 rfl⟩

/-- C98, the other direction: an absolute URL whose host has the domain of the parent is accepted. -/
theorem C98_accepts (fresh : Nat → Buf) (hf : ∀ n, (fresh n).length = n) (fetchable : Bool) (v rest : Buf) (hu : Usable 11 v rest)
    (hsch : startsI http v = true ∨ startsI https v = true) (hdots : ∀ i, ¬ Occurs [46, 46] (host v) i)
    (y : Url) (hy : Created (fun _ => True) y) (d : Buf) (hd : get_domain y = .ok d) :
    (lastTwo (host v) = d.map lower ↔ ∃ r, create_relative fresh .null (some (v ++ rest)) v.length ⟨fetchable, true⟩ y = .ok (0, r)) ∧
    ∃ r, create_relative fresh .null (some (v ++ rest)) v.length ⟨fetchable, false⟩ y = .ok (0, r) := by
  obtain ⟨t, d', hs, -⟩ := created_shape hy
  have e := (holds_dom y t d' hs.1 hs.2.1 (shape_ne_nil hs)).1
  rw [hd] at e
  cases e
  obtain ⟨pre, path, query, ht, hp⟩ := shape_parent hs
  have hlow : ∀ d'', DomainOf (host v) d'' → d''.map lower = lastTwo (host v) := by
    intro d'' h
    obtain ⟨a, h1, -, -, h4⟩ := h
    rw [← h4 hdots]
    have : ∀ c ∈ d'', lower c = c := fun c hc => (host_char v c (by rw [h1]; simp [hc])).2
    calc d''.map lower = d''.map id := List.map_congr_left this
      _ = d'' := List.map_id _
  constructor
  · obtain ⟨r, d'', h1, h2, h3⟩ := (create_relative_spec fresh hf ⟨fetchable, true⟩ v rest hu y pre path query d hp).1 hsch
    rw [h3, hlow d'' h2]
    constructor
    · intro h
      rw [if_pos (Or.inr h)]
      exact ⟨r, rfl⟩
    · rintro ⟨r', hr⟩
      split at hr
      · rename_i h
        rcases h with h | h
        · cases h
        · exact h
      · cases hr
  · obtain ⟨r, d'', h1, h2, h3⟩ := (create_relative_spec fresh hf ⟨fetchable, false⟩ v rest hu y pre path query d hp).1 hsch
    rw [h3, if_pos (Or.inl rfl)]
    exact ⟨r, rfl⟩

example : (match create_relative junk .null (some (bytes "http://OTHER.Host.com/" ++ [0])) 22 ⟨false, true⟩ (exampleUrl "http://www.host.com/d/e" "host.com"),
      create_relative junk .null (some (bytes "http://host.org/x" ++ [0])) 17 ⟨false, true⟩ (exampleUrl "http://www.host.com/d/e" "host.com") with
    | .ok (r, y), .ok (r', y') => decide (r = 0) && decide (get_url y = .ok (bytes "http://other.host.com/")) && decide (r' = -1) && decide (get_url y' = .ok [])
    | _, _ => false) = true := by decide +kernel

/-! ### C80: copies -/

/-- C80 (part): after any sequence of constructions, creations, copies, assignments, failed creations and destructions in which no non-empty object is assigned to itself,
nothing undefined has happened (no block is used or freed after it has been freed), every object that is alive has the text and the domain it should have,
and every block that is not freed belongs to one of them.  Missing: self-assignment. -/
theorem C80_partial (ops : List Op) (σ : Store) (h : VRun NoSelf (fun _ => none) ops σ) :
    ∃ s, run St.init ops = .ok s ∧ (∀ x v, σ x = some v → ∃ u, view s x = .ok u ∧ Shows u v) ∧
      (∀ i b, s.heap[i]? = some (some b) → ∃ x v, σ x = some v ∧ v ≠ ([], []) ∧ ∃ o, s.obj x = some o ∧ o.blk = some i) := by
  obtain ⟨s, hs, hi⟩ := run_inv inv_init h
  refine ⟨s, hs, fun x v hx => ?_, fun i b hb => ?_⟩
  · obtain ⟨o, ho, hown⟩ := hi.live x v hx
    rcases hown with ⟨rfl, rfl⟩ | ⟨hne, i, z, rfl, hh⟩
    · exact ⟨.null, by simp [view, ho, Url.null], Or.inl ⟨rfl, rfl⟩⟩
    · exact ⟨_, by simp [view, ho, bytesOf, hh]; rfl, Or.inr ⟨hne, rfl, rfl, rfl, z, by simp⟩⟩
  · obtain ⟨x, o, ho, hb'⟩ := hi.leak i b hb
    cases hv : σ x with
    | none => rw [hi.dead x hv] at ho; cases ho
    | some v =>
      refine ⟨x, v, hv, ?_, o, ho, hb'⟩
      rintro rfl
      obtain ⟨o', ho', hown⟩ := hi.live x _ hv
      rw [ho] at ho'; cases ho'
      rcases hown with ⟨-, rfl⟩ | ⟨hne, -⟩
      · cases hb'
      · exact hne rfl

/-- C80: when everything has been destroyed, no block is left. -/
theorem C80_no_leak (ops : List Op) (σ : Store) (h : VRun NoSelf (fun _ => none) ops σ) (hall : ∀ x, σ x = none) :
    ∃ s, run St.init ops = .ok s ∧ ∀ (i : Nat) (b : Buf), s.heap[i]? ≠ some (some b) := by
  obtain ⟨s, h1, -, h3⟩ := C80_partial ops σ h
  refine ⟨s, h1, fun i b hb => ?_⟩
  obtain ⟨x, v, hv, -⟩ := h3 i b hb
  rw [hall x] at hv; cases hv

/-- What a program sees of the text of an object. -/
theorem C80_text (u : Url) (v : List UInt8 × List UInt8) (h : Shows u v) (h0 : 0 ∉ v.1) (h1 : 0 ∉ v.2) :
    get_url u = .ok v.1 ∧ get_url_len u = v.1.length ∧ get_domain u = .ok v.2 ∧ get_domain_len u = v.2.length := by
  rcases h with ⟨rfl, rfl⟩ | ⟨hne, h⟩
  · exact ⟨rfl, rfl, rfl, rfl⟩
  · have a := holds_url u _ _ h h0 hne
    have b := holds_dom u _ _ h h1 hne
    exact ⟨a.1, a.2, b.1, b.2⟩

/-- Every URL that can be created can be the argument of `make`. -/
theorem C80_created {N : List UInt8 → Prop} {y : Url} (h : Created N y) : ∃ t d, Holds y t d ∧ t ≠ [] := by
  obtain ⟨t, d, hs, -⟩ := created_shape h
  exact ⟨t, d, hs.1, shape_ne_nil hs⟩

/-- b is copied from a, c assigned from b, a and b destroyed: c still has the text. -/
example : (match run St.init [.new 0, .make 0 (exampleUrl "http://www.host.com/d/e" "host.com"), .copy 1 0, .new 2, .assign 2 1, .destroy 0, .destroy 1] with
    | .ok s => (match view s 2 with
      | .ok u => decide (get_url u = .ok (bytes "http://www.host.com/d/e")) && decide (get_domain u = .ok (bytes "host.com"))
      | .ub => false)
    | .ub => false) = true := by decide +kernel

example (u : Url) (t d : Buf) (hu : Holds u t d) (ht : t ≠ []) :
    ∃ σ, VRun NoSelf (fun _ => none) [.new 0, .make 0 u, .copy 1 0, .new 2, .assign 2 1, .destroy 0, .assign 1 2] σ ∧ σ 1 = some (t, d) ∧ σ 0 = none := by
  refine ⟨_, .cons trivial (.new _ 0 rfl) (.cons trivial (.make _ 0 u t d rfl hu ht) (.cons trivial (.copy _ 1 0 (t, d) rfl rfl) (.cons trivial (.new _ 2 rfl)
    (.cons (fun h => by cases h) (.assign _ 2 1 (t, d) ([], []) rfl rfl) (.cons trivial (.destroy _ 0 (t, d) rfl)
    (.cons (fun h => by cases h) (.assign _ 1 2 (t, d) (t, d) rfl rfl) (.nil _))))))), rfl, rfl⟩

/-- C80 does not hold as stated: an object that is assigned to itself is read after it has been freed. -/
theorem C80_refuted :
    (∃ σ, VRun (fun _ _ => True) (fun _ => none) [.new 0, .make 0 (exampleUrl "http://www.host.com/d/e" "host.com"), .assign 0 0] σ) ∧
    (match run St.init [.new 0, .make 0 (exampleUrl "http://www.host.com/d/e" "host.com"), .assign 0 0] with
      | .ok _ => false
      | .ub => true) = true := by
  constructor
  · obtain ⟨t, d, h1, h2⟩ := C80_created example1_created
    exact ⟨_, .cons trivial (.new _ 0 rfl) (.cons trivial (.make _ 0 _ t d rfl h1 h2) (.cons trivial (.assign _ 0 0 (t, d) (t, d) rfl rfl) (.nil _)))⟩
  · decide +kernel

/-- C80 does not hold as stated, in general: after any allowed run, assigning any object that is not empty to itself is undefined. -/
theorem C80_refuted_all (ops : List Op) (σ : Store) (h : VRun NoSelf (fun _ => none) ops σ) (s : St) (e : run St.init ops = .ok s)
    (x : Nat) (v : List UInt8 × List UInt8) (hx : σ x = some v) (hv : v ≠ ([], [])) : step s (.assign x x) = .ub := by
  obtain ⟨s', e', hi⟩ := run_inv inv_init h
  rw [e] at e'; cases e'
  obtain ⟨o, ho, hown⟩ := hi.live x v hx
  obtain ⟨hp, h1, -, -, h2⟩ := release_spec hi ho
  rcases hown with ⟨rfl, -⟩ | ⟨hne, i, z, rfl, -⟩
  · exact absurd rfl hv
  · have hl : v.1.length ≠ 0 := by simpa using hne
    simp only [step, ho, h1, Res.ok_bind, copyFrom]
    rw [if_neg hl]
    simp only [bytesOf, h2 i rfl]
    rfl

end Verif.UrlParser
