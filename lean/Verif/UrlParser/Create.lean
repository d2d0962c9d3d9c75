/-
  Lemmas about `create_scheme`, `create_suburl`, `create_absolute` and `create_relative`.
-/
import Verif.UrlParser.Host

set_option linter.unusedSimpArgs false
set_option linter.unusedVariables false

namespace Verif.UrlParser
open Verif.Str Verif.Str.Spec Verif.UrlParser.Spec

/-! ### comparing with a fixed text -/

theorem starts_eq (u text : Buf) (hl : text.length ≤ u.length) (h0 : 0 ∉ text) (hne : text ≠ []) (hlow : text.map lower = text) :
    starts u text = .ok (startsI text u) := by
  unfold starts startsI
  cases u with
  | nil => simp at hl; exact absurd hl hne
  | cons c u =>
    have h0t : (0 : UInt8) ∉ text := h0
    by_cases hc : c = 0
    · subst hc
      have e1 : coda_strxstr (some ((0 : UInt8) :: u)) (some (text ++ [0])) text.length = .ok none := by
        simp [coda_strxstr, strstrBody]
      rw [e1, Res.ok_bind]
      congr 1
      cases text with
      | nil => exact absurd rfl hne
      | cons a t =>
        simp only [List.mem_cons, not_or] at h0t
        symm
        show _ = false
        rw [beq_eq_false_iff_ne]
        simp only [List.length_cons, List.take_succ_cons, List.map_cons]
        intro h
        have := (List.cons.inj h).1
        have h2 : lower 0 = 0 := by decide
        rw [h2] at this
        exact h0t.1 this
    · have hs : c :: u = (c :: u).take text.length ++ (c :: u).drop text.length := by simp
      have hlen : ((c :: u).take text.length).length = text.length := by
        rw [List.length_take]; omega
      have hhead : ((c :: u).take text.length).head? = some c := by
        cases text with
        | nil => exact absurd rfl hne
        | cons a t => simp
      obtain ⟨r, h1, h2⟩ := C29_strxstr_partial (text ++ [0]) text ((c :: u).take text.length) ((c :: u).drop text.length)
        ⟨by intro x hx; rintro rfl; exact h0 hx, [], by simp⟩ hne c hc hhead
      rw [← hs, hlen] at h1
      rw [h1, Res.ok_bind]
      congr 1
      have hlen2 : (((c :: u).take text.length).map lower).length = (text.map lower).length := by
        rw [List.length_map, List.length_map, hlen]
      cases r with
      | none =>
        symm
        simp only [Option.isSome_none]
        rw [beq_eq_false_iff_ne]
        intro h
        exact h2 0 ((occurs_whole _ _ 0 hlen2).2 ⟨rfl, by rw [h, hlow]⟩)
      | some i =>
        have := ((occurs_whole _ _ i hlen2).1 h2.1).2
        rw [hlow] at this
        simp [this]

theorem startsI_append (p v rest : Buf) (h : p.length ≤ v.length) : startsI p (v ++ rest) = startsI p v := by
  unfold startsI
  rw [List.take_append_of_le_length h]

theorem startsI_len (p v : Buf) (h : startsI p v = true) : p.length ≤ v.length := by
  unfold startsI at h
  have h1 : (v.take p.length).map lower = p := by simpa using h
  have := congrArg List.length h1
  simp at this
  omega

/-- If the object begins with `p` only when the text does, both begin with it or both do not. -/
theorem startsI_cut (p v rest : Buf) (h : startsI p (v ++ rest) = true → p.length ≤ v.length) :
    startsI p (v ++ rest) = startsI p v := by
  by_cases h1 : p.length ≤ v.length
  · exact startsI_append p v rest h1
  · have a : startsI p (v ++ rest) = false := by
      cases hs : startsI p (v ++ rest) with
      | false => rfl
      | true => exact absurd (h hs) h1
    have b : startsI p v = false := by
      cases hs : startsI p v with
      | false => rfl
      | true => exact absurd (startsI_len p v hs) h1
    rw [a, b]

theorem lower_not (x : UInt8) : lower x ≠ 35 ∧ lower x ≠ 63 → x ≠ 35 ∧ x ≠ 63 := by
  rintro ⟨h1, h2⟩
  constructor
  · rintro rfl; exact h1 (by decide)
  · rintro rfl; exact h2 (by decide)

/-- A text that is a scheme up to case contains neither '#' nor '?'. -/
theorem scheme_clean (s : Buf) (h : s.map lower = http ∨ s.map lower = https) : 35 ∉ s ∧ 63 ∉ s := by
  have key : ∀ c ∈ s, c ≠ 35 ∧ c ≠ 63 := by
    intro c hc
    have : lower c ∈ http ++ https := by
      have := List.mem_map_of_mem (f := lower) hc
      rcases h with h | h <;> rw [h] at this <;> simp [this]
    apply lower_not
    revert this
    generalize lower c = x
    intro hx
    constructor
    · rintro rfl; revert hx; decide
    · rintro rfl; revert hx; decide
  exact ⟨fun h => (key _ h).1 rfl, fun h => (key _ h).2 rfl⟩

/-! ### create_scheme -/

theorem memcpy_eq (b : Buf) (d : Nat) (s : Buf) (n : Nat) (h1 : d + n ≤ b.length) (h2 : n ≤ s.length) :
    memcpy b d s n = .ok (b.take d ++ s.take n ++ b.drop (d + n)) := by
  unfold memcpy
  rw [if_pos ⟨h1, h2⟩]
  unfold patch
  rw [List.length_take, Nat.min_eq_left h2]

theorem scheme_form (v : Buf) : (scheme v).map lower = http ∨ (scheme v).map lower = https := by
  unfold scheme
  by_cases h1 : startsI https v = true
  · rw [if_pos h1]
    right
    simpa [startsI, https] using h1
  · rw [if_neg h1]
    by_cases h2 : startsI http v = true
    · rw [if_pos h2]
      left
      simpa [startsI, http] using h2
    · rw [if_neg h2]
      left; decide

theorem create_scheme_spec (f : Bool) (b v rest : Buf) (hobj : 8 ≤ (v ++ rest).length)
    (hcut : (startsI https (v ++ rest) = true → 8 ≤ v.length) ∧ (startsI http (v ++ rest) = true → 7 ≤ v.length))
    (hroom : (if startsI https v = true then v.length + (v.length - 8) + 3 else if startsI http v = true then v.length + (v.length - 7) + 3 else
      7 + v.length + v.length + 3) ≤ b.length) :
    ∃ y d, create_scheme b (v ++ rest) v.length f = .ok y ∧ Holds y (absText f v) d ∧ DomainOf (host v) d := by
  have s1 : starts (v ++ rest) httpsText = .ok (startsI https v) := by
    rw [← startsI_cut https v rest hcut.1]
    exact starts_eq (v ++ rest) httpsText (by simpa [httpsText] using hobj) (by decide) (by decide) (by decide)
  have s2 : starts (v ++ rest) httpText = .ok (startsI http v) := by
    rw [← startsI_cut http v rest hcut.2]
    exact starts_eq (v ++ rest) httpText (by simp only [List.length_append] at hobj ⊢; simp [httpText]; omega) (by decide) (by decide) (by decide)
  have hcl := scheme_clean (scheme v) (scheme_form v)
  have hne : scheme v ≠ [] := by
    intro h
    have := scheme_form v
    rw [h] at this
    revert this; decide
  unfold create_scheme
  rw [s1, s2]
  simp only [Res.ok_bind]
  have absText_eq : absText f v = scheme v ++ host v ++ normPath f ((tail v).takeWhile (· != 63)) ++ (tail v).dropWhile (· != 63) := rfl
  rw [absText_eq]
  by_cases h1 : startsI https v = true
  · have hl := startsI_len _ _ h1
    have hl8 : 8 ≤ v.length := by simpa [https] using hl
    rw [if_pos h1, memcpy_eq b 0 _ _ (by rw [if_pos h1] at hroom; omega) (by simp)]
    simp only [Res.ok_bind, List.take_left, List.take_zero, List.nil_append, Nat.zero_add]
    have hs : scheme v = v.take 8 := by unfold scheme; rw [if_pos h1]
    have hb : body v = (v.drop 8).takeWhile (· != 35) := by unfold body; rw [if_pos h1]
    have := assign_anchor_spec f (scheme v) (v.drop 8) (b.drop v.length) v.length 8 hcl.1 hcl.2 hne (by rw [hs]; simp; omega)
      (by rw [hs]; simp; omega) (by rw [if_pos h1] at hroom; simp; omega) (host v) (tail v) (by unfold host; rw [hb]) (by unfold tail withSlash; rw [hb])
    rw [show scheme v ++ v.drop 8 = v by rw [hs, List.take_append_drop]] at this
    exact this
  · rw [if_neg h1]
    by_cases h2 : startsI http v = true
    · have hl := startsI_len _ _ h2
      have hl7 : 7 ≤ v.length := by simpa [http] using hl
      rw [if_neg h1, if_pos h2] at hroom
      rw [if_pos h2, memcpy_eq b 0 _ _ (by omega) (by simp)]
      simp only [Res.ok_bind, List.take_left, List.take_zero, List.nil_append, Nat.zero_add]
      have hs : scheme v = v.take 7 := by unfold scheme; rw [if_neg h1, if_pos h2]
      have hb : body v = (v.drop 7).takeWhile (· != 35) := by unfold body; rw [if_neg h1, if_pos h2]
      have := assign_anchor_spec f (scheme v) (v.drop 7) (b.drop v.length) v.length 7 hcl.1 hcl.2 hne (by rw [hs]; simp; omega)
        (by rw [hs]; simp; omega) (by simp; omega) (host v) (tail v) (by unfold host; rw [hb]) (by unfold tail withSlash; rw [hb])
      rw [show scheme v ++ v.drop 7 = v by rw [hs, List.take_append_drop]] at this
      exact this
    · rw [if_neg h1, if_neg h2] at hroom
      rw [if_neg h2, memcpy_eq b 0 httpText 7 (by omega) (by decide)]
      simp only [Res.ok_bind, List.take_zero, List.nil_append, Nat.zero_add]
      have hht : httpText.take 7 = http := by decide
      rw [hht, memcpy_eq _ 7 _ v.length (by simp [http]; omega) (by simp)]
      simp only [Res.ok_bind, List.take_left]
      have e1 : (http ++ b.drop 7).take 7 = http := List.take_left' (by decide)
      have e2 : (http ++ b.drop 7).drop (7 + v.length) = b.drop (7 + v.length) := by
        rw [← List.drop_drop, List.drop_left' (by decide), List.drop_drop]
      rw [e1, e2]
      have hs : scheme v = http := by unfold scheme; rw [if_neg h1, if_neg h2]
      have hb : body v = v.takeWhile (· != 35) := by unfold body; rw [if_neg h1, if_neg h2]
      have := assign_anchor_spec f (scheme v) v (b.drop (7 + v.length)) (7 + v.length) 7 hcl.1 hcl.2 hne (by rw [hs]; decide)
        (by rw [hs]; simp [http]) (by simp; omega) (host v) (tail v) (by unfold host; rw [hb]) (by unfold tail withSlash; rw [hb])
      rw [hs] at this ⊢
      exact this

/-! ### create_suburl -/

/-- What is needed of a parent: `pre` is what the code takes for scheme and host. -/
def Parent (y : Url) (pre path query dom : List UInt8) : Prop :=
  Holds y (pre ++ path ++ query) dom ∧ (∃ R, path = 47 :: R) ∧ 63 ∉ pre ∧ 63 ∉ path ∧ (query = [] ∨ ∃ q, query = 63 :: q) ∧
    0 ∉ dom ∧ (∃ k, k = (if pre[4]? = some 115 then 8 else 7) ∧ k ≤ pre.length ∧ 47 ∉ pre.drop k)

theorem dirPart (path : Buf) (R : Buf) (h : path = 47 :: R) : ∃ a z, path = a ++ 47 :: z ∧ 47 ∉ z ∧
    (path.reverse.dropWhile (· != 47)).reverse = a ++ [47] := by
  rcases cut_last 47 path with h1 | ⟨a, z, h1, h2⟩
  · rw [h] at h1; simp at h1
  · refine ⟨a, z, h1, h2, ?_⟩
    rw [h1]
    have e : (a ++ 47 :: z).reverse = z.reverse ++ 47 :: a.reverse := by simp
    rw [e, (takeWhile_append_all _ z.reverse _ (by
      intro c hc; simp at hc; simp; rintro rfl; exact h2 hc)).2]
    simp

theorem create_suburl_spec (f : Bool) (b v rest : Buf) (y : Url) (pre path query dom : List UInt8) (hv : v ≠ []) (hobj : 11 ≤ (v ++ rest).length)
    (hp : Parent y pre path query dom) (hroom : 2 + v.length + y.len + y.dlen ≤ b.length) :
    ∃ pv, y.val = some pv ∧
    ((startsI mailtoText (v ++ rest) = true ∨ startsI javascriptText (v ++ rest) = true ∨ v.head? = some 35) →
      create_suburl b (v ++ rest) v.length f pv y = .ok none) ∧
    (¬ (startsI mailtoText (v ++ rest) = true ∨ startsI javascriptText (v ++ rest) = true ∨ v.head? = some 35) →
      ∃ r, create_suburl b (v ++ rest) v.length f pv y = .ok (some r) ∧
        Holds r (relText f pre path v) dom) := by
  obtain ⟨⟨hlen, hdo, hdl, z, hval⟩, ⟨R, hR⟩, hpre63, hpath63, hquery, hdom0, k, hk, hkl, hk47⟩ := hp
  refine ⟨_, hval, ?_⟩
  generalize hpv : pre ++ path ++ query ++ 0 :: dom ++ 0 :: z = pv at *
  have s1 : starts (v ++ rest) mailto = .ok (startsI mailtoText (v ++ rest)) :=
    starts_eq (v ++ rest) mailto (by simp only [mailto, List.length_cons, List.length_nil]; omega) (by decide) (by decide) (by decide)
  have s2 : starts (v ++ rest) javascript = .ok (startsI javascriptText (v ++ rest)) :=
    starts_eq (v ++ rest) javascript (by simp only [javascript, List.length_cons, List.length_nil]; omega) (by decide) (by decide) (by decide)
  obtain ⟨c, v', rfl⟩ : ∃ c v', v = c :: v' := by
    cases v with
    | nil => exact absurd rfl hv
    | cons c v' => exact ⟨c, v', rfl⟩
  have hrd : rd (c :: v' ++ rest) 0 = .ok c := rfl
  constructor
  · intro hrej
    unfold create_suburl
    rw [s1, s2, hrd]
    simp only [Res.ok_bind]
    by_cases h1 : startsI mailtoText (c :: v' ++ rest) = true
    · rw [if_pos h1]
    · rw [if_neg h1]
      by_cases h2 : startsI javascriptText (c :: v' ++ rest) = true
      · rw [if_pos h2]
      · rw [if_neg h2]
        have : c = 35 := by
          rcases hrej with h | h | h
          · exact absurd h h1
          · exact absurd h h2
          · simpa using h
        rw [if_pos this]
  · intro hacc
    simp only [not_or] at hacc
    obtain ⟨h1, h2, h3⟩ := hacc
    have hc : c ≠ 35 := by rintro rfl; simp at h3
    have hk7 : 7 ≤ pre.length ∧ (k = 7 ∨ k = 8) := by
      rw [hk] at hkl ⊢; split at hkl <;> simp_all <;> omega
    obtain ⟨s4, h4, hkk⟩ : ∃ s4, rd pv 4 = .ok s4 ∧ (if s4 ≠ 115 then 7 else 8) = k := by
      have h5 : 4 < pre.length := by omega
      refine ⟨pre[4], ?_, ?_⟩
      · rw [rd_ok_iff, ← hpv]
        simp only [List.append_assoc]
        rw [List.getElem?_append_left h5]
        simp
      · rw [List.getElem?_eq_getElem h5] at hk
        generalize pre[4] = x at hk ⊢
        rw [hk]
        by_cases h : x = 115
        · rw [if_neg (by simp [h]), if_pos (by rw [h])]
        · rw [if_pos h, if_neg (by simpa using h)]
    have hpl : path.length = R.length + 1 := by rw [hR]; simp
    have hyl : y.len = pre.length + path.length + query.length := by rw [hlen]; simp; omega
    have hsl : coda_strnchr (pv.drop k) 47 (y.len - k) = .ok (some (pre.length - k)) := by
      have e : pv.drop k = pre.drop k ++ 47 :: (R ++ query) ++ (0 :: dom ++ 0 :: z) := by
        rw [← hpv, hR]
        simp only [List.append_assoc]
        rw [List.drop_append_of_le_length hkl]
        simp only [List.append_assoc, List.cons_append]
      rw [e, strnchr_some (pre.drop k) (R ++ query) _ 47 _ hk47 (by simp; omega)]
      simp
    obtain ⟨r, hr1, hr2⟩ := strnchr_getD (c :: v') rest 35 (c :: v').length rfl
    have hvt : (c :: v').takeWhile (· != 35) <+: c :: v' := List.takeWhile_prefix _
    obtain ⟨vr, hvr⟩ := hvt
    obtain ⟨a, zz, ha, hzz, hdir⟩ := dirPart path R hR
    have hal : path.length = a.length + 1 + zz.length := by rw [ha]; simp; omega
    -- the length of the public part
    have hq : coda_strnchp pv 63 y.len = .ok (pre.length + path.length) := by
      obtain ⟨r, hf, hchp⟩ := C28_strnchp (pre ++ path ++ query) (0 :: dom ++ 0 :: z) 63
      rw [show pre ++ path ++ query ++ (0 :: dom ++ 0 :: z) = pv by rw [← hpv]; simp, ← hlen] at hchp
      rw [hchp]
      congr 1
      obtain ⟨r2, hc1, hc2⟩ := strnchr_getD (pre ++ path ++ query) (0 :: dom ++ 0 :: z) 63 y.len hlen
      obtain ⟨r3, hc3, hf3⟩ := C28_strnchr (pre ++ path ++ query) (0 :: dom ++ 0 :: z) 63
      rw [← hlen, hc1] at hc3
      have : r = r3 := by
        cases r with
        | none =>
          cases r3 with
          | none => rfl
          | some j => exact absurd hf3.1 (hf j)
        | some i =>
          cases r3 with
          | none => exact absurd hf.1 (hf3 i)
          | some j =>
            rcases Nat.lt_trichotomy i j with h | h | h
            · exact absurd hf.1 (hf3.2 i h)
            · rw [h]
            · exact absurd hf3.1 (hf.2 j h)
      rw [this]
      cases hc3
      rw [hc2]
      have hclean : ∀ x ∈ pre ++ path, (x != 63) = true := by
        intro x hx; simp; rintro rfl
        rcases List.mem_append.mp hx with h | h
        · exact hpre63 h
        · exact hpath63 h
      rw [(takeWhile_append_all _ (pre ++ path) query hclean).1]
      rcases hquery with rfl | ⟨q, rfl⟩
      · simp
      · simp
    have hrv : coda_revnchr pv 47 (pre.length + path.length) = .ok (some (pre.length + a.length)) := by
      have e : pv = (pre ++ a) ++ 47 :: zz ++ (query ++ 0 :: dom ++ 0 :: z) := by rw [← hpv, ha]; simp
      rw [e, revnchr_some (pre ++ a) zz _ 47 _ hzz (by simp; omega)]
      simp
    -- base = what is kept of the path of the parent
    generalize hm : (c :: v').takeWhile (· != 35) = m at *
    have hmc : ∃ m', m = c :: m' := by
      rw [← hm, List.takeWhile_cons, if_pos (by simpa using hc)]
      exact ⟨_, rfl⟩
    have hbase : ∃ base, merge path (c :: v') = base ++ m ∧ base <+: path ∧
        (∃ Q, base ++ m = 47 :: Q) ∧
        pubLen c pv y.len (k + (pre.length - k)) = .ok (pre.length + base.length) := by
      unfold pubLen
      by_cases h47 : c = 47
      · refine ⟨[], ?_, List.nil_prefix, ?_, ?_⟩
        · unfold merge
          rw [if_pos (by simp [h47]), hm]; rfl
        · obtain ⟨m', hm'⟩ := hmc
          exact ⟨m', by rw [hm', h47]; rfl⟩
        · rw [if_neg (by simpa using h47)]
          simp; omega
      · refine ⟨a ++ [47], ?_, ⟨zz, by rw [ha]; simp⟩, ?_, ?_⟩
        · unfold merge
          rw [if_neg (by simpa using h47), hm, hdir]
        · cases a with
          | nil => exact ⟨m, rfl⟩
          | cons x a => rw [hR] at ha; simp at ha; exact ⟨a ++ [47] ++ m, by rw [← ha.1]; simp⟩
        · rw [if_pos h47, hq]
          simp only [Res.ok_bind]
          rw [hrv]
          simp [Nat.add_assoc]
    obtain ⟨base, hmerge, ⟨brest, hbr⟩, ⟨Q, hQ⟩, hpub⟩ := hbase
    have hbl : base.length ≤ path.length := by rw [← hbr]; simp
    have hml : m.length ≤ v'.length + 1 := by
      have := congrArg List.length hvr
      simp only [List.length_append, List.length_cons] at this
      omega
    have htake : pv.take (pre.length + base.length) = pre ++ base := by
      rw [← hpv, ← hbr, show pre ++ (base ++ brest) ++ query ++ 0 :: dom ++ 0 :: z = (pre ++ base) ++ (brest ++ query ++ 0 :: dom ++ 0 :: z) by simp]
      exact List.take_left' (by simp)
    have hvtake : (c :: v' ++ rest).take m.length = m := by
      rw [← hvr, List.append_assoc]
      exact List.take_left
    have hv63 := cut_first 63 Q
    have hQs : Q = Q.takeWhile (· != 63) ++ Q.dropWhile (· != 63) := List.takeWhile_append_dropWhile.symm
    have hQl : Q.length = (Q.takeWhile (· != 63)).length + (Q.dropWhile (· != 63)).length := by
      have := congrArg List.length hQs
      rwa [List.length_append] at this
    have hQb : base.length + m.length = Q.length + 1 := by
      have := congrArg List.length hQ; simpa using this
    have hqq : Q.dropWhile (· != 63) = [] ∨ ∃ q', Q.dropWhile (· != 63) = 63 :: q' := by
      by_cases hm : 63 ∈ Q
      · exact Or.inr (hv63.2.2 hm)
      · exact Or.inl (hv63.2.1 hm).2
    have hpvl : pv.length = y.len + 1 + dom.length + 1 + z.length := by
      rw [← hpv]; simp only [List.length_append, List.length_cons]; omega
    simp only [List.length_cons] at hroom
    have hsrc : srcBytes pre y.dlen (.other (pv.drop y.dom)) = dom := by
      simp only [srcBytes]
      rw [hdo, hdl, ← hpv, show pre ++ path ++ query ++ 0 :: dom ++ 0 :: z = (pre ++ path ++ query ++ [0]) ++ (dom ++ 0 :: z) by simp,
        List.drop_left' (by simp only [List.length_append, List.length_cons, List.length_nil]), List.take_left]
    obtain ⟨w, hw, hhold⟩ := assign_refers_spec f pre (Q.takeWhile (· != 63)) (Q.dropWhile (· != 63))
      (b.drop (pre.length + base.length + m.length)) (pre.length + base.length + m.length) pre.length (.other (pv.drop y.dom)) y.dlen hpre63 hv63.1 hqq
      (by omega) rfl (by simp only [srcOk, List.length_drop]; rw [hdo, hdl]; omega)
      (by rw [List.length_drop]; omega)
    rw [hsrc] at hhold
    refine ⟨w, ?_, ?_⟩
    · unfold create_suburl
      rw [s1, s2, hrd, h4]
      simp only [Res.ok_bind]
      rw [if_neg h1, if_neg h2, if_neg hc]
      simp only [hkk]
      rw [diff_eq y.len k (y.len - k) (by omega)]
      simp only [Res.ok_bind, hsl, hr1, hr2, hpub]
      rw [memcpy_eq b 0 pv (pre.length + base.length) (by omega) (by omega)]
      simp only [Res.ok_bind, List.take_zero, List.nil_append, Nat.zero_add, htake]
      rw [memcpy_eq _ _ _ m.length (by simp; omega) (by
        have := congrArg List.length hvr
        simp only [List.length_append, List.length_cons] at this ⊢
        omega)]
      simp only [Res.ok_bind, hvtake]
      rw [List.take_left' (by simp), ← List.drop_drop, List.drop_left' (by simp), List.drop_drop]
      rw [show k + (pre.length - k) = pre.length by omega]
      rw [show pre ++ base ++ m ++ b.drop (pre.length + base.length + m.length)
        = pre ++ 47 :: Q.takeWhile (· != 63) ++ Q.dropWhile (· != 63) ++ b.drop (pre.length + base.length + m.length) by
          rw [List.append_assoc pre base, hQ]; conv => lhs; rw [hQs]
          simp, hw]
      rfl
    · unfold relText
      rw [hmerge, hQ]
      have : (47 :: Q).takeWhile (· != 63) = 47 :: Q.takeWhile (· != 63) := by simp [List.takeWhile_cons]
      rw [this]
      have : (47 :: Q).dropWhile (· != 63) = Q.dropWhile (· != 63) := by simp [List.dropWhile_cons]
      rw [this]
      exact hhold

end Verif.UrlParser
