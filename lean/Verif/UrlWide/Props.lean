import Verif.UrlWide.Model
import Verif.UrlWide.Spec

namespace Verif.UrlWide
open Verif.UrlParser Verif.UrlParser.Spec Verif.Str Verif.Str.Spec

theorem chrLoop_lt (c : UInt8) : ∀ (s : Buf) (n i : Nat), chrLoop id c s n = .ok (some i) → i < n
  | _, 0, i, h => by simp [chrLoop] at h
  | [], n + 1, i, h => by simp [chrLoop] at h
  | v :: s, n + 1, i, h => by
    rw [chrLoop] at h
    split at h
    · cases h; omega
    · cases hr : chrLoop id c s n with
      | ub => rw [hr] at h; cases h
      | ok r =>
        rw [hr] at h
        simp only [Res.ok_bind, Res.ok.injEq] at h
        cases r with
        | none => cases h
        | some j =>
          have := chrLoop_lt c s n j hr
          simp at h
          omega

theorem addSlash_le (b : Buf) (vlen p e : Nat) (r : Buf × Nat × Nat) (h : addSlash b vlen p e = .ok r) : r.2.1 ≤ vlen + 1 := by
  unfold addSlash at h
  split at h
  · split at h
    · cases hw : wr b vlen 47 with
      | ub => rw [hw] at h; cases h
      | ok b' => rw [hw] at h; cases h; exact Nat.le_refl _
    · cases h; simp
  · cases hd : diff vlen p with
    | ub => rw [hd] at h; cases h
    | ok n =>
      rw [hd] at h
      simp only [Res.ok_bind] at h
      cases hm : memmove b (p + 1) p n with
      | ub => rw [hm] at h; cases h
      | ok b' =>
        rw [hm] at h
        simp only [Res.ok_bind] at h
        cases hw : wr b' p 47 with
        | ub => rw [hw] at h; cases h
        | ok b'' => rw [hw] at h; cases h; exact Nat.le_refl _

theorem addSlash32_eq (b : Buf) (vlen p e : Nat) (h : vlen + 1 < 2^32) : addSlash32 b vlen p e = addSlash b vlen p e := by
  unfold addSlash32
  cases hr : addSlash b vlen p e with
  | ub => rfl
  | ok r =>
    have := addSlash_le b vlen p e r hr
    obtain ⟨b', v', e'⟩ := r
    simp only [Res.ok_bind, Res.ok.injEq, Prod.mk.injEq, true_and, and_true]
    unfold low32
    exact Nat.mod_eq_of_lt (by simp at this; omega)

theorem assign_anchor32_eq (b : Buf) (vlen beg : Nat) (f : Bool) (h : vlen + 1 < 2^32) :
    assign_anchor32 b vlen beg f = assign_anchor b vlen beg f := by
  unfold assign_anchor32 assign_anchor
  cases hc : coda_strnchr b 35 vlen with
  | ub => rfl
  | ok r =>
    have hr : r.getD vlen ≤ vlen := by
      cases r with
      | none => exact Nat.le_refl _
      | some i => exact Nat.le_of_lt (chrLoop_lt 35 b vlen i hc)
    simp only [Res.ok_bind]
    congr 1; funext n
    congr 1; funext s
    congr 1; funext bp
    rw [addSlash32_eq _ _ _ _ (by omega)]

theorem create_scheme32_eq (b u : Buf) (sz : Nat) (f : Bool) (h : sz + 8 < 2^32) : create_scheme32 b u sz f = create_scheme b u sz f := by
  unfold create_scheme32 create_scheme
  have e1 : low32 sz = sz := Nat.mod_eq_of_lt (by omega)
  have e2 : low32 (7 + sz) = 7 + sz := Nat.mod_eq_of_lt (by omega)
  have a1 : ∀ b beg, assign_anchor32 b sz beg f = assign_anchor b sz beg f := fun b beg => assign_anchor32_eq b sz beg f (by omega)
  have a2 : ∀ b beg, assign_anchor32 b (7 + sz) beg f = assign_anchor b (7 + sz) beg f := fun b beg => assign_anchor32_eq b _ beg f (by omega)
  simp only [e1, e2, a1, a2]

/-- **C177, partial**: below 4 GiB the 32-bit lengths make no difference: create_absolute does, whatever the arguments and the memory are, what it does with
lengths without bound (C77, C78, C79, C98).  Missing: longer texts (`C177_refuted_all`). -/
theorem C177_absolute_partial (fresh : Nat → Buf) (x : Url) (u : Option Buf) (sz : Nat) (f : Flags) (h : sz + 8 < 2^32) :
    create_absolute32 fresh x u sz f = create_absolute fresh x u sz f := by
  unfold create_absolute32 create_absolute
  cases u with
  | none => rfl
  | some u => simp only [create_scheme32_eq _ _ _ _ h]

theorem revLoop_lt (c : UInt8) (b : Buf) (q i : Nat) (h : coda_revnchr b c q = .ok (some i)) : i < q := by
  have key : ∀ (k i : Nat), revChrLoop id c b k = .ok (some i) → i < k := by
    intro k
    induction k with
    | zero => intro i h; simp [revChrLoop] at h
    | succ k ih =>
      intro i h
      rw [revChrLoop] at h
      cases hr : rd b k with
      | ub => rw [hr] at h; cases h
      | ok v =>
        rw [hr] at h
        simp only [Res.ok_bind] at h
        split at h
        · cases h; omega
        · have := ih i h; omega
  exact key q i h

theorem chpLoop_le (c : UInt8) (s : Buf) (m : Nat) : ∀ (n k q : Nat), k + n = m → chpLoop id c s m k n = .ok q → q ≤ m := by
  intro n
  induction n with
  | zero => intro k q hk h; rw [chpLoop] at h; cases h; omega
  | succ n ih =>
    intro k q hk h
    rw [chpLoop] at h
    cases hr : rd s k with
    | ub => rw [hr] at h; cases h
    | ok v =>
      rw [hr] at h
      simp only [Res.ok_bind] at h
      split at h
      · cases h; omega
      · exact ih (k + 1) q (by omega) h

theorem pubLen_le (c : UInt8) (pv : Buf) (plen sz_dom r : Nat) (hs : sz_dom ≤ plen) (h : pubLen c pv plen sz_dom = .ok r) : r ≤ plen := by
  unfold pubLen at h
  split at h
  · cases hq : coda_strnchp pv 63 plen with
    | ub => rw [hq] at h; cases h
    | ok q =>
      have hq' : q ≤ plen := chpLoop_le 63 pv plen plen 0 q (by omega) hq
      rw [hq] at h
      simp only [Res.ok_bind] at h
      cases hr : coda_revnchr pv 47 q with
      | ub => rw [hr] at h; cases h
      | ok o =>
        rw [hr] at h
        simp only [Res.ok_bind] at h
        cases o with
        | none => cases h
        | some i =>
          have := revLoop_lt 47 pv q i hr
          cases h; omega
  · cases h; exact hs

theorem create_suburl32_eq (b u : Buf) (sz : Nat) (f : Bool) (pv : Buf) (parent : Url) (h : sz + parent.len < 2^32) :
    create_suburl32 b u sz f pv parent = create_suburl b u sz f pv parent := by
  unfold create_suburl32 create_suburl
  cases starts u mailto with
  | ub => simp only [Res.ub_bind]
  | ok m =>
  simp only [Res.ok_bind]
  cases m with
  | true => simp only [if_true]
  | false =>
  rw [if_neg Bool.false_ne_true, if_neg Bool.false_ne_true]
  cases starts u javascript with
  | ub => simp only [Res.ub_bind]
  | ok j =>
  simp only [Res.ok_bind]
  cases j with
  | true => simp only [if_true]
  | false =>
  rw [if_neg Bool.false_ne_true, if_neg Bool.false_ne_true]
  cases rd u 0 with
  | ub => simp only [Res.ub_bind]
  | ok c =>
  simp only [Res.ok_bind]
  by_cases hc35 : c = 35
  · rw [if_pos hc35, if_pos hc35]
  rw [if_neg hc35, if_neg hc35]
  cases rd pv 4 with
  | ub => simp only [Res.ub_bind]
  | ok s =>
  simp only [Res.ok_bind]
  generalize (if s ≠ 115 then 7 else 8) = sd
  cases hd : diff parent.len sd with
  | ub => simp only [Res.ub_bind]
  | ok n =>
  have hn : sd + n = parent.len := by
    unfold diff at hd
    split at hd
    · cases hd; omega
    · cases hd
  simp only [Res.ok_bind]
  cases hc : coda_strnchr (pv.drop sd) 47 n with
  | ub => simp only [Res.ub_bind]
  | ok o =>
  simp only [Res.ok_bind]
  cases o with
  | none => rfl
  | some sl =>
  have hsl := chrLoop_lt 47 _ n sl hc
  dsimp only
  cases hh : coda_strnchr u 35 sz with
  | ub => simp only [Res.ub_bind]
  | ok o =>
  have hr : o.getD sz ≤ sz := by
    cases o with
    | none => exact Nat.le_refl _
    | some i => exact Nat.le_of_lt (chrLoop_lt 35 u sz i hh)
  simp only [Res.ok_bind]
  cases hp : pubLen c pv parent.len (sd + sl) with
  | ub => simp only [Res.ub_bind]
  | ok r =>
  have := pubLen_le c pv parent.len (sd + sl) r (by omega) hp
  have e : low32 (r + o.getD sz) = r + o.getD sz := Nat.mod_eq_of_lt (by omega)
  simp only [Res.ok_bind, e]

/-- **C177, partial**: the same for create_relative, if the argument and the parent together are shorter than 4 GiB. -/
theorem C177_relative_partial (fresh : Nat → Buf) (x : Url) (u : Option Buf) (sz : Nat) (f : Flags) (parent : Url) (h : sz + parent.len + 8 < 2^32) :
    create_relative32 fresh x u sz f parent = create_relative fresh x u sz f parent := by
  unfold create_relative32 create_relative
  cases u with
  | none => rfl
  | some u =>
    simp only [create_scheme32_eq _ _ _ _ (show sz + 8 < 2^32 by omega), create_suburl32_eq _ _ _ _ _ _ (show sz + parent.len < 2^32 by omega)]
    by_cases hg : (!x.empty || sz == 0 || parent.empty) = true
    · rw [if_pos hg, if_pos hg]
    rw [if_neg hg, if_neg hg]
    cases parent.val with
    | none => rfl
    | some pv =>
    dsimp only
    cases hasScheme u with
    | ub => rfl
    | ok s =>
    simp only [Res.ok_bind]
    cases s with
    | true =>
      rw [if_pos rfl, if_pos rfl]
      cases create_scheme (fresh (2 + 2 * sz + parent.len + parent.dlen)) u sz f.fetchable with
      | ub => rfl
      | ok y =>
        simp only [Res.ok_bind]
        cases f.subdomain with
        | false => rfl
        | true => cases y.val <;> rfl
    | false =>
      rw [if_neg Bool.false_ne_true, if_neg Bool.false_ne_true]
      cases create_suburl (fresh (2 + 2 * sz + parent.len + parent.dlen)) u sz f.fetchable pv parent with
      | ub => rfl
      | ok r => cases r <;> rfl

/-- What create_scheme does with the 32-bit length is what it does with the part of the text that is kept. -/
theorem create_scheme32_cut (f : Bool) (b v rest : Buf) (hobj : 8 ≤ (v ++ rest).length)
    (hcut : (startsI https (v ++ rest) = true → 8 ≤ v.length) ∧ (startsI http (v ++ rest) = true → 7 ≤ v.length))
    (hb : b.length = 2 + 2 * v.length + 9) (hk : 8 ≤ Spec.total v % 2^32) (hk2 : Spec.total v % 2^32 + 1 < 2^32) :
    ∃ y d, create_scheme32 b (v ++ rest) v.length f = .ok y ∧ Holds y (absText f (Spec.kept v)) d ∧ DomainOf (host (Spec.kept v)) d := by
  have s1 : starts (v ++ rest) httpsText = .ok (startsI https (v ++ rest)) :=
    starts_eq (v ++ rest) httpsText (by simpa [httpsText] using hobj) (by decide) (by decide) (by decide)
  have s2 : starts (v ++ rest) httpText = .ok (startsI http (v ++ rest)) :=
    starts_eq (v ++ rest) httpText (by simp only [List.length_append] at hobj ⊢; simp [httpText]; omega) (by decide) (by decide) (by decide)
  have c1 := startsI_cut https v rest hcut.1
  have c2 := startsI_cut http v rest hcut.2
  by_cases hs : startsI https v = true ∨ startsI http v = true
  · -- the scheme is in the text
    have ht : Spec.total v = v.length := by unfold Spec.total; rw [if_pos hs]
    rw [ht] at hk hk2
    have hke : Spec.kept v = v.take (v.length % 2^32) := by unfold Spec.kept; rw [if_pos hs, ht]
    rw [hke]
    generalize hkd : v.length % 2^32 = k at hk hk2
    have hkl : k ≤ v.length := by omega
    have hl32 : low32 v.length = k := hkd
    have hlen : (v.take k).length = k := by rw [List.length_take]; omega
    have he : v.take k ++ (v.drop k ++ rest) = v ++ rest := by rw [← List.append_assoc, List.take_append_drop]
    have spec := create_scheme_spec f (v ++ b.drop v.length) (v.take k) (v.drop k ++ rest) (by rw [he]; exact hobj)
      (by rw [he, hlen]; exact ⟨fun _ => hk, fun _ => by omega⟩)
      (by rw [hlen, List.length_append, List.length_drop]; split <;> (try split) <;> omega)
    rw [he, hlen] at spec
    obtain ⟨y, d, h1, h2, h3⟩ := spec
    refine ⟨y, d, ?_, h2, h3⟩
    rw [← h1]
    unfold create_scheme32 create_scheme
    rw [s1, s2]
    simp only [Res.ok_bind]
    have m1 : memcpy b 0 (v ++ rest) v.length = .ok (v ++ b.drop v.length) := by
      rw [memcpy_eq b 0 _ _ (by omega) (by simp)]; simp
    have m2 : memcpy (v ++ b.drop v.length) 0 (v ++ rest) k = .ok (v ++ b.drop v.length) := by
      rw [memcpy_eq _ 0 _ _ (by simp; omega) (by simp; omega)]
      simp only [List.take_zero, List.nil_append, Nat.zero_add]
      rw [List.take_append_of_le_length hkl, List.drop_append_of_le_length hkl, ← List.append_assoc, List.take_append_drop]
    by_cases g1 : startsI https (v ++ rest) = true
    · rw [if_pos g1, if_pos g1, m1, m2, hl32]
      simp only [Res.ok_bind]
      exact assign_anchor32_eq _ _ _ _ hk2
    · have g2 : startsI http (v ++ rest) = true := by
        rcases hs with h | h
        · rw [c1] at g1; exact absurd h g1
        · rw [c2]; exact h
      rw [if_neg g1, if_neg g1, if_pos g2, if_pos g2, m1, m2, hl32]
      simp only [Res.ok_bind]
      exact assign_anchor32_eq _ _ _ _ hk2
  · -- "http://" is put before it
    have ht : Spec.total v = 7 + v.length := by unfold Spec.total; rw [if_neg hs]
    rw [ht] at hk hk2
    have hke : Spec.kept v = v.take ((7 + v.length) % 2^32 - 7) := by unfold Spec.kept; rw [if_neg hs, ht]
    rw [hke]
    have hl32 : low32 (7 + v.length) = (7 + v.length) % 2^32 := rfl
    generalize hkd : (7 + v.length) % 2^32 = k at hk hk2 hl32
    have hkl : k - 7 ≤ v.length := by omega
    have hlen : (v.take (k - 7)).length = k - 7 := by rw [List.length_take]; omega
    have he : v.take (k - 7) ++ (v.drop (k - 7) ++ rest) = v ++ rest := by rw [← List.append_assoc, List.take_append_drop]
    have g1 : startsI https (v ++ rest) ≠ true := by rw [c1]; exact fun h => hs (Or.inl h)
    have g2 : startsI http (v ++ rest) ≠ true := by rw [c2]; exact fun h => hs (Or.inr h)
    have spec := create_scheme_spec f (http ++ v ++ b.drop (7 + v.length)) (v.take (k - 7)) (v.drop (k - 7) ++ rest) (by rw [he]; exact hobj)
      (by rw [he]; exact ⟨fun h => absurd h g1, fun h => absurd h g2⟩)
      (by
        have h7 : http.length = 7 := by decide
        rw [hlen]
        simp only [List.length_append, List.length_drop, h7]
        split <;> (try split) <;> omega)
    rw [he, hlen] at spec
    obtain ⟨y, d, h1, h2, h3⟩ := spec
    refine ⟨y, d, ?_, h2, h3⟩
    rw [← h1]
    unfold create_scheme32 create_scheme
    rw [s1, s2]
    simp only [Res.ok_bind]
    rw [if_neg g1, if_neg g1, if_neg g2, if_neg g2]
    have hht : httpText.take 7 = http := by decide
    have h7 : http.length = 7 := by decide
    have m1 : memcpy b 0 httpText 7 = .ok (http ++ b.drop 7) := by
      rw [memcpy_eq b 0 httpText 7 (by omega) (by decide)]; simp [hht]
    have m2 : memcpy (http ++ b.drop 7) 7 (v ++ rest) v.length = .ok (http ++ v ++ b.drop (7 + v.length)) := by
      rw [memcpy_eq _ 7 _ v.length (by simp [h7]; omega) (by simp)]
      have e1 : (http ++ b.drop 7).take 7 = http := List.take_left' h7
      have e2 : (http ++ b.drop 7).drop (7 + v.length) = b.drop (7 + v.length) := by
        rw [← List.drop_drop, List.drop_left' h7, List.drop_drop]
      rw [e1, e2, List.take_left]
    have m3 : memcpy (http ++ v ++ b.drop (7 + v.length)) 0 httpText 7 = .ok (http ++ v ++ b.drop (7 + v.length)) := by
      rw [memcpy_eq _ 0 httpText 7 (by simp [h7]) (by decide)]
      simp only [List.take_zero, List.nil_append, Nat.zero_add, hht]
      rw [List.append_assoc, List.drop_left' h7]
    have m4 : memcpy (http ++ v ++ b.drop (7 + v.length)) 7 (v ++ rest) (k - 7) = .ok (http ++ v ++ b.drop (7 + v.length)) := by
      rw [memcpy_eq _ 7 _ (k - 7) (by simp [h7]; omega) (by simp; omega)]
      have e1 : (http ++ v ++ b.drop (7 + v.length)).take 7 = http := by rw [List.append_assoc]; exact List.take_left' h7
      have e2 : (http ++ v ++ b.drop (7 + v.length)).drop (7 + (k - 7)) = v.drop (k - 7) ++ b.drop (7 + v.length) := by
        rw [← List.drop_drop, List.append_assoc, List.drop_left' h7, List.drop_append_of_le_length hkl]
      rw [e1, e2, List.take_append_of_le_length hkl]
      congr 1
      rw [List.append_assoc, List.append_assoc, ← List.append_assoc (v.take _), List.take_append_drop]
    rw [m1, m3]
    simp only [Res.ok_bind]
    rw [m2, m4, hl32]
    simp only [Res.ok_bind]
    rw [show 7 + (k - 7) = k by omega]
    exact assign_anchor32_eq _ _ _ _ hk2

/-- **C177 is false for all texts of 4 GiB and more** (up to the few whose length modulo 2^32 is below 8 or is the greatest one): the URL is made of the
first bytes of the text only, as many as its length modulo 2^32 says. -/
theorem C177_refuted_all (fresh : Nat → Buf) (hf : ∀ n, (fresh n).length = n) (fl : Flags) (v rest : Buf) (hu : Usable 8 v rest) (h0 : 0 ∉ v)
    (hk : 8 ≤ Spec.total v % 2^32) (hk2 : Spec.total v % 2^32 + 1 < 2^32) :
    ∃ y, create_absolute32 fresh .null (some (v ++ rest)) v.length fl = .ok (0, y) ∧ get_url y = .ok (absText fl.fetchable (Spec.kept v)) ∧
      get_url_len y = (absText fl.fetchable (Spec.kept v)).length := by
  obtain ⟨hne, hobj, hc1, hc2⟩ := hu
  obtain ⟨y, d, hy, h1, h2⟩ := create_scheme32_cut fl.fetchable (fresh (2 + 2 * v.length + 9)) v rest hobj ⟨hc1, hc2⟩ (hf _) hk hk2
  have hkz : 0 ∉ Spec.kept v := by
    unfold Spec.kept
    split <;> exact fun h => h0 (List.mem_of_mem_take h)
  have e := holds_url y _ d h1 (abs_no_zero _ _ hkz) (good_ne_nil (abs_parts _ _))
  refine ⟨y, ?_, e.1, e.2⟩
  simp only [create_absolute32]
  rw [if_neg (by simp [Url.empty, Url.null]; exact hne), hy]
  rfl

example : (match create_relative32 junk .null (some (bytes "../f/./index" ++ [0])) 12 ⟨false, false⟩ (exampleUrl "https://www.host.com/d/e/?x" "host.com"),
      create_absolute32 junk .null (some (bytes "h.com/../a//b/./../c/..?/../#y" ++ [0])) 30 ⟨true, false⟩ with
    | .ok (r, y), .ok (r', y') => decide (r = 0) && decide (get_url y = .ok (bytes "https://www.host.com/d/f/index")) &&
        decide (r' = 0) && decide (get_url y' = .ok (bytes "http://h.com/a/?/../"))
    | _, _ => false) = true := by decide +kernel

/-! ### Texts of any length -/

theorem takeWhile_replicate_pos {q : UInt8 → Bool} {c : UInt8} (h : q c = true) (n : Nat) : (List.replicate n c).takeWhile q = List.replicate n c := by
  induction n with
  | zero => rfl
  | succ n ih => rw [List.replicate_succ, List.takeWhile_cons_of_pos h, ih]

theorem dropWhile_replicate_pos {q : UInt8 → Bool} {c : UInt8} (h : q c = true) (n : Nat) : (List.replicate n c).dropWhile q = [] := by
  induction n with
  | zero => rfl
  | succ n ih => rw [List.replicate_succ, List.dropWhile_cons_of_pos h, ih]

theorem split_replicate (n : Nat) : split 47 (List.replicate n 97) = [List.replicate n 97] := by
  induction n with
  | zero => rfl
  | succ n ih => rw [List.replicate_succ, split, if_neg (by decide), ih]

/-- "http://h/aaa..." is its own URL. -/
theorem absText_long (f : Bool) (n : Nat) (hn : 3 ≤ n) :
    absText f (bytes "http://h/" ++ List.replicate n 97) = bytes "http://h/" ++ List.replicate n 97 := by
  have e : bytes "http://h/" = [104, 116, 116, 112, 58, 47, 47, 104, 47] := by decide +kernel
  rw [e]
  have s1 : startsI https ([104, 116, 116, 112, 58, 47, 47, 104, 47] ++ List.replicate n 97) = false := by
    simp [startsI, https, lower]
  have s2 : startsI http ([104, 116, 116, 112, 58, 47, 47, 104, 47] ++ List.replicate n 97) = true := by
    simp [startsI, http, lower]
  have hsch : scheme ([104, 116, 116, 112, 58, 47, 47, 104, 47] ++ List.replicate n 97) = http := by
    unfold scheme; rw [s1, s2]; simp [http]
  have hbody : body ([104, 116, 116, 112, 58, 47, 47, 104, 47] ++ List.replicate n 97) = 104 :: 47 :: List.replicate n 97 := by
    unfold body; rw [s1, s2]
    simp only [List.cons_append, List.nil_append, List.drop_succ_cons, List.drop_zero, if_true, Bool.false_eq_true, if_false]
    rw [List.takeWhile_cons_of_pos (by decide), List.takeWhile_cons_of_pos (by decide), takeWhile_replicate_pos (by decide)]
  have hhost : host ([104, 116, 116, 112, 58, 47, 47, 104, 47] ++ List.replicate n 97) = [104] := by
    unfold host; rw [hbody, List.takeWhile_cons_of_pos (by decide), List.takeWhile_cons_of_neg (by decide)]; decide
  have htail : tail ([104, 116, 116, 112, 58, 47, 47, 104, 47] ++ List.replicate n 97) = 47 :: List.replicate n 97 := by
    unfold tail; rw [hbody, List.dropWhile_cons_of_pos (by decide), List.dropWhile_cons_of_neg (by decide)]; simp
  have hne : ∀ l : List UInt8, l.length < 3 → List.replicate n 97 ≠ l := fun l hl h => by
    have := congrArg List.length h; simp at this; omega
  unfold absText path query
  rw [hsch, hhost, htail, List.takeWhile_cons_of_pos (by decide), takeWhile_replicate_pos (by decide), List.dropWhile_cons_of_pos (by decide),
    dropWhile_replicate_pos (by decide)]
  unfold normPath
  simp only [List.drop_succ_cons, List.drop_zero, split_replicate]
  simp only [List.dropLast_singleton, List.foldl_nil, List.getLastD_cons, List.nil_append]
  rw [if_neg (by
    rintro (h | h | h)
    · exact hne [] (by decide) h
    · exact hne [46] (by decide) h
    · exact hne [46, 46] (by decide) h)]
  simp [join, http]

/-- **C177 is false**: the URL of "http://h/aaa…" is the text itself; but for all such texts of 4 GiB and more a shorter URL is created, and 0 is returned. -/
theorem C177_refuted (fresh : Nat → Buf) (hf : ∀ n, (fresh n).length = n) (fl : Flags) (rest : Buf) (n : Nat) (hbig : 2^32 ≤ 9 + n)
    (hk : 12 ≤ (9 + n) % 2^32) (hk2 : (9 + n) % 2^32 + 1 < 2^32) :
    absText fl.fetchable (bytes "http://h/" ++ List.replicate n 97) = bytes "http://h/" ++ List.replicate n 97 ∧
    ∃ y, create_absolute32 fresh .null (some (bytes "http://h/" ++ List.replicate n 97 ++ rest)) (9 + n) fl = .ok (0, y) ∧
      get_url y = .ok (bytes "http://h/" ++ List.replicate ((9 + n) % 2^32 - 9) 97) ∧ get_url_len y < 9 + n := by
  have e : bytes "http://h/" = [104, 116, 116, 112, 58, 47, 47, 104, 47] := by decide +kernel
  have hlen : (bytes "http://h/" ++ List.replicate n 97).length = 9 + n := by rw [e]; simp; omega
  have s2 : startsI http (bytes "http://h/" ++ List.replicate n 97) = true := by
    rw [e]; simp [startsI, http, lower]
  have ht : Spec.total (bytes "http://h/" ++ List.replicate n 97) = 9 + n := by
    unfold Spec.total; rw [if_pos (Or.inr s2), hlen]
  have hke : Spec.kept (bytes "http://h/" ++ List.replicate n 97) = bytes "http://h/" ++ List.replicate ((9 + n) % 2^32 - 9) 97 := by
    unfold Spec.kept
    rw [if_pos (Or.inr s2), ht]
    generalize hkd : (9 + n) % 2^32 = k at *
    rw [e, List.take_append, List.take_of_length_le (by simp; omega), List.take_replicate]
    congr 2
    simp; omega
  have hu : Usable 8 (bytes "http://h/" ++ List.replicate n 97) rest := by
    refine ⟨?_, ?_, fun _ => ?_, fun _ => ?_⟩
    · rw [e]; simp
    · rw [List.length_append, hlen]; omega
    · rw [hlen]; omega
    · rw [hlen]; omega
  have h0 : 0 ∉ bytes "http://h/" ++ List.replicate n 97 := by
    rw [e]
    intro h
    rcases List.mem_append.mp h with h | h
    · revert h; decide
    · have := List.eq_of_mem_replicate h; revert this; decide
  refine ⟨absText_long _ n (by omega), ?_⟩
  obtain ⟨y, h1, h2, h3⟩ := C177_refuted_all fresh hf fl _ rest hu h0 (by rw [ht]; omega) (by rw [ht]; exact hk2)
  rw [hlen] at h1
  rw [hke, absText_long _ _ (by omega)] at h2 h3
  refine ⟨y, h1, h2, ?_⟩
  rw [h3, e]
  simp
  omega

example : 2^32 ≤ 9 + 2^32 + 50 ∧ 12 ≤ (9 + (2^32 + 50)) % 2^32 ∧ (9 + (2^32 + 50)) % 2^32 + 1 < 2^32 := by decide

/-! ### Copies -/

/-- **C178, partial**: a copy has the text and the domain of the original if both together are shorter than 4 GiB.  Missing: longer ones (`C178_refuted_all`). -/
theorem C178_copy_partial (y : Url) (hy : Created NoNul y) (h : get_url_len y + get_domain_len y + 2 < 2^32) :
    ∃ y', copy32 y = .ok y' ∧ get_url y' = get_url y ∧ get_domain y' = get_domain y ∧ get_url_len y' = get_url_len y ∧
      get_domain_len y' = get_domain_len y := by
  obtain ⟨t, d, hs, h0⟩ := created_shape hy
  have ht0 := h0 (fun v hv => hv)
  have hne := shape_ne_nil hs
  have hH := hs.1
  obtain ⟨e1, e2, e3, z, e4⟩ := hs.1
  have hl : low32 (y.len + y.dlen + 2) = t.length + d.length + 2 := by
    unfold low32 get_url_len get_domain_len at *
    rw [Nat.mod_eq_of_lt (by omega), e1, e3]
  have htake : (t ++ 0 :: d ++ 0 :: z).take (t.length + d.length + 2) = t ++ 0 :: d ++ 0 :: [] := by
    rw [show t ++ 0 :: d ++ 0 :: z = (t ++ 0 :: d ++ [0]) ++ z by simp, List.take_left' (by simp; omega)]
  have hc : copy32 y = .ok ⟨some (t ++ 0 :: d ++ 0 :: []), y.len, y.len + 1, y.dlen⟩ := by
    unfold copy32
    rw [if_neg (by simp [Url.empty, e1, hne]), e4]
    simp only [hl]
    rw [if_pos (by simp; omega), htake]
  have hH' : Holds ⟨some (t ++ 0 :: d ++ 0 :: []), y.len, y.len + 1, y.dlen⟩ t d := ⟨e1, by rw [e1], e3, [], rfl⟩
  have a1 := (holds_url _ t d hH ht0 hne).1
  have a2 := (holds_url _ t d hH' ht0 hne).1
  have b1 := (holds_dom _ t d hH hs.2.1 hne).1
  have b2 := (holds_dom _ t d hH' hs.2.1 hne).1
  exact ⟨_, hc, by rw [a1, a2], by rw [b1, b2], rfl, rfl⟩

example : Created NoNul (exampleUrl "http://www.host.com/d/e" "host.com") ∧
    get_url_len (exampleUrl "http://www.host.com/d/e" "host.com") + get_domain_len (exampleUrl "http://www.host.com/d/e" "host.com") + 2 < 2^32 ∧
    (match copy32 (exampleUrl "http://www.host.com/d/e" "host.com") with
      | .ok y => decide (get_url y = .ok (bytes "http://www.host.com/d/e")) && decide (get_domain y = .ok (bytes "host.com"))
      | .ub => false) = true := ⟨example1_created, by decide +kernel, by decide +kernel⟩

theorem cstr_ub : ∀ l : Buf, 0 ∉ l → cstr l = .ub
  | [], _ => rfl
  | c :: l, h => by
    simp only [List.mem_cons, not_or] at h
    rw [cstr, if_neg (Ne.symm h.1), cstr_ub l h.2]
    rfl

/-- **C178 is false for all URLs that take 4 GiB or more together with their domains**: the copy has too little memory; reading its text with get_url runs past the
end of the block. -/
theorem C178_refuted_all (y : Url) (hy : Created NoNul y) (h1 : get_url_len y < 2^32) (h2 : get_domain_len y + 2 < 2^32)
    (h : 2^32 ≤ get_url_len y + get_domain_len y + 2) :
    (∃ t, get_url y = .ok t) ∧ ∃ y', copy32 y = .ok y' ∧ get_url_len y' = get_url_len y ∧ get_url y' = .ub := by
  obtain ⟨t, d, hs, h0⟩ := created_shape hy
  have ht0 := h0 (fun v hv => hv)
  have hne := shape_ne_nil hs
  have hH := hs.1
  refine ⟨⟨t, (holds_url _ t d hH ht0 hne).1⟩, ?_⟩
  obtain ⟨e1, e2, e3, z, e4⟩ := hs.1
  unfold get_url_len get_domain_len at *
  have hl : low32 (y.len + y.dlen + 2) ≤ t.length := by
    unfold low32
    rw [← e1]
    omega
  have hc : copy32 y = .ok ⟨some (t.take (low32 (y.len + y.dlen + 2))), y.len, y.len + 1, y.dlen⟩ := by
    unfold copy32
    rw [if_neg (by simp [Url.empty, e1, hne]), e4]
    simp only
    rw [if_pos (by simp; omega), List.append_assoc, List.take_append_of_le_length hl]
  refine ⟨_, hc, rfl, ?_⟩
  have hz : y.len ≠ 0 := by rw [e1]; simpa using hne
  unfold get_url Url.empty
  simp only [beq_iff_eq, hz, if_false]
  exact cstr_ub _ (fun hm => ht0 (List.mem_of_mem_take hm))

/-- Such URLs can be created: that of a host of 2 GiB. -/
theorem C178_reached (fresh : Nat → Buf) (hf : ∀ n, (fresh n).length = n) (fl : Flags) (n : Nat) (h1 : 2^31 ≤ n) (h2 : n + 15 < 2^32) :
    ∃ y, create_absolute32 fresh .null (some (bytes "http://" ++ List.replicate n 97 ++ [])) (7 + n) fl = .ok (0, y) ∧ Created NoNul y ∧
      get_url_len y < 2^32 ∧ get_domain_len y + 2 < 2^32 ∧ 2^32 ≤ get_url_len y + get_domain_len y + 2 := by
  have e : bytes "http://" = http := by decide +kernel
  have h7 : http.length = 7 := by decide
  rw [e]
  have hlen : (http ++ List.replicate n 97).length = 7 + n := by simp [h7]
  have s1 : startsI https (http ++ List.replicate n 97) = false := by
    simp [startsI, https, http, lower]
  have s2 : startsI http (http ++ List.replicate n 97) = true := by
    simp [startsI, http, lower]
  have hu : Usable 8 (http ++ List.replicate n 97) [] := by
    refine ⟨by simp [http], by rw [List.append_nil, hlen]; omega, fun _ => by rw [hlen]; omega, fun _ => by rw [hlen]; omega⟩
  have h0 : 0 ∉ http ++ List.replicate n 97 := by
    intro h
    rcases List.mem_append.mp h with h | h
    · revert h; decide
    · have := List.eq_of_mem_replicate h; revert this; decide
  obtain ⟨y, d, hy, hH, hD⟩ := create_absolute_spec fresh hf fl _ [] hu
  have hbody : body (http ++ List.replicate n 97) = List.replicate n 97 := by
    unfold body; rw [s1, s2]
    simp only [if_true, Bool.false_eq_true, if_false]
    rw [List.drop_left' h7, takeWhile_replicate_pos (by decide)]
  have hhost : host (http ++ List.replicate n 97) = List.replicate n 97 := by
    unfold host
    rw [hbody, takeWhile_replicate_pos (by decide), List.map_replicate]
    have : lower 97 = 97 := by decide
    rw [this]
    unfold stripDots
    have hd : ∀ m, (List.replicate m (97 : UInt8)).dropWhile (· == 46) = List.replicate m 97 := by
      intro m
      cases m with
      | zero => rfl
      | succ m => rw [List.replicate_succ, List.dropWhile_cons_of_neg (by decide)]
    rw [hd, List.reverse_replicate, hd, List.reverse_replicate]
  have htail : tail (http ++ List.replicate n 97) = [47] := by
    unfold tail; rw [hbody, dropWhile_replicate_pos (by decide)]; rfl
  have hsch : scheme (http ++ List.replicate n 97) = http := by
    unfold scheme; rw [s1, s2]
    simp only [if_true, Bool.false_eq_true, if_false]
    rw [List.take_left' h7]
  have habs : (absText fl.fetchable (http ++ List.replicate n 97)).length = n + 8 := by
    unfold absText path query
    rw [hsch, hhost, htail]
    have : ∀ f, normPath f (List.takeWhile (· != 63) [47]) = [47] := by intro f; cases f <;> decide
    rw [this]
    simp only [List.length_append, h7, List.length_replicate]
    have : (List.dropWhile (fun x : UInt8 => x != 63) [47]).length = 0 := by decide
    rw [this]
    simp; omega
  have hdl : d.length = n := by
    rw [hhost] at hD
    obtain ⟨a, ha, hcase, -⟩ := hD
    rcases hcase with rfl | ⟨a', rfl⟩
    · rw [List.nil_append] at ha; rw [← ha]; simp
    · exfalso
      have : (46 : UInt8) ∈ List.replicate n (97 : UInt8) := by rw [ha]; simp
      have := List.eq_of_mem_replicate this
      revert this; decide
  refine ⟨y, ?_, .abs fresh fl _ [] y hf hu h0 hy, ?_, ?_, ?_⟩
  · rw [C177_absolute_partial _ _ _ _ _ (by omega), ← hlen]; exact hy
  all_goals
    have q1 : get_domain_len y = n := by unfold get_domain_len; rw [hH.2.2.1, hdl]
    have q2 : get_url_len y = n + 8 := by unfold get_url_len; rw [hH.1, habs]
    omega

example : 2^31 ≤ 2^31 ∧ 2^31 + 15 < 2^32 := by decide

end Verif.UrlWide
