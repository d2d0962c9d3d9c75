import Verif.LogHist.Spec
import Verif.LogArray.Props
/-
  Property C183: log_array as a histogram.
-/
set_option linter.unusedVariables false
set_option linter.unusedSimpArgs false

namespace Verif.LogHist

open Verif.LogArray

theorem index_bucket {n v k : Nat} (hn : 1 ≤ n) (hv0 : 0 < v) (hv : v < 2 ^ 64) (hk : k < n) : (index n v = k) ↔ InBucket n k v = true := by
  obtain ⟨j, h1, h2⟩ : ∃ j, 2 ^ j ≤ v ∧ v < 2 ^ (j + 1) := ⟨Nat.log2 v, Nat.log2_self_le (by omega), Nat.lt_log2_self⟩
  have hi := (C64_bucket n v j hn hv h1 h2).1
  rw [hi]
  have mono : ∀ a b : Nat, a ≤ b → 2 ^ a ≤ 2 ^ b := fun a b h => Nat.pow_le_pow_right (by omega) h
  unfold InBucket
  split
  · rename_i hlt
    rw [decide_eq_true_iff]
    constructor
    · intro e
      have : j = k := by omega
      subst this
      exact ⟨h1, h2⟩
    · rintro ⟨g1, g2⟩
      have : j = k := by
        rcases Nat.lt_trichotomy j k with h | h | h
        · have := mono (j + 1) k h; omega
        · exact h
        · have := mono (k + 1) j h; omega
      omega
  · rw [decide_eq_true_iff]
    constructor
    · intro e
      have := mono (n - 1) j (by omega)
      omega
    · intro g
      have : n - 1 ≤ j := by
        refine Classical.byContradiction fun h => ?_
        have := mono (j + 1) (n - 1) (by omega)
        omega
      omega

theorem plus1_ok {t : Ty} {c : Nat} (h : c < capacity t) : plus1 (c : Int) (top t) = .ok ((c + 1 : Nat) : Int) := by
  have : (c : Int) < (capacity t : Int) := by exact_mod_cast h
  cases t <;> simp only [capacity] at h <;> simp only [plus1, top] <;> first
    | rw [if_neg (by omega)]; rfl

theorem plus1_top (t : Ty) : plus1 (capacity t : Int) (top t) ≠ .ok ((capacity t + 1 : Nat) : Int) := by
  cases t <;> decide +kernel

theorem index_lt {n v : Nat} (hn : 1 ≤ n) : index n v < n := by
  unfold index
  dsimp only
  split <;> omega

theorem record_ok {t : Ty} {a : List (Option Int)} {v c : Nat} (hn : a ≠ []) (ha : a[index a.length v]? = some (some (c : Int))) (hc : c < capacity t) :
    record t a v = .ok (a.set (index a.length v) (some ((c + 1 : Nat) : Int))) := by
  have hlt : index a.length v < a.length := index_lt (List.length_pos_iff.mpr hn)
  unfold record get_by_value get_at
  rw [ha]
  simp only
  rw [plus1_ok hc]
  simp only [set_by_value]
  rw [if_pos hlt]

theorem recordAll_append (t : Ty) : ∀ (us vs : List Nat) (a : List (Option Int)), recordAll t a (us ++ vs) =
    match recordAll t a us with
    | .ub => .ub
    | .ok b => recordAll t b vs := by
  intro us
  induction us with
  | nil => intro vs a; rfl
  | cons u us ih =>
    intro vs a
    simp only [List.cons_append, recordAll]
    cases record t a u with
    | ub => rfl
    | ok b => exact ih vs b

/-- The cells hold these numbers. -/
def Holds (n : Nat) (a : List (Option Int)) (f : Nat → Nat) : Prop := a.length = n ∧ ∀ k, k < n → a[k]? = some (some (f k : Int))

theorem recordAll_holds {t : Ty} {n : Nat} (hn : 1 ≤ n) : ∀ (vs : List Nat) (a : List (Option Int)) (f : Nat → Nat), (∀ v ∈ vs, 0 < v ∧ v < 2 ^ 64) → Holds n a f →
    (∀ k, k < n → f k + count n k vs ≤ capacity t) → ∃ a', recordAll t a vs = .ok a' ∧ Holds n a' (fun k => f k + count n k vs) := by
  intro vs
  induction vs with
  | nil => intro a f _ h _; exact ⟨a, rfl, by simpa [count] using h⟩
  | cons v vs ih =>
    intro a f hv h hc
    obtain ⟨hl, hf⟩ := h
    have hi : index n v < n := index_lt hn
    have hvv := hv v (by simp)
    have hin : InBucket n (index n v) v = true := (index_bucket hn hvv.1 hvv.2 hi).mp rfl
    have hcount : ∀ k, k < n → count n k (v :: vs) = count n k vs + if index n v = k then 1 else 0 := by
      intro k hk
      unfold count
      rw [List.countP_cons]
      congr 1
      by_cases e : index n v = k
      · rw [if_pos e, if_pos ((index_bucket hn hvv.1 hvv.2 hk).mp e)]
      · rw [if_neg e, if_neg (fun g => e ((index_bucket hn hvv.1 hvv.2 hk).mpr g))]
    have hrec := record_ok (t := t) (a := a) (v := v) (c := f (index n v)) (by rintro rfl; simp at hl; omega) (by rw [hl]; exact hf _ hi)
      (by have := hc _ hi; rw [hcount _ hi, if_pos rfl] at this; omega)
    rw [hl] at hrec
    simp only [recordAll, hrec]
    have g1 : Holds n (a.set (index n v) (some ((f (index n v) + 1 : Nat) : Int))) (fun k => if index n v = k then f k + 1 else f k) := by
      refine ⟨by simp [hl], ?_⟩
      intro k hk
      rw [List.getElem?_set]
      by_cases e : index n v = k
      · subst e
        rw [if_pos rfl, if_pos (by omega)]
        simp only [if_true]
      · rw [if_neg e]
        simp only [if_neg e]
        exact hf k hk
    have g2 : ∀ k, k < n → (if index n v = k then f k + 1 else f k) + count n k vs ≤ capacity t := by
      intro k hk
      have := hc k hk
      rw [hcount k hk] at this
      by_cases e : index n v = k
      · rw [if_pos e] at this ⊢; omega
      · rw [if_neg e] at this ⊢; omega
    obtain ⟨a', h1, h2⟩ := ih _ _ (fun u hu => hv u (by simp [hu])) g1 g2
    refine ⟨a', h1, h2.1, ?_⟩
    intro k hk
    rw [h2.2 k hk]
    dsimp only
    rw [hcount k hk]
    by_cases e : index n v = k
    · rw [if_pos e, if_pos e, show f k + 1 + count n k vs = f k + (count n k vs + 1) by omega]
    · rw [if_neg e, if_neg e, Nat.add_zero]

theorem create_holds {t : Ty} (ht : Counts t) (n : Nat) : Holds n (create t n) (fun _ => 0) := by
  have : initial t = some 0 := by
    simp only [Counts, List.mem_cons, List.not_mem_nil, or_false] at ht
    rcases ht with h | h | h | h | h | h | h | h | h | h <;> subst h <;> rfl
  refine ⟨by simp [create], ?_⟩
  intro k hk
  unfold create
  rw [List.getElem?_replicate, if_pos hk, this]
  rfl

/-- **C183.** A new log_array of counters, of any of the types for which the constructor is specialised, and any sequence of values greater than 0 that are counted with
`get_by_value(v)++`: every cell holds the number of values of its bucket, provided that no bucket has more than the type can count.
Missing: the value 0 (`C183_refuted_zero`), more values (`C183_refuted_more`), other types (`C183_refuted_new`). -/
theorem C183_counts_partial (t : Ty) (ht : Counts t) (n : Nat) (hn : 1 ≤ n) (vs : List Nat) (hv : ∀ v ∈ vs, 0 < v ∧ v < 2 ^ 64) (hc : ∀ k, k < n → count n k vs ≤ capacity t) :
    ∃ a, recordAll t (create t n) vs = .ok a ∧ a.length = n ∧ ∀ k, k < n → get_at a k = .ok (some (count n k vs : Int)) := by
  obtain ⟨a, h1, h2⟩ := recordAll_holds hn vs (create t n) (fun _ => 0) hv (create_holds ht n) (by intro k hk; simpa using hc k hk)
  refine ⟨a, h1, h2.1, ?_⟩
  intro k hk
  unfold get_at
  rw [h2.2 k hk]
  simp

theorem count_total (n : Nat) (hn : 1 ≤ n) (vs : List Nat) (hv : ∀ v ∈ vs, 0 < v ∧ v < 2 ^ 64) : ((List.range n).map (fun k => count n k vs)).sum = vs.length := by
  induction vs with
  | nil =>
    have : ∀ m, ((List.range m).map (fun k => count n k [])).sum = 0 := by
      intro m
      induction m with
      | zero => rfl
      | succ m ih => rw [List.range_succ, List.map_append, List.sum_append, ih]; simp [count]
    exact this n
  | cons v vs ih =>
    have hvv := hv v (by simp)
    have hi : index n v < n := index_lt hn
    have step : ∀ m, m ≤ n → ((List.range m).map (fun k => count n k (v :: vs))).sum = ((List.range m).map (fun k => count n k vs)).sum + if index n v < m then 1 else 0 := by
      intro m
      induction m with
      | zero => intro _; simp
      | succ m ihm =>
        intro hm
        rw [List.range_succ, List.map_append, List.sum_append, List.map_append, List.sum_append, ihm (by omega)]
        simp only [List.map_cons, List.map_nil, List.sum_cons, List.sum_nil, Nat.add_zero]
        have hcount : count n m (v :: vs) = count n m vs + if index n v = m then 1 else 0 := by
          unfold count
          rw [List.countP_cons]
          congr 1
          by_cases e : index n v = m
          · rw [if_pos e, if_pos ((index_bucket hn hvv.1 hvv.2 (by omega)).mp e)]
          · rw [if_neg e, if_neg (fun g => e ((index_bucket hn hvv.1 hvv.2 (by omega)).mpr g))]
        rw [hcount]
        split <;> split <;> split <;> omega
    rw [step n (Nat.le_refl n), if_pos hi, ih (fun u hu => hv u (by simp [hu]))]
    rfl

/-- **C183, no value is counted twice or lost.** The cells add up to the number of values. -/
theorem C183_total_partial (t : Ty) (ht : Counts t) (n : Nat) (hn : 1 ≤ n) (vs : List Nat) (hv : ∀ v ∈ vs, 0 < v ∧ v < 2 ^ 64) (hc : vs.length ≤ capacity t) :
    ∃ a, recordAll t (create t n) vs = .ok a ∧ (∀ x ∈ a, x.isSome) ∧ (a.map (fun x => (x.getD 0).toNat)).sum = vs.length := by
  obtain ⟨a, h1, h2⟩ := recordAll_holds hn vs (create t n) (fun _ => 0) hv (create_holds ht n)
    (by intro k hk; have : count n k vs ≤ vs.length := List.countP_le_length; show 0 + count n k vs ≤ capacity t; omega)
  have hcell : ∀ k (hk : k < a.length), a[k] = some (count n k vs : Int) := by
    intro k hk
    have := h2.2 k (by rw [← h2.1]; exact hk)
    rw [List.getElem?_eq_getElem hk] at this
    simpa using this
  refine ⟨a, h1, ?_, ?_⟩
  · intro x hx
    obtain ⟨k, hk, e⟩ := List.getElem_of_mem hx
    rw [← e, hcell k hk]; rfl
  · rw [← count_total n hn vs hv]
    congr 1
    refine List.ext_getElem (by simp [h2.1]) ?_
    intro k hk hk'
    simp only [List.length_map] at hk
    simp [hcell k hk]

/-! ## Any number of values -/

theorem shows_zero (t : Ty) : shows t 0 = some 0 := by cases t <;> rfl

theorem plus1_shows (t : Ty) (c : Nat) (x : Int) (h : shows t c = some x) : plus1 x (top t) = match shows t (c + 1) with | some y => .ok y | none => .ub := by
  have wrap : ∀ (x y lo hi : Int), y = (if x = hi then lo else x + 1) → plus1 x (.wraps lo hi) = .ok y := fun x y lo hi e => by rw [e]; rfl
  cases t <;> simp only [shows, Option.some.injEq] at h
  case int | long | llong =>
    split at h
    · cases h
      simp only [shows, plus1, top]
      by_cases e : c + 1 ≤ 9223372036854775807 <;> by_cases e' : c + 1 ≤ 2147483647 <;>
        first
        | (rw [if_pos (by omega), if_neg (by omega)])
        | (rw [if_neg (by omega), if_pos (by omega)]; simp only [Int.natCast_add, Int.natCast_one]; done)
        | (rw [if_neg (by omega), if_pos (by omega)]; rfl)
    · cases h
  all_goals
    subst h
    simp only [shows, plus1, top, Res.ok.injEq]
    split <;> omega

theorem shows_pred {t : Ty} {c d : Nat} (h : c ≤ d) (hd : (shows t d).isSome = true) : (shows t c).isSome = true := by
  cases t <;> simp only [shows] at hd ⊢ <;> first
    | rfl
    | (split at hd
       · rw [if_pos (by omega)]; rfl
       · cases hd)

/-- Counting, from cells that show `f`. -/
theorem recordAll_shows {t : Ty} {n : Nat} (hn : 1 ≤ n) : ∀ (vs : List Nat) (f : Nat → Nat), (∀ v ∈ vs, 0 < v ∧ v < 2 ^ 64) → (∀ k, k < n → (shows t (f k)).isSome = true) →
    recordAll t ((List.range n).map (fun k => shows t (f k))) vs =
      if ∀ k, k < n → (shows t (f k + count n k vs)).isSome = true then .ok ((List.range n).map (fun k => shows t (f k + count n k vs))) else .ub := by
  intro vs
  induction vs with
  | nil =>
    intro f _ h
    rw [if_pos (by simpa [count] using h)]
    simp [recordAll, count]
  | cons v vs ih =>
    intro f hv h
    have hi : index n v < n := index_lt hn
    have hvv := hv v (by simp)
    have hcount : ∀ k, k < n → count n k (v :: vs) = count n k vs + if index n v = k then 1 else 0 := by
      intro k hk
      unfold count
      rw [List.countP_cons]
      congr 1
      by_cases e : index n v = k
      · rw [if_pos e, if_pos ((index_bucket hn hvv.1 hvv.2 hk).mp e)]
      · rw [if_neg e, if_neg (fun g => e ((index_bucket hn hvv.1 hvv.2 hk).mpr g))]
    obtain ⟨x, hx⟩ := Option.isSome_iff_exists.mp (h _ hi)
    have hrec : record t ((List.range n).map (fun k => shows t (f k))) v = match shows t (f (index n v) + 1) with
        | some y => .ok (((List.range n).map (fun k => shows t (f k))).set (index n v) (some y))
        | none => .ub := by
      unfold record get_by_value get_at
      simp only [List.length_map, List.length_range, List.getElem?_map, List.getElem?_range hi, Option.map_some, hx]
      rw [plus1_shows t _ x hx]
      cases shows t (f (index n v) + 1) with
      | none => rfl
      | some y => simp only [set_by_value, List.length_map, List.length_range]; rw [if_pos hi]
    simp only [recordAll, hrec]
    cases hy : shows t (f (index n v) + 1) with
    | none =>
      simp only
      rw [if_neg]
      intro g
      have g1 := g _ hi
      rw [hcount _ hi, if_pos rfl] at g1
      have := shows_pred (c := f (index n v) + 1) (by omega) g1
      rw [hy] at this; cases this
    | some y =>
      simp only
      have hset : ((List.range n).map (fun k => shows t (f k))).set (index n v) (some y) = (List.range n).map (fun k => shows t (if index n v = k then f k + 1 else f k)) := by
        refine List.ext_getElem? fun k => ?_
        rw [List.getElem?_set]
        simp only [List.length_map, List.length_range, List.getElem?_map]
        by_cases e : index n v = k
        · subst e
          rw [if_pos rfl, if_pos hi, List.getElem?_range hi]
          simp [hy]
        · rw [if_neg e]
          by_cases hk : k < n
          · rw [List.getElem?_range hk]; simp only [Option.map_some, if_neg e]
          · rw [List.getElem?_eq_none (by simp; omega)]; rfl
      have hadd : ∀ k, k < n → (if index n v = k then f k + 1 else f k) + count n k vs = f k + count n k (v :: vs) := by
        intro k hk
        rw [hcount k hk]
        split <;> omega
      rw [hset, ih (fun k => if index n v = k then f k + 1 else f k) (fun u hu => hv u (by simp [hu]))]
      · have e1 : (∀ k, k < n → (shows t ((if index n v = k then f k + 1 else f k) + count n k vs)).isSome = true) ↔ ∀ k, k < n → (shows t (f k + count n k (v :: vs))).isSome = true := by
          constructor <;> intro g k hk
          · rw [← hadd k hk]; exact g k hk
          · rw [hadd k hk]; exact g k hk
        have e2 : (List.range n).map (fun k => shows t ((if index n v = k then f k + 1 else f k) + count n k vs)) = (List.range n).map (fun k => shows t (f k + count n k (v :: vs))) :=
          List.map_congr_left fun k hk => by rw [hadd k (List.mem_range.mp hk)]
        rw [e2]
        by_cases g : ∀ k, k < n → (shows t (f k + count n k (v :: vs))).isSome = true
        · rw [if_pos g, if_pos (e1.mpr g)]
        · rw [if_neg g, if_neg (fun g' => g (e1.mp g'))]
      · intro k hk
        by_cases e : index n v = k
        · subst e; rw [if_pos rfl, hy]; rfl
        · rw [if_neg e]; exact h k hk

/-- **C183, any number of values.** Whatever the numbers of values are: every cell shows what a counter of its type shows after as many increments as there are values of its bucket
(modulo a power of two for the unsigned types), and the behaviour is undefined exactly if a bucket of an `int` or `long` array gets more values than the type can count. -/
theorem C183_any_count_partial (t : Ty) (ht : Counts t) (n : Nat) (hn : 1 ≤ n) (vs : List Nat) (hv : ∀ v ∈ vs, 0 < v ∧ v < 2 ^ 64) :
    recordAll t (create t n) vs = if ∀ k, k < n → (shows t (count n k vs)).isSome = true then .ok ((List.range n).map (fun k => shows t (count n k vs))) else .ub := by
  have h0 : create t n = (List.range n).map (fun k => shows t ((fun _ => 0) k)) := by
    have : initial t = some 0 := by
      simp only [Counts, List.mem_cons, List.not_mem_nil, or_false] at ht
      rcases ht with h | h | h | h | h | h | h | h | h | h <;> subst h <;> rfl
    unfold create
    rw [this]
    simp only [shows_zero]
    refine List.ext_getElem (by simp) fun k _ _ => by simp
  have := recordAll_shows (t := t) hn vs (fun _ => 0) hv (fun k _ => by rw [shows_zero]; rfl)
  simp only [Nat.zero_add] at this
  rw [h0]
  exact this

/-- 300 values 5 in an array of `unsigned char`: bucket 2 shows 44. -/
example : recordAll .uchar (create .uchar 4) (List.replicate 300 5) = .ok [some 0, some 0, some 44, some 0] := by decide +kernel

/-- 200 values 5 in an array of `char`: bucket 2 shows -56. -/
example : recordAll .char (create .char 4) (List.replicate 200 5) = .ok [some 0, some 0, some (-56), some 0] := by decide +kernel

/-- **C183 is false for the value 0.** It is counted in the last bucket, with the largest values: whatever is counted before and after, no one can tell it from 2^(n-1). -/
theorem C183_refuted_zero (t : Ty) (n : Nat) (hn : 1 ≤ n) (hn' : n ≤ 64) (us vs : List Nat) :
    recordAll t (create t n) (us ++ 0 :: vs) = recordAll t (create t n) (us ++ 2 ^ (n - 1) :: vs) := by
  have hp : 2 ^ (n - 1) < 2 ^ 64 := Nat.pow_lt_pow_right (by omega) (by omega)
  have h0 : index n 0 = index n (2 ^ (n - 1)) := by
    rw [C64_zero n hn (by omega)]
    have h2 : (2 : Nat) ^ (n - 1) < 2 ^ (n - 1 + 1) := Nat.pow_lt_pow_right (by omega) (by omega)
    rw [(C64_bucket n (2 ^ (n - 1)) (n - 1) hn hp (Nat.le_refl _) h2).1]
    omega
  have hlen : ∀ (us : List Nat) (a b : List (Option Int)), recordAll t a us = .ok b → b.length = a.length := by
    intro us
    induction us with
    | nil => intro a b h; cases h; rfl
    | cons u us ih =>
      intro a b h
      simp only [recordAll] at h
      cases hr : record t a u with
      | ub => rw [hr] at h; cases h
      | ok a' =>
        rw [hr] at h
        rw [ih a' b h]
        unfold record at hr
        split at hr
        · cases hr
        · cases hr
        · split at hr
          · cases hr
          · unfold set_by_value at hr
            split at hr
            · cases hr; simp
            · cases hr
  rw [recordAll_append, recordAll_append]
  cases h : recordAll t (create t n) us with
  | ub => rfl
  | ok b =>
    have hb : b.length = n := by rw [hlen us _ _ h]; simp [create]
    simp only [recordAll]
    have : record t b 0 = record t b (2 ^ (n - 1)) := by
      unfold record get_by_value set_by_value
      rw [hb, h0]
    rw [this]

/-- **C183 is false beyond the range of the type.** For every type, every number of buckets and every value: when the value has been counted once more than the type can count, the cell does
not hold this number (or the behaviour is undefined). -/
theorem C183_refuted_more (t : Ty) (ht : Counts t) (n : Nat) (hn : 1 ≤ n) (v : Nat) (hv0 : 0 < v) (hv : v < 2 ^ 64) :
    ¬ ∃ a, recordAll t (create t n) (List.replicate (capacity t + 1) v) = .ok a ∧ get_by_value a v = .ok (some ((capacity t + 1 : Nat) : Int)) := by
  rintro ⟨a, h1, h2⟩
  have hi : index n v < n := index_lt hn
  have hcnt : ∀ m k, k < n → count n k (List.replicate m v) = if index n v = k then m else 0 := by
    intro m k hk
    unfold count
    rw [List.countP_replicate]
    by_cases e : index n v = k
    · rw [if_pos e, if_pos ((index_bucket hn hv0 hv hk).mp e)]
    · rw [if_neg e, if_neg (fun g => e ((index_bucket hn hv0 hv hk).mpr g))]
  obtain ⟨b, hb1, hb2⟩ := recordAll_holds (t := t) hn (List.replicate (capacity t) v) (create t n) (fun _ => 0) (fun u hu => by rw [(List.mem_replicate.mp hu).2]; exact ⟨hv0, hv⟩)
    (create_holds ht n) (by intro k hk; rw [hcnt _ k hk]; split <;> omega)
  rw [show List.replicate (capacity t + 1) v = List.replicate (capacity t) v ++ [v] from List.replicate_succ', recordAll_append, hb1] at h1
  simp only [recordAll] at h1
  have hcell : b[index b.length v]? = some (some (capacity t : Int)) := by
    rw [hb2.1, hb2.2 _ hi]
    simp only [hcnt _ _ hi, if_true, Nat.zero_add]
  unfold record get_by_value get_at at h1
  rw [hcell] at h1
  simp only at h1
  have htop := plus1_top t
  cases hp : plus1 (capacity t : Int) (top t) with
  | ub => rw [hp] at h1; cases h1
  | ok y =>
    rw [hp] at h1 htop
    simp only [set_by_value] at h1
    rw [if_pos (by rw [hb2.1]; exact hi)] at h1
    cases h1
    unfold get_by_value get_at at h2
    rw [List.length_set, List.getElem?_set_self (by rw [hb2.1]; exact hi)] at h2
    simp only [Res.ok.injEq, Option.some.injEq] at h2
    exact htop (by rw [h2])

/-- **C183 is false for other types.** In a new log_array of `signed char`, `long long`, `unsigned long long` or `long double` no cell has a value: counting the first value, whatever it is, reads
an indeterminate one. -/
theorem C183_refuted_new (t : Ty) (ht : ¬ Counts t) (n : Nat) (hn : 1 ≤ n) (v : Nat) : record t (create t n) v = .ub := by
  have : initial t = none := by
    cases t <;> first | rfl | exact absurd (by simp [Counts]) ht
  have hlen : (create t n).length = n := by simp [create]
  unfold record get_by_value get_at
  rw [hlen]
  unfold create
  rw [List.getElem?_replicate, if_pos (index_lt hn), this]

/-- **C183, swap.** Two arrays of counters exchange all numbers; arrays of other types may be swapped only after every cell has been assigned. -/
theorem C183_swap_partial (t : Ty) (ht : Counts t) (n : Nat) (hn : 1 ≤ n) (us vs : List Nat) (hu : ∀ v ∈ us, 0 < v ∧ v < 2 ^ 64) (hv : ∀ v ∈ vs, 0 < v ∧ v < 2 ^ 64)
    (hcu : ∀ k, k < n → count n k us ≤ capacity t) (hcv : ∀ k, k < n → count n k vs ≤ capacity t) :
    ∃ a b, recordAll t (create t n) us = .ok a ∧ recordAll t (create t n) vs = .ok b ∧ swapCells a b = .ok (b, a) := by
  obtain ⟨a, h1, h2⟩ := recordAll_holds hn us (create t n) (fun _ => 0) hu (create_holds ht n) (by intro k hk; simpa using hcu k hk)
  obtain ⟨b, h3, h4⟩ := recordAll_holds hn vs (create t n) (fun _ => 0) hv (create_holds ht n) (by intro k hk; simpa using hcv k hk)
  refine ⟨a, b, h1, h3, ?_⟩
  have all : ∀ (c : List (Option Int)) (f : Nat → Nat), Holds n c f → ∀ x ∈ c, x.isSome = true := by
    intro c f h x hx
    obtain ⟨k, hk, e⟩ := List.getElem_of_mem hx
    have := h.2 k (by rw [← h.1]; exact hk)
    rw [List.getElem?_eq_getElem hk, e] at this
    cases this
    rfl
  unfold swapCells
  rw [if_pos ?_]
  · exact C64_swap a b (by rw [h2.1, h4.1])
  · rw [List.all_eq_true]
    intro x hx
    rcases List.mem_append.mp hx with hx | hx
    · exact all a _ h2 x hx
    · exact all b _ h4 x hx

/-- The premises are met: 300 times 5 and once 9 in an array of `unsigned short`; with `unsigned char` the counter is 44. -/
example : recordAll .ushort (create .ushort 4) (List.replicate 300 5 ++ [9, 1]) = .ok [some 1, some 0, some 300, some 1] ∧
    recordAll .uchar (create .uchar 4) (List.replicate 300 5 ++ [9, 1]) = .ok [some 1, some 0, some 44, some 1] ∧
    recordAll .char (create .char 4) (List.replicate 128 5) = .ok [some 0, some 0, some (-128), some 0] ∧
    (∀ k, k < 4 → count 4 k (List.replicate 300 5 ++ [9, 1]) ≤ capacity .ushort) := by decide +kernel

example : recordAll .int (create .int 8) [1, 2, 3, 4, 255, 256, 1000000] = .ok [some 1, some 2, some 1, some 0, some 0, some 0, some 0, some 3] := by decide +kernel

end Verif.LogHist
