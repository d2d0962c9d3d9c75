import Verif.MapTorn.Lemmas
/-
  Property C161: an insert that is killed leaves the old or the new value, as a whole.
-/
set_option linter.unusedVariables false

namespace Verif.MapTorn

open Verif.ShmPool Verif.ShmMap

variable {W : Type} {n N H : Nat}

/-- A reachable state: some history, in which processes may have been killed where the map survives it (cf. C52), leads to it from a fresh map. -/
def Reached (N H : Nat) (ord : List (Fin n)) (m : Map (Val n W)) : Prop :=
  ∃ m0 es rs, Init H m0 ∧ (∀ e ∈ es, Survives H e) ∧ runS N H ord m0 es = .ok (m, rs)

theorem Reached.rep {ord : List (Fin n)} (ho : ∀ j, j ∈ ord) (hN : N < NONE) (hH : 0 < H) {m : Map (Val n W)} (h : Reached N H ord m) :
    ∃ f fr lk l, Rep N H m f fr lk l := by
  obtain ⟨m0, es, rs, hi, hs, e⟩ := h
  obtain ⟨m', rs', f', fr', lk', l', e', _, h', _⟩ := run_rep ho hN hH es hs m0 _ _ _ _ (rep_init m0 hi.1 hi.2.1 hi.2.2)
  rw [e] at e'
  cases e'
  exact ⟨f', fr', lk', l', h'⟩

/-- **C161, the part that holds for every type.** Values have any number of words, copied in any order.  In every history with any number of
killed processes all completed operations behave like a finite map in which a killed operation took effect completely or not at all,
except that an insert killed over a bound key may leave under this key a value each of whose words is the old or the new one.
Missing: that this value is the old or the new one as a whole (`C161_refuted`).  The kill points of C52 at which the map itself breaks are
excluded as there. -/
theorem C161_mixed_partial (hN : N < 2 ^ 31) (hH : 0 < H) {ord : List (Fin n)} (ho : ∀ j, j ∈ ord) (m : Map (Val n W)) (hm : Init H m)
    (es : List (ShmMap.Spec.Ev (Val n W))) (hs : ∀ e ∈ es, Survives H e) :
    ∃ m' rs, runS N H ord m es = .ok (m', rs) ∧ Spec.SeesMixed N 0 [] es rs := by
  have hN' : N < NONE := by unfold NONE; omega
  obtain ⟨m', rs, _, _, _, _, e, h, _⟩ := run_rep ho hN' hH es hs m _ _ _ _ (rep_init m hm.1 hm.2.1 hm.2.2)
  exact ⟨m', rs, e, h⟩

/-- **C161, the part that holds for values of one word** (`_Type` is an integer or a pointer): the killed operation took effect completely or
not at all. -/
theorem C161_word_partial (hN : N < 2 ^ 31) (hH : 0 < H) {ord : List (Fin 1)} (ho : ∀ j, j ∈ ord) (m : Map (Val 1 W)) (hm : Init H m)
    (es : List (ShmMap.Spec.Ev (Val 1 W))) (hs : ∀ e ∈ es, Survives H e) :
    ∃ m' rs, runS N H ord m es = .ok (m', rs) ∧ ShmMap.Spec.Sees N 0 [] es rs := by
  have hN' : N < NONE := by unfold NONE; omega
  obtain ⟨m', rs, _, _, _, _, e, _, _, h⟩ := run_rep ho hN' hH es hs m _ _ _ _ (rep_init m hm.1 hm.2.1 hm.2.2)
  exact ⟨m', rs, e, h (Nat.le_refl 1)⟩

/-- **C161, the part that holds for new keys.** If a key is not bound and an insert of it is killed anywhere, then the key is still not bound or
it is bound to the whole new value; all other keys keep their values. -/
theorem C161_new_partial (hN : N < 2 ^ 31) (hH : 0 < H) {ord : List (Fin n)} (ho : ∀ j, j ∈ ord) (m : Map (Val n W)) (hm : Reached N H ord m)
    (k : UInt64) (hk : unprotected_read N H m k = .ok none) (v : Val n W) (c : Nat) :
    ∃ m', killS N H ord m (.insert k v) c = .ok m' ∧
      (unprotected_read N H m' k = .ok none ∨ unprotected_read N H m' k = .ok (some v)) ∧
      ∀ k', k' ≠ k → unprotected_read N H m' k' = unprotected_read N H m k' := by
  have hN' : N < NONE := by unfold NONE; omega
  obtain ⟨f, fr, lk, l, h⟩ := hm.rep ho hN' hH
  obtain ⟨m1, f1, fr1, lk1, l1, e1, h1, _, hl⟩ := killS_spec ho hN' hH h (.insert k v) c (by simp) (by simp)
  have hnone : ShmMap.Spec.lookup l k = none := by
    have := read_spec hN' hH h k
    rw [hk] at this
    injection this with this
    exact this.symm
  refine ⟨m1, e1, ?_⟩
  simp only [read_spec hN' hH h1, read_spec hN' hH h]
  rcases hl with (rfl | hl) | ⟨k', v', old, ho', hlo, _⟩
  · rw [hnone]; exact ⟨Or.inl rfl, fun _ _ => rfl⟩
  · simp only [ShmMap.Spec.stepL, ShmMap.Spec.step] at hl
    split at hl
    · subst hl
      rw [lookup_bind k v h1.keysL]; exact ⟨Or.inr rfl, fun k' hk' => by rw [lookup_bind_ne l v hk']⟩
    · subst hl
      rw [hnone]; exact ⟨Or.inl rfl, fun _ _ => rfl⟩
  · cases ho'
    rw [hnone] at hlo; cases hlo

/-- What a later read finds after an insert over a bound key was killed after `c` stores: exactly the words that were stored are new.
All other keys keep their values. -/
theorem C161_exact (hN : N < 2 ^ 31) (hH : 0 < H) {ord : List (Fin n)} (ho : ∀ j, j ∈ ord) (m : Map (Val n W)) (hm : Reached N H ord m)
    (k : UInt64) (old : Val n W) (hk : unprotected_read N H m k = .ok (some old)) (v : Val n W) (c : Nat) :
    ∃ m', killS N H ord m (.insert k v) c = .ok m' ∧
      unprotected_read N H m' k = .ok (some (fun j => if j ∈ ord.take c then v j else old j)) ∧
      ∀ k', k' ≠ k → unprotected_read N H m' k' = unprotected_read N H m k' := by
  have hN' : N < NONE := by unfold NONE; omega
  obtain ⟨f, fr, lk, l, h⟩ := hm.rep ho hN' hH
  have hsome : ShmMap.Spec.lookup l k = some old := by
    have := read_spec hN' hH h k
    rw [hk] at this
    injection this with this
    exact this.symm
  have hhas : ShmMap.Spec.has l k := by
    by_cases hh : ShmMap.Spec.has l k
    · exact hh
    · rw [lookup_none hh] at hsome; cases hsome
  have hfound : ∃ i, ∀ u, unprotected_insert N H m k u = .ok (true, [.val i u]) := by
    have hb := Nat.mod_lt k.toNat hH
    obtain ⟨i, hi, hki⟩ := (h.has_iff hH k).mp hhas
    have hne : f (k.toNat % H) ≠ [] := by intro h0; rw [h0] at hi; cases hi
    have hch := h.chain _ hb
    have hlt : ∀ i ∈ f (k.toNat % H), i < N := fun i hi => h.lt (mem_nodes.mpr ⟨_, hb, hi⟩)
    have he : m.hash (k.toNat % H) ≠ NONE := by
      cases hf : f (k.toNat % H) with
      | nil => exact absurd hf hne
      | cons x xs =>
        rw [hf] at hch
        rw [hch.1]
        have := hlt x (by rw [hf]; simp); omega
    rcases findLast_spec (k := k) hN' hch hlt (by have := h.len_le hb; omega : _ ≤ N + 1) hne with ⟨i, _, _, e⟩ | ⟨hno, _⟩
    · refine ⟨i, fun u => ?_⟩
      unfold unprotected_insert
      rw [if_neg (by omega)]
      dsimp only
      rw [if_pos he, e]
      rfl
    · exact absurd hki (hno i hi)
  obtain ⟨i, hf⟩ := hfound
  obtain ⟨_, hl⟩ := found_lookup hN' hH h hf
  rw [hsome] at hl
  injection hl with hl
  obtain ⟨m', f', fr', e, h'⟩ := kill_found ord hN' hH h hf v c
  refine ⟨m', e, ?_, fun k' hk' => by rw [read_spec hN' hH h', read_spec hN' hH h, lookup_bind_ne l _ hk']⟩
  rw [read_spec hN' hH h', lookup_bind k _ h'.keysL, ← hl]
  rfl

/-- **C161 is false for values of two words and more**: whatever the order of the copy, when the process is killed after some words that differ
were stored and before others that differ, the next read returns a value that is neither the old nor the new one. -/
theorem C161_refuted (hN : N < 2 ^ 31) (hH : 0 < H) {ord : List (Fin n)} (ho : ∀ j, j ∈ ord) (m : Map (Val n W)) (hm : Reached N H ord m)
    (k : UInt64) (old : Val n W) (hk : unprotected_read N H m k = .ok (some old)) (v : Val n W) (c : Nat)
    (j₁ j₂ : Fin n) (h1 : j₁ ∈ ord.take c) (h2 : j₂ ∉ ord.take c) (d1 : v j₁ ≠ old j₁) (d2 : v j₂ ≠ old j₂) :
    ∃ m' u, killS N H ord m (.insert k v) c = .ok m' ∧ unprotected_read N H m' k = .ok (some u) ∧ u ≠ old ∧ u ≠ v := by
  obtain ⟨m', e, r, _⟩ := C161_exact hN hH ho m hm k old hk v c
  refine ⟨m', _, e, r, ?_, ?_⟩
  · intro h
    have := congrFun h j₁
    rw [if_pos h1] at this
    exact d1 this
  · intro h
    have := congrFun h j₂
    rw [if_neg h2] at this
    exact d2 this.symm

/-! Non-trivial cases: values of two words (say, a balance and a date), copied in order. -/

/-- a fresh map -/
def mt : Map (Val 2 Nat) := { pool := ⟨0, ⟨NONE, fun _ => 77⟩⟩, key := fun _ => 5, val := fun _ _ => 99, next := fun _ => 13, hash := fun _ => NONE }

/-- the words of the results -/
def show_ (r : Res (Map (Val 2 Nat) × List (Ret (Val 2 Nat)))) : Option (List (Option (Nat × Nat))) :=
  match r with
  | .ok (_, rs) => some (rs.filterMap (fun r => match r with | .val (some v) => some (some (v 0, v 1)) | .val none => some none | _ => none))
  | .ub => none

def pair (a b : Nat) : Val 2 Nat := fun j => if j = 0 then a else b

/-- An insert over key 4 is killed between the two words: the reader sees (8, 40), which nobody inserted; an insert of the new key 6 is
killed inside of the value: 6 stays unbound. -/
example : show_ (runS 3 2 [0, 1] mt [.done (.insert 4 (pair 4 40)), .killed (.insert 4 (pair 8 80)) 1, .done (.read 4),
    .killed (.insert 6 (pair 6 60)) 3, .done (.read 6), .done (.insert 6 (pair 6 61)), .done (.read 6), .done (.read 4)]) =
    some [some (8, 40), none, some (6, 61), some (8, 40)] := by decide +kernel

example : ∃ m : Map (Val 2 Nat), Reached 3 2 [0, 1] m ∧ (unprotected_read 3 2 m 4).map (fun o => o.map (fun v => (v 0, v 1))) = .ok (some (4, 40)) ∧
    (unprotected_read 3 2 m 6).map (fun o => o.map (fun v => (v 0, v 1))) = .ok none :=
  ⟨_, ⟨mt, [.done (.insert 4 (pair 4 40))], _, ⟨rfl, rfl, fun _ _ => rfl⟩, by intro e he; simp at he; subst he; trivial, rfl⟩,
    by decide +kernel, by decide +kernel⟩

example : (∀ j : Fin 2, j ∈ [(0 : Fin 2), 1]) ∧ (0 : Fin 2) ∈ [(0 : Fin 2), 1].take 1 ∧ (1 : Fin 2) ∉ [(0 : Fin 2), 1].take 1 ∧
    pair 8 80 0 ≠ pair 4 40 0 ∧ pair 8 80 1 ≠ pair 4 40 1 := by decide

/-- one word: the kill leaves the old or the new value -/
example : (runS 3 2 [0] ({ pool := ⟨0, ⟨NONE, fun _ => 77⟩⟩, key := fun _ => 5, val := fun _ _ => 99, next := fun _ => 13, hash := fun _ => NONE } : Map (Val 1 Nat))
    [.done (.insert 4 (fun _ => 40)), .killed (.insert 4 (fun _ => 80)) 0, .done (.read 4), .killed (.insert 4 (fun _ => 80)) 1, .done (.read 4)]).map
    (fun r => r.2.filterMap (fun r => match r with | .val (some v) => some (v 0) | _ => none)) = .ok [40, 80] := by decide +kernel

end Verif.MapTorn
