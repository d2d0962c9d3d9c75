import Verif.Stream.Model
import Mathlib.Tactic.Common

namespace Verif.Stream

theorem toInt_small {n : Nat} (h : n < 2147483648) : toInt n = n := by
  unfold toInt
  rw [if_pos (by omega)]
  omega

/-- No call is about 2^31 bytes or more. -/
def Op.small : Op → Prop
  | .send data _ => data.length < 2147483648
  | .recv size _ => size < 2147483648
  | _ => True

theorem recv_spec : ∀ (os : List Out) (s s' : State) (size : Nat) (r : Int) (b : List UInt8), size < 2147483648 → 0 < size →
    unix_recv s size os = some (s', r, b) →
      s'.wclosed = s.wclosed ∧ s'.rclosed = s.rclosed ∧ s'.killed = s.killed ∧ s.way = b ++ s'.way ∧
      ((r = -1 ∧ b = []) ∨ (r = b.length ∧ b ≠ []) ∨ (r = 0 ∧ b = [] ∧ s.way = [] ∧ s.wclosed = true))
  | [], _, _, _, _, _, _, _, e => by cases e
  | o :: os, s, s', size, r, b, hs, h0, e => by
    simp only [unix_recv] at e
    cases o with
    | bytes n =>
      by_cases hc : n ≤ size ∧ n ≤ s.way.length ∧ 0 < n
      · have hk : krecv s size (.bytes n) = some ({ s with way := s.way.drop n }, some n, s.way.take n) := by
          simp [krecv, hc.1, hc.2.1, hc.2.2]
        rw [hk] at e
        simp only at e
        split at e
        · cases e
        · rw [toInt_small (by omega)] at e
          rw [if_pos (by omega)] at e
          cases e
          refine ⟨rfl, rfl, rfl, by simp, Or.inr (Or.inl ⟨?_, ?_⟩)⟩
          · simp only [List.length_take]; omega
          · intro h
            have := congrArg List.length h
            simp only [List.length_take, List.length_nil] at this
            omega
      · have hk : krecv s size (.bytes n) = none := by
          simp only [krecv]
          rw [if_neg]
          simpa [and_assoc] using hc
        rw [hk] at e; cases e
    | intr =>
      simp only [krecv, if_true] at e
      exact recv_spec os s s' size r b hs h0 e
    | again =>
      simp only [krecv] at e
      rw [if_neg (by decide)] at e
      split at e
      · cases e; exact ⟨rfl, rfl, rfl, rfl, Or.inl ⟨rfl, rfl⟩⟩
      · cases e
    | pipe => simp [krecv] at e
    | eof =>
      by_cases hc : s.way = [] ∧ s.wclosed = true
      · simp only [krecv, hc.1, hc.2] at e
        simp only [List.isEmpty_nil, Bool.and_true, Bool.true_or, if_true] at e
        split at e
        · cases e
        · rw [toInt_small (by decide)] at e
          rw [if_pos (by simp)] at e
          cases e
          exact ⟨rfl, rfl, rfl, rfl, Or.inr (Or.inr ⟨rfl, rfl, hc.1, hc.2⟩)⟩
      · have hk : krecv s size .eof = none := by
          simp only [krecv]
          rw [if_neg]
          simp only [Bool.or_eq_true, Bool.and_eq_true, decide_eq_true_eq, List.isEmpty_iff]
          rintro (h | h)
          · exact hc h
          · omega
        rw [hk] at e; cases e

/-- What send does. -/
theorem send_spec {s s' : State} {data : List UInt8} {o : Out} {r : Int} (hd : data.length < 2147483648) (e : unix_send s data o = some (s', r)) :
    s'.wclosed = s.wclosed ∧ s'.rclosed = s.rclosed ∧ s'.killed = s.killed ∧ s'.way = s.way ++ data.take r.toNat ∧
      (r = -1 ∨ (0 ≤ r ∧ r ≤ data.length)) := by
  simp only [unix_send] at e
  cases o with
  | bytes n =>
    simp only [ksend] at e
    split at e
    · cases e
    · rename_i h; split at h <;> cases h
    · rename_i h
      split at h
      · rename_i hc
        simp only [Bool.and_eq_true, decide_eq_true_eq] at hc
        cases h
        rw [toInt_small (by omega)] at e
        cases e
        refine ⟨rfl, rfl, rfl, by simp, Or.inr ⟨by omega, by omega⟩⟩
      · cases h
  | intr => simp only [ksend] at e; cases e; exact ⟨rfl, rfl, rfl, by simp, Or.inl rfl⟩
  | again => simp only [ksend] at e; cases e; exact ⟨rfl, rfl, rfl, by simp, Or.inl rfl⟩
  | pipe =>
    by_cases hr : s.rclosed = true
    · simp only [ksend, hr, if_true] at e
      cases e
      exact ⟨rfl, hr.symm, by simp, by simp, Or.inl rfl⟩
    · simp [ksend, hr] at e
  | eof => simp [ksend] at e

structure Inv (c : Conv) : Prop where
  all : c.got ++ c.st.way = c.told
  alive : c.st.killed = false
  fin : c.ended = true → c.st.wclosed = true ∧ c.st.way = []

theorem inv_step {c c' : Conv} {a : Op} (I : Inv c) (hs : a.small) (e : step c a = some c') : Inv c' := by
  cases a with
  | send data o =>
    simp only [step] at e
    split at e
    · cases e
    · rename_i hw
      simp only [Bool.or_eq_true, not_or, Bool.not_eq_true] at hw
      split at e
      · cases e
      · rename_i s r he
        cases e
        obtain ⟨h1, h2, h3, h4, h5⟩ := send_spec hs he
        refine ⟨?_, by rw [h3]; exact I.alive, ?_⟩
        · simp only [h4, ← List.append_assoc, I.all]
        · intro h
          exact absurd (I.fin h).1 (by simp [hw.1])
  | recv size os =>
    simp only [step] at e
    split at e
    · cases e
    · rename_i hw
      simp only [Bool.or_eq_true, decide_eq_true_eq, not_or] at hw
      split at e
      · cases e
      · rename_i s r b he
        cases e
        obtain ⟨h1, h2, h3, h4, h5⟩ := recv_spec os _ _ _ _ _ hs (by omega) he
        have hb : b.take r.toNat = b := by
          rcases h5 with ⟨rfl, rfl⟩ | ⟨rfl, _⟩ | ⟨rfl, rfl, _⟩ <;> simp
        refine ⟨?_, by rw [h3]; exact I.alive, ?_⟩
        · simp only [hb]; rw [List.append_assoc, ← h4]; exact I.all
        · intro h
          simp only [Bool.or_eq_true, beq_iff_eq] at h
          rcases h with h | h
          · obtain ⟨k1, k2⟩ := I.fin h
            rw [k2] at h4
            refine ⟨h1.trans k1, ?_⟩
            exact (List.append_eq_nil_iff.1 h4.symm).2
          · rcases h5 with ⟨rfl, _⟩ | ⟨rfl, hne⟩ | ⟨_, hb', hw', hc⟩
            · cases h
            · exact absurd (List.length_eq_zero_iff.1 (by omega)) hne
            · rw [hw'] at h4
              exact ⟨h1.trans hc, (List.append_eq_nil_iff.1 h4.symm).2⟩
  | wclose =>
    simp only [step] at e; cases e
    exact ⟨I.all, I.alive, fun h => ⟨rfl, (I.fin h).2⟩⟩
  | rclose =>
    simp only [step] at e; cases e
    exact ⟨I.all, I.alive, I.fin⟩

theorem inv_run : ∀ (as : List Op) (c c' : Conv), Inv c → (∀ a ∈ as, a.small) → run c as = some c' → Inv c'
  | [], c, c', I, _, e => by cases e; exact I
  | a :: as, c, c', I, hs, e => by
    simp only [run] at e
    cases h1 : step c a with
    | none => rw [h1] at e; cases e
    | some t =>
      rw [h1] at e
      exact inv_run as t c' (inv_step I (hs a List.mem_cons_self) h1) (fun b hb => hs b (List.mem_cons_of_mem _ hb)) e

theorem inv_start : Inv start := ⟨rfl, rfl, by simp [start]⟩

end Verif.Stream
