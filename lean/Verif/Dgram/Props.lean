import Verif.Dgram.Model
import Verif.Stream.Lemmas
/-
  Property C194: messages through coda_unix_send and coda_unix_recv on datagram sockets.
-/
set_option linter.unusedSimpArgs false
set_option linter.unusedVariables false

namespace Verif.Dgram

open Verif.Stream (toInt toInt_small)

/-- Calls of less than 2^31 bytes. -/
def Op.small : Op → Prop
  | .send _ data _ => data.length < 2147483648
  | .recv size _ => size < 2147483648

/-- What one call of recv does. -/
theorem recv_spec {size : Nat} (h : size < 2147483648) : ∀ (os : List Out) {s s' : State} {r : Int} {b : List UInt8}, unix_recv s size os = some (s', r, b) →
    (s' = s ∧ r = -1 ∧ os.getLast? = some .again) ∨ ∃ i m, s = (i, m) :: s' ∧ r = ((m.take size).length : Int) ∧ b = m.take size ∧ os.getLast? = some .ok := by
  intro os
  induction os with
  | nil => intro s s' r b e; cases e
  | cons o os ih =>
    intro s s' r b e
    cases o with
    | intr =>
      have e' : unix_recv s size os = some (s', r, b) := e
      have hne : os ≠ [] := by rintro rfl; cases e'
      rw [List.getLast?_cons_of_ne_nil hne]
      exact ih e'
    | again =>
      simp only [unix_recv] at e
      split at e
      · rename_i h0
        cases e
        rw [h0]
        exact Or.inl ⟨rfl, rfl, rfl⟩
      · cases e
    | ok =>
      cases s with
      | nil => cases e
      | cons p s =>
        obtain ⟨i, m⟩ := p
        have hl : (m.take size).length < 2147483648 := by rw [List.length_take]; omega
        simp only [unix_recv, toInt_small hl] at e
        split at e
        · cases e
        · rename_i h0
          rw [if_pos (by omega)] at e
          cases e
          have : os = [] := by simpa using h0
          subst this
          exact Or.inr ⟨i, m, rfl, rfl, rfl, rfl⟩

/-- A call that is given a message. -/
theorem recv_ok (s : State) (i size : Nat) (m : List UInt8) (h : size < 2147483648) : unix_recv ((i, m) :: s) size [.ok] = some (s, ((m.take size).length : Int), m.take size) := by
  have hl : (m.take size).length < 2147483648 := by rw [List.length_take]; omega
  simp only [unix_recv, toInt_small hl]
  rw [if_neg (by simp), if_pos (by omega)]

/-- What holds in every conversation. -/
structure Inv (c : Conv) : Prop where
  le : c.got.length ≤ c.told.length
  rest : c.told.drop c.got.length = c.st
  each : ∀ (j size : Nat) (b : List UInt8), c.got[j]? = some (size, b) → ∃ i m, c.told[j]? = some (i, m) ∧ b = m.take size

/-- A send that fails changes nothing. -/
theorem step_fail (c : Conv) (i : Nat) (data : List UInt8) {o : Out} (h : o ≠ .ok) : step c (.send i data o) = some c := by
  cases o with
  | ok => exact absurd rfl h
  | intr => rfl
  | again => rfl

theorem inv_step {c c' : Conv} {a : Op} (h : Inv c) (hs : a.small) (e : step c a = some c') : Inv c' := by
  obtain ⟨h1, h2, h3⟩ := h
  cases a with
  | send i data o =>
    have hs : data.length < 2147483648 := hs
    cases o with
    | ok =>
      simp only [step, unix_send, toInt_small hs, Option.some.injEq] at e
      rw [if_pos (by omega)] at e
      subst e
      refine ⟨by simp; omega, by rw [List.drop_append_of_le_length h1, h2], fun j size b hj => ?_⟩
      obtain ⟨i', m, g1, g2⟩ := h3 j size b hj
      exact ⟨i', m, by rw [List.getElem?_append_left (List.getElem?_eq_some_iff.mp g1).1]; exact g1, g2⟩
    | intr =>
      rw [step_fail c i data (o := .intr) (by decide)] at e
      cases e
      exact ⟨h1, h2, h3⟩
    | again =>
      rw [step_fail c i data (o := .again) (by decide)] at e
      cases e
      exact ⟨h1, h2, h3⟩
  | recv size os =>
    simp only [step] at e
    cases hu : unix_recv c.st size os with
    | none => rw [hu] at e; cases e
    | some q =>
      obtain ⟨s', r, b⟩ := q
      rw [hu] at e
      simp only [Option.some.injEq] at e
      rcases recv_spec hs os hu with ⟨rfl, rfl, _⟩ | ⟨i, m, g1, rfl, rfl, _⟩
      · rw [if_neg (by omega)] at e
        subst e
        exact ⟨h1, h2, h3⟩
      · rw [if_pos (by omega)] at e
        subst e
        have hd : c.told.drop c.got.length = (i, m) :: s' := by rw [h2, g1]
        have hlt : c.got.length < c.told.length := by
          have := congrArg List.length hd
          simp only [List.length_drop, List.length_cons] at this
          omega
        have hget : c.told[c.got.length]? = some (i, m) := by
          have := congrArg List.head? hd
          rwa [List.head?_drop, List.head?_cons] at this
        refine ⟨by simp; omega, ?_, ?_⟩
        · simp only [List.length_append, List.length_singleton]
          rw [← List.drop_drop, hd]
          rfl
        · intro j size' b' hj
          by_cases hjl : j < c.got.length
          · rw [List.getElem?_append_left hjl] at hj
            exact h3 j size' b' hj
          · have hj' : j = c.got.length := by
              have := (List.getElem?_eq_some_iff.mp hj).1
              simp only [List.length_append, List.length_singleton] at this
              omega
            subst hj'
            rw [List.getElem?_append_right (Nat.le_refl _)] at hj
            simp only [Nat.sub_self, List.getElem?_cons_zero, Option.some.injEq, Prod.mk.injEq] at hj
            obtain ⟨rfl, rfl⟩ := hj
            exact ⟨i, m, hget, List.take_of_length_le (by simp)⟩

theorem inv_run : ∀ (as : List Op) {c c' : Conv}, Inv c → (∀ a ∈ as, a.small) → run c as = some c' → Inv c' := by
  intro as
  induction as with
  | nil => intro c c' h _ e; cases e; exact h
  | cons a as ih =>
    intro c c' h hs e
    simp only [run] at e
    cases h1 : step c a with
    | none => rw [h1] at e; cases e
    | some c1 =>
      rw [h1] at e
      exact ih (inv_step h (hs a (by simp)) h1) (fun x hx => hs x (by simp [hx])) e

/-- **C194, in part.** On datagram sockets, for calls of less than 2^31 bytes, whatever calls are interrupted or fail: the messages received are the first of those for which a send has returned a
length, in this order, one for each call, and the others are under way; a message that is not longer than the buffer is received whole.  Missing: longer messages (`C194_refuted_cut`), sends that
are interrupted (`C194_refuted_send`), messages of 2^31 bytes. -/
theorem C194_messages_partial (as : List Op) (c : Conv) (hs : ∀ a ∈ as, a.small) (e : run start as = some c) :
    c.got.length ≤ c.told.length ∧ c.st = c.told.drop c.got.length ∧
    ∀ (j size : Nat) (b : List UInt8), c.got[j]? = some (size, b) → ∃ i m, c.told[j]? = some (i, m) ∧ b = m.take size ∧ (m.length ≤ size → b = m) := by
  have h := inv_run as ⟨Nat.le_refl _, rfl, by intro j size b hj; cases hj⟩ hs e
  refine ⟨h.le, h.rest.symm, fun j size b hj => ?_⟩
  obtain ⟨i, m, g1, g2⟩ := h.each j size b hj
  exact ⟨i, m, g1, g2, fun hm => by rw [g2, List.take_of_length_le hm]⟩

/-- **C194, in part:** the messages of one sender arrive in the order of its calls: those for which a send has returned a length are those of its calls that the kernel has taken. -/
theorem C194_sender_partial (i : Nat) (as : List Op) (c : Conv) (hs : ∀ a ∈ as, a.small) (e : run start as = some c) :
    c.told.filter (fun p => p.1 = i) = as.filterMap (fun | .send j data .ok => if j = i then some (j, data) else none | _ => none) := by
  have key : ∀ (as : List Op) (c c' : Conv), (∀ a ∈ as, a.small) → run c as = some c' →
      c'.told.filter (fun p => p.1 = i) = c.told.filter (fun p => p.1 = i) ++ as.filterMap (fun | .send j data .ok => if j = i then some (j, data) else none | _ => none) := by
    intro as
    induction as with
    | nil => intro c c' _ e; cases e; simp
    | cons a as ih =>
      intro c c' hs e
      simp only [run] at e
      cases h1 : step c a with
      | none => rw [h1] at e; cases e
      | some c1 =>
        rw [h1] at e
        rw [ih c1 c' (fun x hx => hs x (by simp [hx])) e]
        cases a with
        | recv size os =>
          simp only [step] at h1
          cases hu : unix_recv c.st size os with
          | none => rw [hu] at h1; cases h1
          | some q => rw [hu] at h1; cases h1; rfl
        | send j data o =>
          have hd : data.length < 2147483648 := hs (.send j data o) (by simp)
          cases o with
          | ok =>
            simp only [step, unix_send, toInt_small hd, Option.some.injEq] at h1
            rw [if_pos (by omega)] at h1
            subst h1
            by_cases hj : j = i
            · simp [hj, List.filter_append]
            · simp [hj, List.filter_append]
          | intr =>
            rw [step_fail c j data (o := .intr) (by decide)] at h1
            cases h1; rfl
          | again =>
            rw [step_fail c j data (o := .again) (by decide)] at h1
            cases h1; rfl
  have := key as start c hs e
  simpa [start] using this

/-- **C194, signals:** coda_unix_recv gives a negative number only if recv(2) has failed for another reason than a signal, and then no message is lost. -/
theorem C194_recv (os : List Out) (s s' : State) (size : Nat) (r : Int) (b : List UInt8) (h : size < 2147483648) (e : unix_recv s size os = some (s', r, b)) (hr : r < 0) :
    r = -1 ∧ s' = s ∧ os.getLast? = some .again := by
  rcases recv_spec h os e with ⟨g1, g2, g3⟩ | ⟨i, m, _, g2, _, _⟩
  · exact ⟨g2, g1, g3⟩
  · omega

/-- **C194 is false for messages that are longer than the buffer**: the call returns the size of the buffer, as for a message of this length, and the rest of the message is gone. -/
theorem C194_refuted_cut (s : State) (i size : Nat) (m : List UInt8) (h : size < m.length) (hs : size < 2147483648) :
    unix_recv ((i, m) :: s) size [.ok] = some (s, (size : Int), m.take size) ∧ unix_recv ((i, m.take size) :: s) size [.ok] = some (s, (size : Int), m.take size) := by
  have h1 : (m.take size).length = size := by rw [List.length_take]; omega
  have h2 : (m.take size).take size = m.take size := by rw [List.take_take, Nat.min_self]
  have g1 := recv_ok s i size m hs
  have g2 := recv_ok s i size (m.take size) hs
  rw [h1] at g1
  rw [h2, h1] at g2
  exact ⟨g1, g2⟩

/-- **C194 is false for sends that a signal interrupts**: send does not try again (as recv does); the message is not sent. -/
theorem C194_refuted_send (s : State) (i : Nat) (data : List UInt8) : unix_send s i data .intr = (s, -1) := rfl

/-- **C194: an empty message looks like the end of a connection**: the call returns 0. -/
theorem C194_refuted_empty (s : State) (i size : Nat) : unix_recv ((i, []) :: s) size [.ok] = some (s, 0, []) := by
  have : toInt 0 = 0 := by decide
  simp [unix_recv, this]

/-- **C194: for buffers of any size, a result below 0 is -1.** -/
theorem C194_recv_any (size : Nat) : ∀ (os : List Out) (s s' : State) (r : Int) (b : List UInt8), unix_recv s size os = some (s', r, b) → r < 0 → r = -1 := by
  intro os
  induction os with
  | nil => intro s s' r b e; cases e
  | cons o os ih =>
    intro s s' r b e hr
    cases o with
    | intr => exact ih s s' r b e hr
    | again =>
      simp only [unix_recv] at e
      split at e
      · simp only [Option.some.injEq, Prod.mk.injEq] at e
        exact e.2.1.symm
      · cases e
    | ok =>
      cases s with
      | nil => cases e
      | cons x s =>
        simp only [unix_recv] at e
        split at e
        · cases e
        · split at e
          · simp only [Option.some.injEq, Prod.mk.injEq] at e
            omega
          · simp only [Option.some.injEq, Prod.mk.injEq] at e
            exact e.2.1.symm

/-- **C194 is false for messages of 2 to 4 gigabytes** (if a kernel had them): the call returns -1 and the message is gone. -/
theorem C194_refuted_large (s : State) (i size : Nat) (m : List UInt8) (h : 2147483648 ≤ (m.take size).length) (h' : (m.take size).length < 4294967296) :
    unix_recv ((i, m) :: s) size [.ok] = some (s, -1, m.take size) := by
  have h1 : ¬ 0 ≤ toInt (m.take size).length := by
    unfold toInt
    split <;> omega
  simp only [unix_recv]
  rw [if_neg (by simp), if_neg h1]

/-- Two senders, interruptions, a message that is cut. -/
example : (run start [.send 1 [1, 2, 3] .ok, .send 2 [4] .intr, .send 2 [4, 5] .ok, .recv 8 [.intr, .intr, .ok], .send 1 [6, 7, 8] .ok, .recv 8 [.again], .recv 1 [.ok]]).map
    (fun c => (c.got, c.told, c.st)) = some ([(8, [1, 2, 3]), (1, [4])], [(1, [1, 2, 3]), (2, [4, 5]), (1, [6, 7, 8])], [(1, [6, 7, 8])]) := by decide +kernel

end Verif.Dgram
