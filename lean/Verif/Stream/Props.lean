/-
  C160: what coda_unix_send and coda_unix_recv say is true of the bytes on the way.
-/
import Verif.Stream.Lemmas

namespace Verif.Stream

/-- C160, for calls of less than 2^31 bytes: in every conversation the bytes received are the first of those that the sender was told to have
been sent, in their order; after recv has returned 0 they are all of them; the sender is not killed by SIGPIPE. -/
theorem C160_stream_partial (as : List Op) (c : Conv) (hs : ∀ a ∈ as, a.small) (e : run start as = some c) :
    c.got <+: c.told ∧ (c.ended = true → c.got = c.told) ∧ c.st.killed = false := by
  have I := inv_run as _ _ inv_start hs e
  refine ⟨⟨_, I.all⟩, fun h => ?_, I.alive⟩
  have := I.all
  rw [(I.fin h).2, List.append_nil] at this
  exact this

/-- Sends that are cut short and interrupted, receives that are interrupted. -/
example : (run start [.send [1, 2, 3] (.bytes 2), .send [3] .intr, .recv 8 [.intr, .intr, .bytes 1], .send [3] (.bytes 1), .wclose,
    .recv 8 [.bytes 2], .recv 8 [.intr, .eof]]).map (fun c => (c.got, c.told, c.ended)) = some ([1, 2, 3], [1, 2, 3], true) := by decide +kernel

/-- C160: recv gives a negative number only if recv(2) failed for another reason than a signal, and then gives -1; otherwise it gives at least one byte or the end. -/
theorem C160_recv (os : List Out) (s s' : State) (size : Nat) (r : Int) (b : List UInt8) (h : size < 2147483648) (h0 : 0 < size)
    (e : unix_recv s size os = some (s', r, b)) (hr : r < 0) : r = -1 ∧ s' = s ∧ os.getLast? = some .again := by
  induction os with
  | nil => cases e
  | cons o os ih =>
    cases o with
    | intr =>
      have e' : unix_recv s size os = some (s', r, b) := by simpa [unix_recv, krecv] using e
      obtain ⟨h0', h1, h2⟩ := ih e'
      refine ⟨h0', h1, ?_⟩
      cases os with
      | nil => cases e'
      | cons o' os' => simpa using h2
    | again =>
      have hos : os = [] ∧ s = s' ∧ r = -1 := by
        simp only [unix_recv, krecv] at e
        rw [if_neg (by decide)] at e
        split at e
        · rename_i ho; cases e; exact ⟨ho, rfl, rfl⟩
        · cases e
      rw [hos.1]; exact ⟨hos.2.2, hos.2.1.symm, rfl⟩
    | bytes n =>
      exfalso
      simp only [unix_recv] at e
      by_cases hc : n ≤ size ∧ n ≤ s.way.length ∧ 0 < n
      · have hk : krecv s size (.bytes n) = some ({ s with way := s.way.drop n }, some n, s.way.take n) := by
          simp [krecv, hc.1, hc.2.1, hc.2.2]
        rw [hk] at e
        simp only at e
        split at e
        · cases e
        · rw [toInt_small (by omega), if_pos (by omega)] at e
          cases e
          omega
      · have hk : krecv s size (.bytes n) = none := by
          simp only [krecv]
          rw [if_neg]
          simpa [and_assoc] using hc
        rw [hk] at e; cases e
    | pipe => simp [unix_recv, krecv] at e
    | eof =>
      exfalso
      simp only [unix_recv, krecv] at e
      split at e
      · cases e
      · rename_i hh; split at hh <;> cases hh
      · rename_i hh
        split at hh
        · cases hh
          split at e
          · cases e
          · rw [toInt_small (by decide), if_pos (by simp)] at e
            cases e
            cases hr
        · cases hh

/-- C160 is refuted: send does not hide interruptions (as recv does), and does not send everything it is given. -/
theorem C160_refuted_send (data : List UInt8) (n : Nat) (h0 : 0 < n) (hn : n < data.length) (h : data.length < 2147483648) (s : State) (hr : s.rclosed = false) :
    unix_send s data .intr = some (s, -1) ∧ unix_send s data (.bytes n) = some ({ s with way := s.way ++ data.take n }, (n : Int)) := by
  refine ⟨rfl, ?_⟩
  simp only [unix_send, ksend, hr]
  rw [if_pos (by simp; omega)]
  simp only [toInt_small (show n < 2147483648 by omega)]

example : (0 : Nat) < 1 ∧ 1 < [(7 : UInt8), 8].length := by decide

/-- C160 is refuted: a send of 2^31 bytes and more that succeeds looks like an error, so that the receiver gets bytes of which the sender was not told. -/
theorem C160_refuted_large (data : List UInt8) (h : data.length = 2147483648) :
    ∃ c, run start [.send data (.bytes 2147483648), .recv 1 [.bytes 1]] = some c ∧ c.told = [] ∧ c.got = data.take 1 ∧ ¬ c.got <+: c.told := by
  obtain ⟨n, hn⟩ : ∃ n, n = 2147483648 := ⟨_, rfl⟩
  have hi : toInt n = -2147483648 := by rw [hn]; rfl
  rw [← hn] at h ⊢
  have hp : 0 < data.length := by omega
  have h1 : step start (.send data (.bytes n)) = some { start with st := { start.st with way := data } } := by
    simp only [step, start, unix_send, ksend, h]
    have : data.take n = data := List.take_of_length_le (by omega)
    have h0 : 0 < n := by omega
    simp [this, h0]
    left; rw [hi]; decide
  have ht : (data.take 1).length = 1 := by rw [List.length_take]; omega
  have h2 : step { start with st := { start.st with way := data } } (.recv 1 [.bytes 1]) =
      some { start with st := { start.st with way := data.drop 1 }, got := data.take 1 } := by
    have hl : 1 ≤ data.length := hp
    have hk : krecv { start.st with way := data } 1 (.bytes 1) = some ({ start.st with way := data.drop 1 }, some 1, data.take 1) := by
      simp only [krecv]
      rw [if_pos (by simp; omega)]
    simp only [step, start] at hk ⊢
    simp only [unix_recv, hk]
    have : toInt 1 = 1 := rfl
    simp [this, List.take_take]
  refine ⟨{ start with st := { start.st with way := data.drop 1 }, got := data.take 1 }, ?_, rfl, rfl, ?_⟩
  · simp only [run, h1, h2]
  · intro hh
    have := hh.length_le
    simp only [start, List.length_nil] at this
    omega

example : ∃ data : List UInt8, data.length = 2147483648 := ⟨List.replicate _ 0, List.length_replicate⟩

/-- C160 is refuted for all sends of 2^31 to 2^32 bytes that succeed: from 2^31 on the result is negative, at 2^32 it is 0, although all bytes are sent. -/
theorem C160_refuted_told (s : State) (data : List UInt8) (h1 : 2147483648 ≤ data.length) (h2 : data.length ≤ 4294967296) (hr : s.rclosed = false) :
    unix_send s data (.bytes data.length) = some ({ s with way := s.way ++ data }, (data.length : Int) - 4294967296) ∧ (data.length : Int) - 4294967296 ≤ 0 := by
  refine ⟨?_, by omega⟩
  have hk : ksend true s data (.bytes data.length) = some ({ s with way := s.way ++ data }, some data.length) := by
    simp only [ksend, hr]
    rw [if_pos (by simp; omega), List.take_length]
  have ht : toInt data.length = (data.length : Int) - 4294967296 := by
    unfold toInt
    by_cases e : data.length = 4294967296
    · rw [e]; rfl
    · rw [Nat.mod_eq_of_lt (by omega), if_neg (by omega)]
  simp only [unix_send, hk, ht]

/-- C160 is refuted for large receives too: when recv(2) hands out `n` bytes, 2^31 ≤ n < 2^32, coda_unix_recv reports -1, and the bytes are gone. -/
theorem C160_refuted_recv (s : State) (size n : Nat) (h1 : 2147483648 ≤ n) (h2 : n < 4294967296) (hs : n ≤ size) (hw : n ≤ s.way.length) :
    unix_recv s size [.bytes n] = some ({ s with way := s.way.drop n }, -1, s.way.take n) := by
  have hk : krecv s size (.bytes n) = some ({ s with way := s.way.drop n }, some n, s.way.take n) := by
    simp only [krecv]
    rw [if_pos (by simp; omega)]
  have ht : ¬ 0 ≤ toInt n := by
    unfold toInt
    rw [Nat.mod_eq_of_lt h2, if_neg (by omega)]
    omega
  simp only [unix_recv, hk, ht, if_false, ne_eq, not_true]

example : ∃ s : State, 2147483648 ≤ s.way.length := ⟨⟨List.replicate 2147483648 0, false, false, false⟩, by rw [List.length_replicate]; exact Nat.le_refl _⟩

/-- C160: once the other end is closed the kernel refuses every send; the caller gets -1 and goes on, it is not killed. -/
theorem C160_pipe (c : Conv) (data : List UInt8) (o : Out) (c1 c2 : Conv) (hk : c.st.killed = false) (h1 : step c .rclose = some c1) (h2 : step c1 (.send data o) = some c2) :
    unix_send c1.st data o = some (c1.st, -1) ∧ c2.st.killed = false ∧ c2.told = c.told := by
  simp only [step, Option.some.injEq] at h1
  subst h1
  have key : ∀ r s', unix_send { c.st with rclosed := true } data o = some (s', r) → s' = { c.st with rclosed := true } ∧ r = -1 := by
    intro r s' h
    cases o with
    | bytes n => simp [unix_send, ksend] at h
    | intr => simp only [unix_send, ksend] at h; cases h; exact ⟨rfl, rfl⟩
    | again => simp only [unix_send, ksend] at h; cases h; exact ⟨rfl, rfl⟩
    | pipe =>
      simp only [unix_send, ksend, if_true, hk, Bool.not_true, Bool.or_self] at h
      cases h
      exact ⟨by dsimp only; rw [hk], rfl⟩
    | eof => simp [unix_send, ksend] at h
  simp only [step] at h2
  split at h2
  · cases h2
  · cases hu : unix_send { c.st with rclosed := true } data o with
    | none => rw [hu] at h2; cases h2
    | some q =>
      obtain ⟨s', r⟩ := q
      obtain ⟨rfl, rfl⟩ := key r s' hu
      rw [hu] at h2
      simp only [Option.some.injEq] at h2
      subst h2
      exact ⟨rfl, hk, by simp⟩

example : (run start [.send [1] (.bytes 1), .rclose, .send [2] .pipe, .send [3] .pipe]).map (fun c => (c.st.killed, c.told)) = some (false, [1]) := by decide +kernel

end Verif.Stream
