/-
  C163: threads of one process may share one queue object.
  Proved for threads that hold a mutex of the program around every call; refuted for threads that do not, although queue::flush and
  queue::unflush lock the queue: the lock protects the ring in the shared memory, not the box that the object fills and reads.
-/
import Verif.QueueThreads.Lemmas

namespace Verif.QueueThreads

/-- C163 for threads that make their calls one after the other: whatever calls they make and in whatever order, no access is outside of the
box, and when no call is in progress the calls have returned, and have left the object and the sent boxes, as if one thread had made them
in the order in which they began. -/
theorem C163_serial_partial (K bs n : Nat) (ok : Nat → Bool) (rx : Nat → Option (List UInt8)) (ls : List Label) (s : St)
    (hz : sized K ls) (hr : run true K ok rx (init bs n) ls = some s) :
    s.bad = false ∧ (quiet s → (Q.new bs).calls K ok rx (started ls) = (s.q, s.log)) := by
  have h := inv_run ls (inv_init (K := K) (ok := ok) (rx := rx) n) hz hr
  rw [List.nil_append] at h
  refine ⟨h.1, fun hq => ?_⟩
  rcases h.2 with ⟨_, h2⟩ | ⟨i, c, ds, p, _, hp, _, _, hrel⟩
  · exact h2
  · have := hq p (List.mem_of_getElem? hp); subst this; exact absurd hrel (by simp [Rel])

/-- Two threads that put, get and flush in turns; the third put finds no room and sends the box. -/
def demo : List Label :=
  [.call 0 (.put [1, 2]), .adv 0, .adv 0, .adv 0, .adv 0, .adv 0, .adv 0, .call 1 (.put [3, 4]), .adv 1, .adv 1, .adv 1, .adv 1, .adv 1, .adv 1,
   .call 0 (.put [5, 6]), .adv 0, .adv 0, .adv 0, .adv 0, .adv 0, .adv 0, .adv 0, .adv 0, .adv 0, .adv 0,
   .call 1 .flush, .adv 1, .adv 1, .adv 1, .adv 1]

example : sized 2 demo ∧ ∃ s, run true 2 (fun _ => true) (fun _ => none) (init 5 2) demo = some s ∧ quiet s ∧
    (∀ c ∈ started demo, c = .flush ∨ ∃ m, c = .put m) ∧ s.out = [[1, 2, 3, 4, 0], [5, 6, 0, 0, 0]] ∧
    s.log = [(.put [1, 2], .bool true), (.put [3, 4], .bool true), (.put [5, 6], .bool true), (.flush, .void)] := by
  refine ⟨?_, _, rfl, ?_, ?_, by decide +kernel, by decide +kernel⟩
  · intro i m h
    simp [demo] at h
    rcases h with h | h | h <;> rw [h.2] <;> rfl
  · intro p hp
    have : p ∈ [Pc.idle, Pc.idle] := hp
    simpa using this
  · intro c h
    have : c ∈ [Call.put [1, 2], .put [3, 4], .put [5, 6], .flush] := h
    simp at this
    rcases this with h | h | h | h
    · exact Or.inr ⟨_, h⟩
    · exact Or.inr ⟨_, h⟩
    · exact Or.inr ⟨_, h⟩
    · exact Or.inl h

/-- C163 for senders that make their calls one after the other, while the queue has room: every put returns true, and the boxes sent,
with the box that is being filled, contain the messages of all threads in the order of the calls, each once. -/
theorem C163_messages_partial (K bs n : Nat) (ok : Nat → Bool) (rx : Nat → Option (List UInt8)) (ls : List Label) (s : St)
    (hK : K ≤ bs) (hok : ∀ n, ok n = true) (hz : sized K ls) (hc : ∀ c ∈ started ls, c = .flush ∨ ∃ m, c = .put m)
    (hr : run true K ok rx (init bs n) ls = some s) (hq : quiet s) :
    (∃ (parts : List (List (List UInt8))) (cur : List (List UInt8)), parts.flatten ++ cur = putsOf (started ls) ∧
      s.out = parts.map (boxOf bs) ∧ s.buf = boxOf bs cur ∧ s.pos = cur.flatten.length ∧
      (∀ p ∈ parts, p.flatten.length ≤ bs) ∧ cur.flatten.length ≤ bs) ∧
    ∀ m r, (Call.put m, r) ∈ s.log → r = .bool true := by
  have hcall := (C163_serial_partial K bs n ok rx ls s hz hr).2 hq
  have hc' : ∀ c ∈ started ls, c = .flush ∨ ∃ m, c = .put m ∧ m.length = K := by
    intro c hm
    rcases hc c hm with h | ⟨m, h⟩
    · exact Or.inl h
    · subst h
      obtain ⟨i, hi⟩ := mem_started hm
      exact Or.inr ⟨m, rfl, hz i m hi⟩
  have h0 : Full bs [] (Q.new bs) := ⟨[], [], rfl, rfl, by rw [boxOf_nil]; rfl, rfl, by simp, by simp⟩
  have := full_calls (rx := rx) hok hK (started ls) h0 hc'
  rw [hcall] at this
  obtain ⟨⟨parts, cur, h1, h2, h3, h4, h5, h6⟩, hl⟩ := this
  exact ⟨⟨parts, cur, by simpa using h1, h2, h3, h4, h6, h5⟩, hl⟩

/-- C163 for receivers that make their calls one after the other: of a box full of messages, the gets of all threads return every message
once, in order. -/
theorem C163_each_once_partial (K bs n : Nat) (ok : Nat → Bool) (rx : Nat → Option (List UInt8)) (ms : List (List UInt8))
    (ls : List Label) (s : St) (hm : ∀ m ∈ ms, m.length = K) (hbs : bs = ms.length * K) (hrx : rx 0 = some (boxOf bs ms))
    (hc : started ls = .unflush :: List.replicate ms.length .get)
    (hr : run true K ok rx (init bs n) ls = some s) (hq : quiet s) :
    s.log = (.unflush, .bool true) :: ms.map (fun m => (.get, .msg (some m))) := by
  have hz : sized K ls := by
    intro i m h
    have := mem_of_call h
    rw [hc] at this
    simp at this
  have hcall := (C163_serial_partial K bs n ok rx ls s hz hr).2 hq
  rw [hc] at hcall
  have hlen : ms.flatten.length = bs := by rw [flatten_length hm, hbs]
  have hbox : boxOf bs ms = ms.flatten := by simp [boxOf, hlen]
  have : ((Q.new bs).calls K ok rx (.unflush :: List.replicate ms.length .get)).2 =
      (.unflush, .bool true) :: ms.map (fun m => (.get, .msg (some m))) := by
    have h0 : rx (Q.new bs).nu = some (boxOf bs ms) := hrx
    simp only [Q.calls, Q.call, h0]
    congr 1
    exact gets_calls ms [] _ hm (by simp [hbox]) rfl
  rw [hcall] at this
  exact this

example : ∃ ls s, started ls = .unflush :: List.replicate 2 .get ∧
    run true 2 (fun _ => true) (fun _ => some (boxOf 4 [[1, 2], [3, 4]])) (init 4 2) ls = some s ∧ quiet s ∧
    s.log = [(.unflush, .bool true), (.get, .msg (some [1, 2])), (.get, .msg (some [3, 4]))] := by
  refine ⟨[.call 0 .unflush, .adv 0, .adv 0, .adv 0, .call 1 .get, .adv 1, .adv 1, .adv 1, .adv 1, .adv 1, .adv 1,
    .call 0 .get, .adv 0, .adv 0, .adv 0, .adv 0, .adv 0, .adv 0], _, rfl, rfl, ?_, by decide +kernel⟩
  intro p hp
  have : p ∈ [Pc.idle, Pc.idle] := hp
  simpa using this

/-- C163 is false for threads that call at the same time: of two puts that both return true, one message is lost.  The box that is sent
afterwards contains the other one only, whatever the messages and the size of the box. -/
theorem C163_refuted_lost (K bs : Nat) (ok : Nat → Bool) (rx : Nat → Option (List UInt8)) (m1 m2 : List UInt8) (hK : K ≤ bs)
    (h1 : m1.length = K) (h2 : m2.length = K) (hok : ok 0 = true) :
    ∃ ls s, sized K ls ∧ started ls = [.put m1, .put m2, .flush] ∧ run false K ok rx (init bs 2) ls = some s ∧ quiet s ∧ s.bad = false ∧
      s.log = [(.put m1, .bool true), (.put m2, .bool true), (.flush, .void)] ∧ s.out = [boxOf bs [m2]] := by
  have p1 : (patch (List.replicate bs (0 : UInt8)) 0 m1).length = bs := by rw [patch_length (by simp; omega)]; simp
  have p2 : patch (patch (List.replicate bs (0 : UInt8)) 0 m1) 0 m2 = boxOf bs [m2] := by
    subst h1; simp [boxOf, patch, h2]
  have p3 : (boxOf bs [m2]).length = bs := boxOf_length (by simp; omega)
  refine ⟨[.call 0 (.put m1), .call 1 (.put m2), .adv 0, .adv 1, .adv 0, .adv 1, .adv 0, .adv 1, .adv 0, .adv 1, .adv 0, .adv 1,
    .adv 0, .adv 1, .call 0 .flush, .adv 0, .adv 0, .adv 0, .adv 0],
    ⟨List.replicate bs 0, 0, [boxOf bs [m2]], 1, 0, [.idle, .idle], [(.put m1, .bool true), (.put m2, .bool true), (.flush, .void)], false⟩,
    ?_, rfl, ?_, ?_, rfl, rfl, rfl⟩
  · intro i m h
    simp at h
    rcases h with h | h <;> rw [h.2] <;> assumption
  · simp [run, step, init, adv, begin, St.go, spaceStep, serStep, rewindStep, hK, h1, h2, hok, p1, p2, p3]
  · intro p hp; simpa using hp

/-- C163 is false for threads that call at the same time: on every object, with any messages, two puts can both find room for one
message, and the second writes past the end of the box. -/
theorem C163_refuted_overflow (K bs : Nat) (ok : Nat → Bool) (rx : Nat → Option (List UInt8)) (ms : List (List UInt8)) (m1 m2 : List UInt8)
    (hK : 1 ≤ K) (hms : ∀ m ∈ ms, m.length = K) (hn : ms.length + 1 = bs / K) (h1 : m1.length = K) (h2 : m2.length = K) :
    ∃ ls s, sized K ls ∧ putsOf (started ls) = ms ++ [m1, m2] ∧ run false K ok rx (init bs 2) ls = some s ∧ s.bad = true := by
  obtain ⟨log, b, hb, hf⟩ := fill_run (ok := ok) (rx := rx) ms [] (List.replicate bs 0) 0 hms (by
    have := Nat.div_mul_le_self bs K
    rw [← hn, Nat.add_mul] at this
    simp; omega)
  have hpos : 0 + ms.length * K + K ≤ b.length := by
    rw [hb]
    have := Nat.div_mul_le_self bs K
    rw [← hn, Nat.add_mul] at this
    simp; omega
  have hover : ¬ 0 + ms.length * K + K + K ≤ b.length := by
    rw [hb]
    have := Nat.lt_div_mul_add (a := bs) (b := K) hK
    rw [← hn, Nat.add_mul] at this
    simp; omega
  refine ⟨fillLs ms ++ [.call 0 (.put m1), .call 1 (.put m2), .adv 0, .adv 1, .adv 0, .adv 0, .adv 0, .adv 0, .adv 1, .adv 1],
    ?_⟩
  have hrun : ∃ s, run false K ok rx (init bs 2) (fillLs ms ++ [.call 0 (.put m1), .call 1 (.put m2), .adv 0, .adv 1, .adv 0, .adv 0, .adv 0, .adv 0,
      .adv 1, .adv 1]) = some s ∧ s.bad = true := by
    rw [run_append]
    have : init bs 2 = ⟨List.replicate bs 0, 0, [], 0, 0, [.idle, .idle], [], false⟩ := rfl
    rw [this, hf]
    have hpl : (patch b (0 + ms.length * K) m1).length = b.length := patch_length (by omega)
    have hpos' : ms.length * K + K ≤ b.length := by omega
    rw [Nat.zero_add] at *
    simp [run, step, adv, begin, St.go, spaceStep, serStep, hpos', hpl, hover, h1, h2]
  obtain ⟨s, hs, hbad⟩ := hrun
  refine ⟨s, ?_, ?_, hs, hbad⟩
  · intro i m h
    rcases List.mem_append.mp h with h | h
    · exact hms m (mem_fillLs h)
    · simp at h
      rcases h with h | h <;> rw [h.2] <;> assumption
  · rw [started_append, putsOf_append, puts_fillLs]; rfl

example : ∃ ls s, putsOf (started ls) = [[1, 2], [3, 4], [5, 6]] ∧ run false 2 (fun _ => true) (fun _ => none) (init 5 2) ls = some s ∧ s.bad = true := by
  obtain ⟨ls, s, _, h1, h2, h3⟩ := C163_refuted_overflow 2 5 (fun _ => true) (fun _ => none) [[1, 2]] [3, 4] [5, 6] (by decide) (by decide) (by decide)
    rfl rfl
  exact ⟨ls, s, h1, h2, h3⟩

/-- C163 is false for threads that call at the same time: a message put while another thread flushes is lost although its put returned
true: neither the box that is being sent nor the next one contains it. -/
theorem C163_refuted_flush (K bs : Nat) (ok : Nat → Bool) (rx : Nat → Option (List UInt8)) (m : List UInt8) (hK : K ≤ bs)
    (h1 : m.length = K) (hok : ok 0 = true) (hok1 : ok 1 = true) :
    ∃ ls s, sized K ls ∧ started ls = [.flush, .put m, .flush] ∧ run false K ok rx (init bs 2) ls = some s ∧ quiet s ∧ s.bad = false ∧
      s.log = [(.put m, .bool true), (.flush, .void), (.flush, .void)] ∧ s.out = [boxOf bs [], boxOf bs []] := by
  have p1 : (patch (List.replicate bs (0 : UInt8)) 0 m).length = bs := by rw [patch_length (by simp; omega)]; simp
  refine ⟨[.call 0 .flush, .adv 0, .call 1 (.put m), .adv 1, .adv 1, .adv 1, .adv 1, .adv 1, .adv 1, .adv 0, .adv 0, .adv 0,
    .call 1 .flush, .adv 1, .adv 1, .adv 1, .adv 1],
    ⟨List.replicate bs 0, 0, [boxOf bs [], boxOf bs []], 2, 0, [.idle, .idle], [(.put m, .bool true), (.flush, .void), (.flush, .void)], false⟩,
    ?_, rfl, ?_, ?_, rfl, rfl, rfl⟩
  · intro i m h
    simp at h
    rw [h.2]; assumption
  · simp [run, step, init, adv, begin, St.go, spaceStep, serStep, rewindStep, hK, h1, hok, hok1, p1, boxOf]
  · intro p hp; simpa using hp

/-- C163 is false for threads that call at the same time: of a box with two messages, two gets return the first one, and no get returns
the second. -/
theorem C163_refuted_twice (K : Nat) (ok : Nat → Bool) (rx : Nat → Option (List UInt8)) (m1 m2 : List UInt8) (hK : 1 ≤ K)
    (h1 : m1.length = K) (h2 : m2.length = K) (hrx : rx 0 = some (boxOf (K + K) [m1, m2])) :
    ∃ ls s, sized K ls ∧ started ls = [.unflush, .get, .get, .get] ∧ run false K ok rx (init (K + K) 2) ls = some s ∧ quiet s ∧
      s.bad = false ∧ s.log = [(.unflush, .bool true), (.get, .msg (some m1)), (.get, .msg (some m1)), (.get, .msg none)] := by
  have hb : boxOf (K + K) [m1, m2] = m1 ++ m2 := by simp [boxOf, h1, h2]
  have ht : (m1 ++ m2).take K = m1 := by rw [← h1]; simp
  have hl : (m1 ++ m2).length = K + K := by simp [h1, h2]
  have hn : ¬ K + K + K ≤ K + K := by omega
  rw [hb] at hrx
  refine ⟨[.call 0 .unflush, .adv 0, .adv 0, .adv 0, .call 0 .get, .call 1 .get, .adv 0, .adv 1, .adv 0, .adv 1, .adv 0, .adv 1,
    .adv 0, .adv 0, .adv 1, .adv 1, .adv 0, .adv 1, .call 0 .get, .adv 0, .adv 0],
    ⟨m1 ++ m2, K + K, [], 0, 1, [.idle, .idle],
      [(.unflush, .bool true), (.get, .msg (some m1)), (.get, .msg (some m1)), (.get, .msg none)], false⟩, ?_, rfl, ?_, ?_, rfl, rfl⟩
  · intro i m h
    simp at h
  · simp [run, step, init, adv, begin, St.go, desStep, recvStep, hrx, ht, hl, hn]
  · intro p hp; simpa using hp

end Verif.QueueThreads
