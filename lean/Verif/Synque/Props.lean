/-
  C58-C60, C84, C85: what users of coda::synque rely on.  All theorems are about every execution of any number of threads, with every
  interleaving and with spurious wake-ups.
-/
import Verif.Synque.More
import Verif.Synque.Many

set_option linter.unusedVariables false

namespace Verif.Synque

variable {T : Type}

/-- Two threads: thread 0 blocks in get, thread 1 adds 7 and 8, thread 0 takes 7. -/
def ex1 : List (Label Nat) :=
  [.get 0 ⟨none, true⟩, .adv 0, .adv 0, .add 1 7, .adv 1, .adv 1, .adv 1, .sig 1 0, .adv 1, .add 1 8, .adv 1, .adv 1, .adv 1, .adv 1, .adv 1,
   .adv 0, .adv 0, .adv 0, .adv 0, .adv 0, .adv 0]

/-! ### C58 -/

/-- C58: the elements handed out by get and batch get, in the order of the getters' critical sections, are a prefix of the elements in the
order of the adders' critical sections; whenever no thread owns the mutex, what is missing is exactly what is in the queue. -/
theorem C58_fifo (n : Nat) (ls : List (Label T)) (s : State T) (hc : ∀ l ∈ ls, l.calm = true) (he : exec (init T n) ls = some s) :
    got s <+: s.acc.map Prod.snd ∧ (s.mtx = none → s.acc.map Prod.snd = got s ++ s.d.reverse) ∧ s.ub = false := by
  have hI := inv_exec ls _ _ (inv_init n) hc he
  refine ⟨?_, ?_, hI.ub⟩
  · rcases hI.lock with ⟨_, _, hd⟩ | ⟨i, m, _, _, _, _, hd⟩
    · rw [hd.1, List.append_assoc]; exact List.prefix_append _ _
    · rw [hd.1, List.append_assoc]; exact List.prefix_append _ _
  · intro hm
    rcases hI.lock with ⟨_, _, hd⟩ | ⟨i, m, hm', _⟩
    · rw [hd.1]; simp [Mode.out]
    · rw [hm] at hm'; simp at hm'

/-- C58: every element of a completed add is in that sequence exactly once, in the order of its thread's calls: the elements thread `i`
inserted are those it called add with, except possibly the one of a call that is still in progress. -/
theorem C58_each_thread (n : Nat) (ls : List (Label T)) (s : State T) (hc : ∀ l ∈ ls, l.calm = true) (he : exec (init T n) ls = some s)
    (i : Nat) :
    (s.acc.filter (fun a => a.1 == i)).map Prod.snd <+: adds i ls ∧
    (s.thr[i]? = some .idle → (s.acc.filter (fun a => a.1 == i)).map Prod.snd = adds i ls) := by
  have h := hist_exec ls _ _ i hc he
  have h0 : hist (init T n) i = [] := by
    unfold hist pendOf
    split
    · rename_i m hm
      have := (List.mem_replicate.mp (List.mem_of_getElem? hm)).2
      subst this; rfl
    · rfl
  rw [h0, List.nil_append] at h
  refine ⟨⟨_, h⟩, ?_⟩
  intro hi
  rw [← h]
  simp [hist, pendOf, hi, Mode.pend]

/-- C58: size() returns the number of elements added minus the number handed out. -/
theorem C58_size (n : Nat) (ls : List (Label T)) (s : State T) (hc : ∀ l ∈ ls, l.calm = true) (he : exec (init T n) ls = some s)
    (z : Nat × Nat × Nat) (hz : z ∈ s.sizes) : z.1 + z.2.2 = z.2.1 :=
  (inv_exec ls _ _ (inv_init n) hc he).sizes z hz

/-- The hypotheses of the theorems hold of a run in which a thread waits and is woken. -/
example : ((exec (init Nat 2) ex1).map fun s => (got s, s.d, s.acc, s.thr)) = some ([7], [8], [(1, 7), (1, 8)], [.idle, .idle]) ∧
    (∀ l ∈ ex1, l.calm = true) := by decide +kernel
example : adds 1 ex1 = [7, 8] := by decide
example : ((exec (init Nat 2) (ex1 ++ [.size 1, .adv 1, .adv 1, .adv 1])).map fun s => s.sizes) = some [(1, 2, 1)] := by decide +kernel

/-! ### C59 -/

/-- C59: while a thread is blocked in get, at least as many threads as there are queued elements are on their way to take one. -/
theorem C59_no_lost_wakeup (n : Nat) (ls : List (Label T)) (s : State T) (hc : ∀ l ∈ ls, l.calm = true) (he : exec (init T n) ls = some s)
    (rq : Req) (hw : Mode.gw rq ∈ s.thr) :
    s.d.length ≤ s.thr.countP Mode.onWay ∧ (s.mtx = none → s.d.length ≤ s.thr.countP Mode.woken) := by
  have hI := inv_exec ls _ _ (inv_init n) hc he
  have hW := W_exec ls _ _ (inv_init n) (W_empty rfl) hc he
  have h1 := hW (List.any_eq_true.mpr ⟨_, hw, rfl⟩)
  refine ⟨h1, ?_⟩
  intro hm
  have h2 : ∀ m ∈ s.thr, m.locked = false := by
    rcases hI.lock with ⟨_, h2, _⟩ | ⟨i, m, hm', _⟩
    · exact h2
    · rw [hm] at hm'; simp at hm'
  refine Nat.le_trans h1 (Nat.le_of_eq ?_)
  apply List.countP_congr
  intro m hm
  have hl := h2 m hm
  cases m <;> simp [Mode.locked] at hl <;> simp [Mode.onWay, Mode.woken]

/-- C59: if the queue is not empty, a thread is blocked and nobody owns the mutex, then some woken thread, running alone, returns with an
element. -/
theorem C59_progress (n : Nat) (ls : List (Label T)) (s : State T) (hc : ∀ l ∈ ls, l.calm = true) (he : exec (init T n) ls = some s)
    (rq : Req) (hw : Mode.gw rq ∈ s.thr) (hm : s.mtx = none) (hd : s.d ≠ []) :
    ∃ (j : Nat) (rq' : Req) (ls' : List (Label T)) (s' : State T) (out : List T), s.thr[j]? = some (.gr rq') ∧ (∀ l ∈ ls', l = .adv j) ∧
      exec s ls' = some s' ∧ s'.rets = s.rets ++ [⟨j, rq', 0, out, s.d⟩] := by
  have hI := inv_exec ls _ _ (inv_init n) hc he
  have h1 := (C59_no_lost_wakeup n ls s hc he rq hw).2 hm
  have h2 : 0 < s.thr.countP Mode.woken := Nat.lt_of_lt_of_le (List.length_pos_iff.mpr hd) h1
  obtain ⟨m, hmm, hmw⟩ := List.countP_pos_iff.mp h2
  obtain ⟨j, hj⟩ := List.getElem?_of_mem hmm
  cases m <;> simp [Mode.woken] at hmw
  rename_i rq'
  obtain ⟨ls', s', out, q1, q2, q3, _⟩ := woken_takes hI hj hm hd
  exact ⟨j, rq', ls', s', out, hj, q1, q2, q3⟩

/-- C59, no deadlock: the owner of the mutex can always go on, alone, until it releases it. -/
theorem C59_owner_releases (n : Nat) (ls : List (Label T)) (s : State T) (hc : ∀ l ∈ ls, l.calm = true) (he : exec (init T n) ls = some s)
    (i : Nat) (hm : s.mtx = some i) :
    ∃ (ls' : List (Label T)) (s' : State T), (∀ l ∈ ls', l.by i = true) ∧ exec s ls' = some s' ∧ s'.mtx = none := by
  have hI := inv_exec ls _ _ (inv_init n) hc he
  rcases hI.lock with ⟨h1, _⟩ | ⟨j, m, h1, h2, h3, _⟩
  · rw [hm] at h1; simp at h1
  · rw [hm] at h1
    simp only [Option.some.injEq] at h1
    subst h1
    exact holder_finishes _ s i m hI h2 h3 (Nat.le_refl _)

/-- Three threads, two of them blocked, one element added: one is woken and the other still blocked. -/
def ex2 : List (Label Nat) :=
  [.get 0 ⟨none, true⟩, .adv 0, .adv 0, .get 1 ⟨none, true⟩, .adv 1, .adv 1, .add 2 7, .adv 2, .adv 2, .adv 2, .sig 2 1, .adv 2]
example : ((exec (init Nat 3) ex2).map fun s => (s.thr, s.d, s.mtx)) =
    some ([.gw ⟨none, true⟩, .gr ⟨none, true⟩, .idle], [7], none) ∧ (∀ l ∈ ex2, l.calm = true) := by decide +kernel
example : ((exec (init Nat 3) (ex2.take 10)).map fun s => (s.mtx, s.d, s.thr.countP Mode.onWay)) = some (some 2, [7], 1) := by decide +kernel

/-! ### C60 -/

/-- C60: get returned 0 together with the oldest elements of the queue it saw, one, or `max_count` of them, or all; or it returned −1 with
nothing and the queue was empty. -/
theorem C60_results (n : Nat) (ls : List (Label T)) (s : State T) (hc : ∀ l ∈ ls, l.calm = true) (he : exec (init T n) ls = some s)
    (r : Ret T) (hr : r ∈ s.rets) : RetOk r ∧ (r.ret = 0 ↔ r.out ≠ []) := by
  have h := (inv_exec ls _ _ (inv_init n) hc he).rets r hr
  refine ⟨h, ?_⟩
  rcases h with ⟨h1, h2, h3⟩ | ⟨h1, h2, h3⟩
  · refine ⟨fun _ hh => ?_, fun _ => h1⟩
    have h4 : r.out = r.d0.reverse.take (quantity r.rq r.d0.length) := by
      rw [quantity_spec (List.length_pos_iff.mpr h2)]; exact h3
    rw [hh] at h4
    have := congrArg List.length h4
    rw [List.length_take, List.length_reverse] at this
    have hq := quantity_pos (rq := r.rq) (List.length_pos_iff.mpr h2)
    simp only [List.length_nil] at this
    omega
  · refine ⟨fun hh => ?_, fun hh => absurd h3 hh⟩
    rw [h1] at hh; simp at hh

/-- C60: a get with canwait = 0 never waits. -/
theorem C60_no_wait (n : Nat) (ls : List (Label T)) (s : State T) (he : exec (init T n) ls = some s) (rq : Req)
    (hw : Mode.gw rq ∈ s.thr ∨ Mode.gr rq ∈ s.thr) : rq.canwait = true := by
  have h : All WaitOk s := waitOk_exec ls (init T n) s (by intro m hm; rw [(List.mem_replicate.mp hm).2]; trivial) he
  rcases hw with hw | hw
  · exact h _ hw
  · exact h _ hw

/-- A batch get of at most two elements out of three, and one without a limit. -/
def ex3 : List (Label Nat) :=
  let add (e : Nat) : List (Label Nat) := [.add 0 e, .adv 0, .adv 0, .adv 0, .adv 0, .adv 0]
  add 1 ++ add 2 ++ add 3 ++ .get 1 ⟨some 2, false⟩ :: List.replicate 8 (.adv 1) ++ .get 1 ⟨some 0, false⟩ :: List.replicate 6 (.adv 1) ++
    .get 1 ⟨none, false⟩ :: List.replicate 3 (.adv 1)
example : ((exec (init Nat 2) ex3).map fun s => s.rets.map fun r => (r.ret, r.out)) = some [(0, [1, 2]), (0, [3]), (-1, [])] ∧
    (∀ l ∈ ex3, l.calm = true) := by decide +kernel
example : ((exec (init Nat 2) (ex1.take 3)).map fun s => s.thr) = some [.gw ⟨none, true⟩, .idle] := by decide +kernel

/-! ### C84 -/

/-- C84, partial: if only one thread calls get, nobody calls signal() and there are no spurious wake-ups, then every get that may wait
returns an element.  Missing: several consumers, where the claim is false (`C84_refuted`), and spurious wake-ups, which POSIX allows. -/
theorem C84_blocking_get_partial (n c : Nat) (ls : List (Label T)) (s : State T) (hc : ∀ l ∈ ls, l.oneConsumer c = true)
    (he : exec (init T n) ls = some s) (r : Ret T) (hr : r ∈ s.rets) (hw : r.rq.canwait = true) : r.ret = 0 ∧ r.out ≠ [] := by
  have h := (one_exec ls _ _ c (inv_init n) (one_init n c) hc he).rets r hr hw
  exact ⟨h, ((C60_results n ls s (fun l hl => one_calm (hc l hl)) he r hr).2).mp h⟩

example : ((exec (init Nat 2) ex1).map fun s => s.rets) = some [⟨0, ⟨none, true⟩, 0, [7], [8, 7]⟩] ∧ (∀ l ∈ ex1, l.oneConsumer 0 = true) := by
  decide +kernel

/-- The waiting thread 0 is woken by an add, but thread 2 takes the element first: get(canwait = 1) returns −1. -/
def stolen : List (Label Nat) :=
  [.get 0 ⟨none, true⟩, .adv 0, .adv 0, .add 1 7, .adv 1, .adv 1, .adv 1, .sig 1 0, .adv 1, .get 2 ⟨none, false⟩, .adv 2, .adv 2, .adv 2,
   .adv 2, .adv 2, .adv 2, .adv 0, .adv 0, .adv 0]

/-- C84 with any number of consumers, signal() and spurious wake-ups, partial: in every execution, if an add of thread `j` wakes the get of thread `i`
(which then makes no other get) and that get returns −1, another thread's get has returned elements in between.
Missing: that it does not (`C84_refuted`, `C84_refuted_all`). -/
theorem C84_taken_partial (n i j : Nat) (rq : Req) (ls ls' : List (Label T)) (s s1 s2 : State T) (hc : ∀ l ∈ ls ++ ls', l.calm = true)
    (he : exec (init T n) ls = some s) (hj : s.thr[j]? = some .a2) (hi : s.thr[i]? = some (.gw rq)) (hs : step s (.sig j i) = some s1)
    (he' : exec s1 ls' = some s2) (hg : ∀ l ∈ ls', ∀ rq', l ≠ .get i rq') :
    ∃ new, s2.rets = s1.rets ++ new ∧ ((∃ r ∈ new, r.who = i ∧ r.ret = -1) → ∃ r ∈ new, r.who ≠ i ∧ r.ret = 0 ∧ r.out ≠ []) := by
  have hI := inv_exec ls _ _ (inv_init n) (fun l hl => hc l (List.mem_append_left _ hl)) he
  have hI1 := inv_step hI (l := .sig j i) rfl hs
  have hd := added_exec ls _ _ (inv_init n) (added_init n) (fun l hl => hc l (List.mem_append_left _ hl)) he j hj
  have hI2 := inv_exec ls' _ _ hI1 (fun l hl => hc l (List.mem_append_right _ hl)) he'
  have hji : j ≠ i := by rintro rfl; rw [hj] at hi; cases hi
  have e1 : s1 = (s.upd i (.gr rq)).upd j .a3 := by
    simp only [step, hj, hi, Option.some.injEq] at hs; exact hs.symm
  have hlen : (s1.rets.flatMap Ret.out).length < s1.acc.length := by
    obtain ⟨_, _, hD⟩ := held hI hj rfl
    have h1 := congrArg List.length hD.1
    have h2 := List.length_pos_iff.mpr hd
    simp only [Mode.out, got, List.append_nil, List.length_append, List.length_map, List.length_reverse] at h1
    rw [e1]
    show (s.rets.flatMap Ret.out).length < s.acc.length
    omega
  have hS : Since s1.rets s1.acc.length i s1 := by
    refine ⟨Nat.le_refl _, [], by simp, Or.inr ⟨.gr rq, ?_, Or.inl ⟨rfl, by simp⟩⟩⟩
    rw [e1]
    show ((s.thr.set i (.gr rq)).set j .a3)[i]? = _
    rw [List.getElem?_set, if_neg hji]
    exact get_set hi
  obtain ⟨new, e, h⟩ := (since_exec ls' _ _ hI1 hlen hS (fun l hl => hc l (List.mem_append_right _ hl)) hg he').rets
  refine ⟨new, e, ?_⟩
  rintro ⟨r0, hr0, hw0, hret0⟩
  rcases h with ⟨r, hr, hw, ho⟩ | ⟨m, hm, ⟨_, h⟩ | ⟨_, h⟩⟩
  · refine ⟨r, hr, hw, ?_, ho⟩
    rcases hI2.rets r (by rw [e]; exact List.mem_append_right _ hr) with h1 | h1
    · exact h1.1
    · exact absurd h1.2.2 ho
  · exact absurd hw0 (h r0 hr0)
  · exact absurd hret0 (h r0 hr0 hw0)

example : (∀ l ∈ stolen.take 7 ++ stolen.drop 8, l.calm = true) ∧ stolen[7]? = some (.sig 1 0) ∧
    ((exec (init Nat 3) (stolen.take 7)).map fun s => (s.thr[1]?, s.thr[0]?)) = some (some .a2, some (.gw ⟨none, true⟩)) ∧
    (∀ l ∈ stolen.drop 8, ∀ rq, l ≠ .get 0 rq) ∧
    ((exec (init Nat 3) stolen).map fun s => s.rets.map fun r => (r.who, r.ret, r.out)) = some [(2, 0, [7]), (0, -1, [])] := by
  refine ⟨by decide +kernel, rfl, by decide +kernel, ?_, by decide +kernel⟩
  intro l hl rq
  simp only [stolen, List.drop, List.mem_cons, List.not_mem_nil, or_false] at hl
  rcases hl with rfl | rfl | rfl | rfl | rfl | rfl | rfl | rfl | rfl | rfl | rfl <;> simp

/-- C84 is false: without any signal() or spurious wake-up a blocking get may return −1. -/
theorem C84_refuted : (∀ l ∈ stolen, l.plain = true) ∧
    ((exec (init Nat 3) stolen).map fun s => s.rets.map fun r => (r.who, r.rq.canwait, r.ret)) = some [(2, false, 0), (0, true, -1)] := by
  decide +kernel

/-- C84 is false in every state: whenever a get of thread `i` waits, the queue is empty and nobody owns the mutex, two other threads can make it return −1
without any signal() or spurious wake-up: one adds an element, which wakes it, and one takes that element first. -/
theorem C84_refuted_all (s : State T) (i j k : Nat) (rq : Req) (e : T) (hm : s.mtx = none) (hd : s.d = []) (hi : s.thr[i]? = some (.gw rq))
    (hj : s.thr[j]? = some .idle) (hk : s.thr[k]? = some .idle) (hjk : j ≠ k) :
    ∃ s', exec s [.add j e, .adv j, .adv j, .adv j, .sig j i, .adv j, .get k ⟨none, false⟩, .adv k, .adv k, .adv k, .adv k, .adv k, .adv k, .adv i, .adv i, .adv i] = some s' ∧
      s'.rets = s.rets ++ [⟨k, ⟨none, false⟩, 0, [e], [e]⟩, ⟨i, rq, -1, [], []⟩] := by
  obtain ⟨mtx, d, thr, ub, acc, rets, sizes⟩ := s
  simp only at hm hd hi hj hk ⊢
  subst hm hd
  have hij : i ≠ j := by rintro rfl; rw [hi] at hj; cases hj
  have hik : i ≠ k := by rintro rfl; rw [hi] at hk; cases hk
  have li := (List.getElem?_eq_some_iff.mp hi).1
  have lj := (List.getElem?_eq_some_iff.mp hj).1
  have lk := (List.getElem?_eq_some_iff.mp hk).1
  simp [exec, step, adv, State.lock, State.unlock, State.upd, List.getElem?_set, hi, hj, hk, li, lj, lk, hij, hik, hjk, hij.symm, hik.symm, hjk.symm, quantity,
    -List.getElem?_eq_getElem, -getElem?_pos]

example : ((exec (init Nat 3) (stolen.take 3)).map fun s => (s.mtx, s.d, s.thr)) = some (none, [], [.gw ⟨none, true⟩, .idle, .idle]) := by decide +kernel

/-! ### C85 -/

/-- C85 is false: if copying an element throws inside add or get, the mutex stays locked, and from then on, whatever any thread does, no
add inserts, no get returns and no size() returns. -/
theorem C85_refuted (n : Nat) (ls : List (Label T)) (s s' : State T) (i : Nat) (hc : ∀ l ∈ ls, l.calm = true)
    (he : exec (init T n) ls = some s) (ht : step s (.throw i) = some s') (ls' : List (Label T)) (s'' : State T)
    (he' : exec s' ls' = some s'') :
    s''.mtx = some i ∧ s''.acc = s'.acc ∧ s''.rets = s'.rets ∧ s''.sizes = s'.sizes := by
  have hI := inv_exec ls _ _ (inv_init n) hc he
  have key : ∀ m, s.thr[i]? = some m → m.locked = true → s' = s.upd i .idle → Stuck s' i := by
    intro m hp hl hs
    obtain ⟨hm, ho, _⟩ := held hI hp hl
    subst hs
    refine ⟨hm, ?_⟩
    intro x hx
    obtain ⟨k, hk⟩ := List.getElem?_of_mem hx
    have hk' : (s.thr.set i .idle)[k]? = some x := hk
    rw [List.getElem?_set] at hk'
    split at hk'
    · split at hk'
      · simp only [Option.some.injEq] at hk'; subst hk'; rfl
      · simp at hk'
    · rename_i hik
      exact ho k x (fun hh => hik hh.symm) hk'
  have hst : Stuck s' i := by
    simp only [step] at ht
    split at ht
    · rename_i hp
      simp only [Option.some.injEq] at ht
      exact key _ hp rfl ht.symm
    · rename_i hp
      simp only [Option.some.injEq] at ht
      exact key _ hp rfl ht.symm
    · simp at ht
  obtain ⟨h1, h2, h3, h4, _⟩ := stuck_exec ls' s' s'' i hst he'
  exact ⟨h1.1, h2, h3, h4⟩

/-- The exception does happen in a run: the add of thread 0 throws while it inserts; thread 1 then cannot take the mutex. -/
theorem C85_witness : ((exec (init Nat 2) [.add 0 7, .adv 0, .adv 0, .throw 0, .get 1 ⟨none, false⟩]).map fun s => (s.mtx, s.thr)) =
    some (some 0, [.idle, .g0 ⟨none, false⟩]) ∧
    ((exec (init Nat 2) [.add 0 7, .adv 0, .adv 0, .throw 0, .get 1 ⟨none, false⟩, .adv 1]).map fun s => s.mtx) = none := by
  decide +kernel

/-- C85, partial: without exceptions the mutex is owned only by a thread that is inside a call and can release it. -/
theorem C85_released_partial (n : Nat) (ls : List (Label T)) (s : State T) (hc : ∀ l ∈ ls, l.calm = true) (he : exec (init T n) ls = some s)
    (hq : quiet s) : s.mtx = none := by
  have hI := inv_exec ls _ _ (inv_init n) hc he
  rcases hI.lock with ⟨h1, _⟩ | ⟨j, m, h1, h2, h3, _⟩
  · exact h1
  · rw [hq m (List.mem_of_getElem? h2)] at h3
    simp [Mode.locked] at h3

end Verif.Synque
