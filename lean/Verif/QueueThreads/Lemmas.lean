import Verif.QueueThreads.Spec

namespace Verif.QueueThreads

variable {K bs : Nat} {ok : Nat → Bool} {rx : Nat → Option (List UInt8)}

/-- Where the call `c`, begun on the object `q0`, is at place `p` with the object as in `q`. -/
def Rel (K : Nat) (ok : Nat → Bool) (rx : Nat → Option (List UInt8)) (c : Call) (q0 q : Q) : Pc → Prop
  | .idle => False
  | .space m again => c = .put m ∧ m.length = K ∧ if again = true then ¬ q0.pos + K ≤ q0.buf.length ∧ q = q0.flush ok else q = q0
  | .arg m => c = .put m ∧ m.length = K ∧ q.pos + K ≤ q.buf.length ∧ q0.call K ok rx c = (q.add m, .bool true)
  | .ser m p => c = .put m ∧ m.length = K ∧ q.pos + K ≤ q.buf.length ∧ q0.call K ok rx c = (q.add m, .bool true) ∧ p = q.pos
  | .addR m => c = .put m ∧ m.length = K ∧ q0.call K ok rx c = ({ q with pos := q.pos + K }, .bool true)
  | .addW m p => c = .put m ∧ m.length = K ∧ q0.call K ok rx c = ({ q with pos := p + K }, .bool true)
  | .copy none => c = .flush ∧ q = q0
  | .copy (some m) => c = .put m ∧ m.length = K ∧ ¬ q0.pos + K ≤ q0.buf.length ∧ q = q0
  | .zero none => c = .flush ∧ q0.flush ok = { q with buf := List.replicate q.buf.length 0, pos := 0 }
  | .zero (some m) => c = .put m ∧ m.length = K ∧ ¬ q0.pos + K ≤ q0.buf.length ∧
      q0.flush ok = { q with buf := List.replicate q.buf.length 0, pos := 0 }
  | .rewind none => c = .flush ∧ q0.flush ok = { q with pos := 0 }
  | .rewind (some m) => c = .put m ∧ m.length = K ∧ ¬ q0.pos + K ≤ q0.buf.length ∧ q0.flush ok = { q with pos := 0 }
  | .gspace => c = .get ∧ q = q0
  | .garg => c = .get ∧ q = q0 ∧ q.pos + K ≤ q.buf.length
  | .gdes p => c = .get ∧ q = q0 ∧ q.pos + K ≤ q.buf.length ∧ p = q.pos
  | .gaddR b => c = .get ∧ q0.call K ok rx c = ({ q with pos := q.pos + K }, .msg (some b))
  | .gaddW b p => c = .get ∧ q0.call K ok rx c = ({ q with pos := p + K }, .msg (some b))
  | .recv => c = .unflush ∧ q = q0
  | .rstart => c = .unflush ∧ q0.call K ok rx c = ({ q with pos := 0 }, .bool true)
  | .ret c' r => c' = c ∧ q0.call K ok rx c = (q, r)

theorem begin_rel (c : Call) (q : Q) (h : ∀ m, c = .put m → m.length = K) : Rel K ok rx c q q (begin c) := by
  cases c <;> simp_all [begin, Rel]

/-- The part of `adv` that touches the object: the place after it, the object, whether it is out of bounds. -/
theorem adv_rel {c : Call} {q0 : Q} {s s' : St} {i : Nat} {p : Pc} (hr : Rel K ok rx c q0 s.q p) (hp : ∀ c' r, p ≠ .ret c' r)
    (e : adv K ok rx s i p = some s') : ∃ p', Rel K ok rx c q0 s'.q p' ∧ s'.thr = s.thr.set i p' ∧ s'.log = s.log ∧ s'.bad = s.bad := by
  cases p with
  | idle => exact absurd hr (by simp [Rel])
  | ret c' r => exact absurd rfl (hp c' r)
  | space m again =>
    obtain ⟨hc, hm, hif⟩ := hr
    subst hc
    simp only [adv, Option.some.injEq, spaceStep] at e
    by_cases hs : s.pos + K ≤ s.buf.length
    · rw [if_pos hs] at e; subst e
      refine ⟨.arg m, ⟨rfl, hm, hs, ?_⟩, rfl, rfl, rfl⟩
      cases again with
      | false =>
        have hq : s.q = q0 := by simpa using hif
        rw [← hq]
        have : (s.q).pos + K ≤ (s.q).buf.length := hs
        simp only [Q.call, this, if_true]; rfl
      | true =>
        have hq : ¬ q0.pos + K ≤ q0.buf.length ∧ s.q = q0.flush ok := by simpa using hif
        have h2 : (s.q).pos + K ≤ (s.q).buf.length := hs
        rw [hq.2] at h2
        have h3 : K ≤ q0.buf.length := by simpa [Q.flush] using h2
        simp only [Q.call, if_neg hq.1, if_pos h3]
        rw [← hq.2]; rfl
    · rw [if_neg hs] at e
      cases again with
      | false =>
        have hq : s.q = q0 := by simpa using hif
        simp only [Bool.false_eq_true, if_false] at e; subst e
        refine ⟨.copy (some m), ⟨rfl, hm, ?_, hq⟩, rfl, rfl, rfl⟩
        rw [← hq]; exact hs
      | true =>
        have hq : ¬ q0.pos + K ≤ q0.buf.length ∧ s.q = q0.flush ok := by simpa using hif
        simp only [if_true] at e; subst e
        refine ⟨.ret (.put m) (.bool false), ⟨rfl, ?_⟩, rfl, rfl, rfl⟩
        have h2 : ¬ (s.q).pos + K ≤ (s.q).buf.length := hs
        rw [hq.2] at h2
        have h3 : ¬ K ≤ q0.buf.length := by simpa [Q.flush] using h2
        simp only [Q.call, if_neg hq.1, if_neg h3]
        rw [← hq.2]; rfl
  | arg m =>
    simp only [adv, Option.some.injEq] at e; subst e
    obtain ⟨hc, hm, hs, hcall⟩ := hr
    exact ⟨.ser m s.pos, ⟨hc, hm, hs, hcall, rfl⟩, rfl, rfl, rfl⟩
  | ser m p =>
    obtain ⟨hc, hm, hs, hcall, hpp⟩ := hr
    have hb : p + m.length ≤ s.buf.length := by
      have : (s.q).pos + K ≤ (s.q).buf.length := hs
      rw [hpp, hm]; exact this
    simp only [adv, Option.some.injEq, serStep, if_pos hb] at e; subst e
    refine ⟨.addR m, ⟨hc, hm, ?_⟩, rfl, rfl, rfl⟩
    rw [hcall, hpp, ← hm]; rfl
  | addR m =>
    simp only [adv, Option.some.injEq] at e; subst e
    exact ⟨.addW m s.pos, hr, rfl, rfl, rfl⟩
  | addW m p =>
    simp only [adv, Option.some.injEq] at e; subst e
    obtain ⟨hc, hm, hcall⟩ := hr
    exact ⟨.ret (.put m) (.bool true), ⟨hc.symm, hcall⟩, rfl, rfl, rfl⟩
  | copy next =>
    simp only [adv, Option.some.injEq] at e; subst e
    cases next with
    | none =>
      obtain ⟨hc, hq⟩ := hr
      refine ⟨.zero none, ⟨hc, ?_⟩, rfl, rfl, rfl⟩
      rw [← hq]; rfl
    | some m =>
      obtain ⟨hc, hm, hn, hq⟩ := hr
      refine ⟨.zero (some m), ⟨hc, hm, hn, ?_⟩, rfl, rfl, rfl⟩
      rw [← hq]; rfl
  | zero next =>
    simp only [adv, Option.some.injEq] at e; subst e
    cases next with
    | none =>
      obtain ⟨hc, hq⟩ := hr
      exact ⟨.rewind none, ⟨hc, hq⟩, rfl, rfl, rfl⟩
    | some m =>
      obtain ⟨hc, hm, hn, hq⟩ := hr
      exact ⟨.rewind (some m), ⟨hc, hm, hn, hq⟩, rfl, rfl, rfl⟩
  | rewind next =>
    cases next with
    | none =>
      simp only [adv, Option.some.injEq, rewindStep] at e; subst e
      obtain ⟨hc, hq⟩ := hr
      refine ⟨.ret .flush .void, ⟨hc.symm, ?_⟩, rfl, rfl, rfl⟩
      subst hc
      simp only [Q.call, hq]; rfl
    | some m =>
      simp only [adv, Option.some.injEq, rewindStep] at e; subst e
      obtain ⟨hc, hm, hn, hq⟩ := hr
      refine ⟨.space m true, ⟨hc, hm, ?_⟩, rfl, rfl, rfl⟩
      rw [if_pos rfl]
      exact ⟨hn, hq.symm⟩
  | gspace =>
    obtain ⟨hc, hq⟩ := hr
    simp only [adv, Option.some.injEq] at e
    by_cases hs : s.pos + K ≤ s.buf.length
    · rw [if_pos hs] at e; subst e
      exact ⟨.garg, ⟨hc, hq, hs⟩, rfl, rfl, rfl⟩
    · rw [if_neg hs] at e; subst e
      refine ⟨.ret .get (.msg none), ⟨hc.symm, ?_⟩, rfl, rfl, rfl⟩
      subst hc
      rw [← hq]
      have : ¬ (s.q).pos + K ≤ (s.q).buf.length := hs
      simp only [Q.call, if_neg this]; rfl
  | garg =>
    simp only [adv, Option.some.injEq] at e; subst e
    obtain ⟨hc, hq, hs⟩ := hr
    exact ⟨.gdes s.pos, ⟨hc, hq, hs, rfl⟩, rfl, rfl, rfl⟩
  | gdes p =>
    obtain ⟨hc, hq, hs, hpp⟩ := hr
    have hb : p + K ≤ s.buf.length := by rw [hpp]; exact hs
    simp only [adv, Option.some.injEq, desStep, if_pos hb] at e; subst e
    refine ⟨.gaddR _, ⟨hc, ?_⟩, rfl, rfl, rfl⟩
    subst hc
    rw [← hq, hpp]
    simp only [Q.call, if_pos hs]; rfl
  | gaddR b =>
    simp only [adv, Option.some.injEq] at e; subst e
    exact ⟨.gaddW b s.pos, hr, rfl, rfl, rfl⟩
  | gaddW b p =>
    simp only [adv, Option.some.injEq] at e; subst e
    obtain ⟨hc, hcall⟩ := hr
    exact ⟨.ret .get (.msg (some b)), ⟨hc.symm, hcall⟩, rfl, rfl, rfl⟩
  | recv =>
    obtain ⟨hc, hq⟩ := hr
    simp only [adv, Option.some.injEq, recvStep] at e
    cases hx : rx s.nu with
    | none =>
      rw [hx] at e; subst e
      refine ⟨.ret .unflush (.bool false), ⟨hc.symm, ?_⟩, rfl, rfl, rfl⟩
      subst hc
      rw [← hq]
      have : rx (s.q).nu = none := hx
      simp only [Q.call, this]; rfl
    | some b =>
      rw [hx] at e; subst e
      refine ⟨.rstart, ⟨hc, ?_⟩, rfl, rfl, rfl⟩
      subst hc
      rw [← hq]
      have : rx (s.q).nu = some b := hx
      simp only [Q.call, this]; rfl
  | rstart =>
    simp only [adv, Option.some.injEq] at e; subst e
    obtain ⟨hc, hcall⟩ := hr
    exact ⟨.ret .unflush (.bool true), ⟨hc.symm, hcall⟩, rfl, rfl, rfl⟩

theorem calls_snoc (q : Q) (cs : List Call) (c : Call) : q.calls K ok rx (cs ++ [c]) =
    (((q.calls K ok rx cs).1.call K ok rx c).1, (q.calls K ok rx cs).2 ++ [(c, ((q.calls K ok rx cs).1.call K ok rx c).2)]) := by
  induction cs generalizing q with
  | nil => rfl
  | cons d ds ih => simp only [List.cons_append, Q.calls]; rw [ih]

/-- The state of threads that hold the mutex around their calls, after the calls `cs` have begun. -/
def Inv (K bs : Nat) (ok : Nat → Bool) (rx : Nat → Option (List UInt8)) (cs : List Call) (s : St) : Prop :=
  s.bad = false ∧
  ((quiet s ∧ (Q.new bs).calls K ok rx cs = (s.q, s.log)) ∨
   ∃ (i : Nat) (c : Call) (ds : List Call) (p : Pc), cs = ds ++ [c] ∧ s.thr[i]? = some p ∧
     (∀ (j : Nat) (q : Pc), j ≠ i → s.thr[j]? = some q → q = .idle) ∧ ((Q.new bs).calls K ok rx ds).2 = s.log ∧
     Rel K ok rx c ((Q.new bs).calls K ok rx ds).1 s.q p)

theorem inv_init (n : Nat) : Inv K bs ok rx [] (init bs n) := by
  refine ⟨rfl, Or.inl ⟨?_, rfl⟩⟩
  intro p hp
  exact (List.mem_replicate.mp hp).2

theorem inv_step {cs : List Call} {s s' : St} {l : Label} (h : Inv K bs ok rx cs s) (hz : ∀ i m, l = .call i (.put m) → m.length = K)
    (e : step true K ok rx s l = some s') : Inv K bs ok rx (cs ++ started [l]) s' := by
  obtain ⟨hb, h⟩ := h
  cases l with
  | call i c =>
    simp only [step, hb, Bool.false_eq_true, if_false] at e
    by_cases hc : s.thr[i]? = some .idle ∧ (True → ∀ q ∈ s.thr, q = .idle)
    · rw [if_pos hc, Option.some.injEq] at e; subst e
      have hq : quiet s := hc.2 trivial
      refine ⟨hb, Or.inr ⟨i, c, cs, begin c, rfl, ?_, ?_, ?_, ?_⟩⟩
      · have hi : i < s.thr.length := by
          obtain ⟨h1, _⟩ := List.getElem?_eq_some_iff.mp hc.1; exact h1
        simp [St.go, hi]
      · intro j q hj hq'
        simp only [St.go] at hq'
        rw [List.getElem?_set_ne (Ne.symm hj)] at hq'
        exact hq q (List.mem_of_getElem? hq')
      · rcases h with ⟨_, h2⟩ | ⟨k, c', ds, p, _, hp, _, _, hr⟩
        · rw [h2]; rfl
        · have := hq p (List.mem_of_getElem? hp); subst this; exact absurd hr (by simp [Rel])
      · rcases h with ⟨_, h2⟩ | ⟨k, c', ds, p, _, hp, _, _, hr⟩
        · rw [h2]; exact begin_rel c _ (fun m hm => hz i m (by rw [hm]))
        · have := hq p (List.mem_of_getElem? hp); subst this; exact absurd hr (by simp [Rel])
    · rw [if_neg hc] at e; exact absurd e (by simp)
  | adv i =>
    simp only [started, List.append_nil]
    simp only [step, hb, Bool.false_eq_true, if_false] at e
    cases hp : s.thr[i]? with
    | none => rw [hp] at e; exact absurd e (by simp)
    | some p =>
      rw [hp] at e
      have hi : i < s.thr.length := by
        obtain ⟨h1, _⟩ := List.getElem?_eq_some_iff.mp hp; exact h1
      rcases h with ⟨hq, _⟩ | ⟨k, c, ds, p', hcs, hpk, hoth, hlog, hr⟩
      · have := hq p (List.mem_of_getElem? hp); subst this
        exact absurd e (by simp [adv])
      · by_cases hik : i = k
        · subst hik
          rw [hp, Option.some.injEq] at hpk; subst hpk
          by_cases hret : ∃ c' r, p = .ret c' r
          · obtain ⟨c', r, rfl⟩ := hret
            simp only [adv, Option.some.injEq] at e; subst e
            obtain ⟨hc, hcall⟩ := hr
            refine ⟨hb, Or.inl ⟨?_, ?_⟩⟩
            · intro q hq
              simp only [St.go] at hq
              obtain ⟨j, hj⟩ := List.mem_iff_getElem?.mp hq
              by_cases hji : j = i
              · subst hji; rw [List.getElem?_set_self hi, Option.some.injEq] at hj; exact hj.symm
              · rw [List.getElem?_set_ne (Ne.symm hji)] at hj; exact hoth j q hji hj
            · rw [hcs, calls_snoc, hcall, hlog, ← hc]; rfl
          · have hret' : ∀ c' r, p ≠ .ret c' r := fun c' r hc => hret ⟨c', r, hc⟩
            obtain ⟨p', hr', ht, hl, hb'⟩ := adv_rel hr hret' e
            refine ⟨hb'.trans hb, Or.inr ⟨i, c, ds, p', hcs, ?_, ?_, ?_, hr'⟩⟩
            · rw [ht, List.getElem?_set_self hi]
            · intro j q hj hq
              rw [ht, List.getElem?_set_ne (Ne.symm hj)] at hq
              exact hoth j q hj hq
            · rw [hl]; exact hlog
        · have := hoth i p hik hp; subst this
          exact absurd e (by simp [adv])

theorem started_append (as bs : List Label) : started (as ++ bs) = started as ++ started bs := by
  induction as with
  | nil => rfl
  | cons a as ih => cases a <;> simp [started, ih]

theorem inv_run : ∀ (ls : List Label) {cs : List Call} {s s' : St}, Inv K bs ok rx cs s → sized K ls →
    run true K ok rx s ls = some s' → Inv K bs ok rx (cs ++ started ls) s'
  | [], cs, s, s', h, _, e => by
    simp only [run, Option.some.injEq] at e; subst e; simpa [started] using h
  | l :: ls, cs, s, s', h, hz, e => by
    simp only [run] at e
    cases h1 : step true K ok rx s l with
    | none => rw [h1] at e; exact absurd e (by simp)
    | some s1 =>
      rw [h1] at e
      have hi := inv_step h (fun i m hl => hz i m (by rw [hl]; exact List.mem_cons_self)) h1
      have := inv_run ls hi (fun i m hm => hz i m (List.mem_cons_of_mem _ hm)) e
      have hs : started (l :: ls) = started [l] ++ started ls := by rw [← started_append]; rfl
      rw [hs, ← List.append_assoc]; exact this

/-! ### messages -/

theorem boxOf_length {ms : List (List UInt8)} (h : ms.flatten.length ≤ bs) : (boxOf bs ms).length = bs := by
  simp only [boxOf, List.length_append, List.length_replicate]; omega

theorem boxOf_nil : boxOf bs [] = List.replicate bs 0 := by simp [boxOf]

theorem patch_boxOf {ms : List (List UInt8)} {m : List UInt8} (h : ms.flatten.length + m.length ≤ bs) :
    patch (boxOf bs ms) ms.flatten.length m = boxOf bs (ms ++ [m]) := by
  unfold patch boxOf
  have h1 : (ms.flatten ++ List.replicate (bs - ms.flatten.length) (0 : UInt8)).take ms.flatten.length = ms.flatten := by
    rw [List.take_append_of_le_length (Nat.le_refl _), List.take_length]
  rw [h1]
  rw [List.drop_append, List.drop_eq_nil_of_le (by omega)]
  simp only [List.nil_append, List.drop_replicate, List.flatten_append, List.flatten_cons, List.flatten_nil, List.append_nil,
    List.length_append]
  congr 2; omega

/-- An object that was used for sending only: the boxes sent and the current one contain the messages put, in their order. -/
def Full (bs : Nat) (ms : List (List UInt8)) (q : Q) : Prop :=
  ∃ (parts : List (List (List UInt8))) (cur : List (List UInt8)), parts.flatten ++ cur = ms ∧ q.out = parts.map (boxOf bs) ∧
    q.buf = boxOf bs cur ∧ q.pos = cur.flatten.length ∧ cur.flatten.length ≤ bs ∧ ∀ p ∈ parts, p.flatten.length ≤ bs

theorem full_flush {ms : List (List UInt8)} {q : Q} (hok : ∀ n, ok n = true) (h : Full bs ms q) : Full bs ms (q.flush ok) := by
  obtain ⟨parts, cur, h1, h2, h3, h4, h5, h6⟩ := h
  refine ⟨parts ++ [cur], [], by simp [h1], ?_, ?_, rfl, by simp, ?_⟩
  · simp [Q.flush, hok, h2, h3]
  · simp only [Q.flush, h3, boxOf_length h5, boxOf_nil]
  · intro p hp
    rcases List.mem_append.mp hp with hp | hp
    · exact h6 p hp
    · rw [List.mem_singleton] at hp; subst hp; exact h5

theorem full_add {ms : List (List UInt8)} {q : Q} {m : List UInt8} (h : Full bs ms q) (hs : q.pos + m.length ≤ q.buf.length) :
    Full bs (ms ++ [m]) (q.add m) := by
  obtain ⟨parts, cur, h1, h2, h3, h4, h5, h6⟩ := h
  rw [h3, h4, boxOf_length h5] at hs
  refine ⟨parts, cur ++ [m], by simp [← h1], h2, ?_, ?_, ?_, h6⟩
  · simp only [Q.add, h3, h4]; exact patch_boxOf hs
  · simp [Q.add, h4]
  · simpa using hs

theorem full_calls (hok : ∀ n, ok n = true) (hK : K ≤ bs) : ∀ (cs : List Call) {ms : List (List UInt8)} {q : Q}, Full bs ms q →
    (∀ c ∈ cs, c = .flush ∨ ∃ m, c = .put m ∧ m.length = K) →
    Full bs (ms ++ putsOf cs) (q.calls K ok rx cs).1 ∧ ∀ m r, (Call.put m, r) ∈ (q.calls K ok rx cs).2 → r = .bool true
  | [], ms, q, h, _ => by simp [putsOf, Q.calls, h]
  | c :: cs, ms, q, h, hc => by
    have hcs : ∀ c ∈ cs, c = .flush ∨ ∃ m, c = .put m ∧ m.length = K := fun c hm => hc c (List.mem_cons_of_mem _ hm)
    rcases hc c List.mem_cons_self with rfl | ⟨m, rfl, hm⟩
    · have := full_calls hok hK cs (full_flush hok h) hcs
      refine ⟨by simpa only [putsOf, Q.calls, Q.call] using this.1, ?_⟩
      intro m r hmem
      simp only [Q.calls, Q.call, List.mem_cons, Prod.mk.injEq, reduceCtorEq, false_and, false_or] at hmem
      exact this.2 m r hmem
    · have hcall : ∃ q', q.call K ok rx (.put m) = (q', .bool true) ∧ Full bs (ms ++ [m]) q' := by
        by_cases hs : q.pos + K ≤ q.buf.length
        · exact ⟨_, by simp only [Q.call, if_pos hs], full_add h (by rw [hm]; exact hs)⟩
        · have hlen : q.buf.length = bs := by
            obtain ⟨_, cur, _, _, h3, _, h5, _⟩ := h
            rw [h3, boxOf_length h5]
          have hK' : K ≤ q.buf.length := by omega
          refine ⟨(q.flush ok).add m, by simp only [Q.call, if_neg hs, if_pos hK'], full_add (full_flush hok h) ?_⟩
          simp [Q.flush]; omega
      obtain ⟨q', e, hf⟩ := hcall
      have := full_calls hok hK cs hf hcs
      refine ⟨?_, ?_⟩
      · simp only [putsOf, Q.calls, e]
        rw [List.append_assoc] at this
        exact this.1
      · intro m' r hmem
        simp only [Q.calls, e, List.mem_cons, Prod.mk.injEq] at hmem
        rcases hmem with ⟨_, rfl⟩ | hmem
        · rfl
        · exact this.2 m' r hmem

theorem mem_started {c : Call} : ∀ {ls : List Label}, c ∈ started ls → ∃ i, Label.call i c ∈ ls
  | .call i d :: ls, h => by
    rcases List.mem_cons.mp h with rfl | h
    · exact ⟨i, List.mem_cons_self⟩
    · obtain ⟨j, hj⟩ := mem_started h; exact ⟨j, List.mem_cons_of_mem _ hj⟩
  | .adv _ :: ls, h => by
    obtain ⟨j, hj⟩ := mem_started (ls := ls) h; exact ⟨j, List.mem_cons_of_mem _ hj⟩

theorem mem_of_call {i : Nat} {c : Call} : ∀ {ls : List Label}, Label.call i c ∈ ls → c ∈ started ls
  | .call j d :: ls, h => by
    rcases List.mem_cons.mp h with h | h
    · cases h; exact List.mem_cons_self
    · exact List.mem_cons_of_mem _ (mem_of_call h)
  | .adv _ :: ls, h => by
    rcases List.mem_cons.mp h with h | h
    · cases h
    · exact mem_of_call (ls := ls) h

theorem flatten_length : ∀ {ms : List (List UInt8)}, (∀ m ∈ ms, m.length = K) → ms.flatten.length = ms.length * K
  | [], _ => by simp
  | m :: ms, h => by
    simp only [List.flatten_cons, List.length_append, List.length_cons, Nat.add_mul, Nat.one_mul]
    rw [flatten_length (fun x hx => h x (List.mem_cons_of_mem _ hx)), h m List.mem_cons_self, Nat.add_comm]

theorem gets_calls : ∀ (ms : List (List UInt8)) (pre : List UInt8) (q : Q), (∀ m ∈ ms, m.length = K) → q.buf = pre ++ ms.flatten →
    q.pos = pre.length → (q.calls K ok rx (List.replicate ms.length .get)).2 = ms.map (fun m => (.get, .msg (some m)))
  | [], _, _, _, _, _ => rfl
  | m :: ms, pre, q, hm, hb, hp => by
    have hk : m.length = K := hm m List.mem_cons_self
    have hs : q.pos + K ≤ q.buf.length := by rw [hp, hb]; simp [hk]
    simp only [List.length_cons, List.replicate_succ, Q.calls, Q.call, if_pos hs, List.map_cons]
    congr 1
    · have : (q.buf.drop q.pos).take K = m := by
        rw [hb, hp, List.drop_left, List.flatten_cons, ← hk, List.take_left]
      rw [this]
    · exact gets_calls ms (pre ++ m) _ (fun x hx => hm x (List.mem_cons_of_mem _ hx)) (by simp [hb]) (by simp [hp, hk])

theorem run_append (g : Bool) : ∀ (as bs : List Label) (s : St), run g K ok rx s (as ++ bs) = (run g K ok rx s as).bind (run g K ok rx · bs)
  | [], _, _ => rfl
  | a :: as, bs, s => by
    simp only [List.cons_append, run]
    cases step g K ok rx s a with
    | none => rfl
    | some s1 => exact run_append g as bs s1

/-- Thread 0 puts these messages, one after the other. -/
def fillLs : List (List UInt8) → List Label
  | [] => []
  | m :: ms => .call 0 (.put m) :: .adv 0 :: .adv 0 :: .adv 0 :: .adv 0 :: .adv 0 :: .adv 0 :: fillLs ms

theorem mem_fillLs {i : Nat} {m : List UInt8} : ∀ {ms : List (List UInt8)}, Label.call i (.put m) ∈ fillLs ms → m ∈ ms
  | [], h => by simp [fillLs] at h
  | d :: ms, h => by
    simp only [fillLs, List.mem_cons, Label.call.injEq, Call.put.injEq, reduceCtorEq, false_or] at h
    rcases h with h | h
    · rw [h.2]; exact List.mem_cons_self
    · exact List.mem_cons_of_mem _ (mem_fillLs h)

theorem puts_fillLs : ∀ (ms : List (List UInt8)), putsOf (started (fillLs ms)) = ms
  | [] => rfl
  | m :: ms => by simp only [fillLs, started, putsOf]; rw [puts_fillLs ms]

theorem putsOf_append (as bs : List Call) : putsOf (as ++ bs) = putsOf as ++ putsOf bs := by
  induction as with
  | nil => rfl
  | cons a as ih => cases a <;> simp [putsOf, ih]

theorem fill_run : ∀ (ms : List (List UInt8)) (log : List (Call × Ret)) (b : List UInt8) (p : Nat), (∀ m ∈ ms, m.length = K) →
    p + ms.length * K ≤ b.length → ∃ log' b', b'.length = b.length ∧
    run false K ok rx ⟨b, p, [], 0, 0, [.idle, .idle], log, false⟩ (fillLs ms) =
      some ⟨b', p + ms.length * K, [], 0, 0, [.idle, .idle], log', false⟩
  | [], log, b, p, _, _ => ⟨log, b, rfl, by simp [fillLs, run]⟩
  | m :: ms, log, b, p, hm, hp => by
    have hk : m.length = K := hm m List.mem_cons_self
    rw [List.length_cons, Nat.add_mul, Nat.one_mul] at hp
    have hs : p + K ≤ b.length := by omega
    have hpl : (patch b p m).length = b.length := patch_length (by omega)
    obtain ⟨log', b', h1, h2⟩ := fill_run ms (log ++ [(.put m, .bool true)]) (patch b p m) (p + K)
      (fun x hx => hm x (List.mem_cons_of_mem _ hx)) (by rw [hpl]; omega)
    refine ⟨log', b', h1.trans hpl, ?_⟩
    have e : p + K + ms.length * K = p + (m :: ms).length * K := by rw [List.length_cons, Nat.add_mul, Nat.one_mul]; omega
    rw [← e, ← h2]
    simp [fillLs, run, step, adv, begin, St.go, spaceStep, serStep, hs, hk]

end Verif.QueueThreads
