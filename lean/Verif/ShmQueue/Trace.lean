import Verif.ShmQueue.Lemmas

set_option linter.unusedSimpArgs false
set_option linter.unusedVariables false

namespace Verif.ShmQueue

open RwLock (Vals SemBuf semop semop1 undo undo1 SEMVMX)

variable {size bs : Nat}

theorem inv_init {n : Nat} : Inv size bs (init bs n) := by
  have hp : ∀ p ∈ (init bs n).procs, p = ⟨.idle, List.replicate bs 0, ⟨0, 0⟩⟩ := by
    intro p hp
    exact (List.mem_replicate.mp hp).2
  have hu : units (init bs n).procs = 0 := by
    unfold units
    rw [List.countP_eq_zero]
    intro p h
    rw [hp p h]; simp [Mode.unit]
  refine ⟨rfl, ?_, ?_, Int.le_refl 0, ?_, Or.inl ⟨rfl, ?_, ?_⟩⟩
  · intro p h; rw [hp p h]; simp
  · intro p h; rw [hp p h]; rfl
  · rw [hu]; rfl
  · intro p h; rw [hp p h]; rfl
  · refine ⟨(Nat.zero_mod _).symm, (Nat.zero_mod _).symm, Nat.le_refl _, Nat.zero_le _, rfl, ?_, ?_⟩
    · intro b hb; simp [init] at hb
    · intro j _ hj; exact absurd hj (Nat.not_lt_zero _)

theorem exec_inv (h1 : 1 ≤ size) (hz : size < 2 ^ 32) (hs : size * bs < 2 ^ 32) : ∀ (ls : List Label) (s s' : State), Inv size bs s →
    SafeRun size bs s ls = true → exec size bs s ls = some s' → Inv size bs s'
  | [], s, s', h, _, he => by
    simp only [exec, Option.some.injEq] at he
    rw [← he]; exact h
  | a :: as, s, s', h, hr, he => by
    simp only [exec] at he
    simp only [SafeRun, Bool.and_eq_true] at hr
    obtain ⟨hr1, hr2⟩ := hr
    cases hst : step size bs s a with
    | none => rw [hst] at he; simp at he
    | some t =>
      rw [hst] at he hr2
      have hok : okLabel size s a := by
        cases a with
        | intr i => simp at hr1
        | kill i =>
          intro p hp
          simp only [hp, Option.map_some, Option.getD_some, harmless] at hr1
          cases hm : p.mode <;> simp only [Mode.killSafe]
          all_goals simpa [hm] using hr1
        | _ => trivial
      exact exec_inv h1 hz hs as t s' (inv_step h1 hz hs h hok hst) hr2 he

theorem calm_safe : ∀ (ls : List Label) (s : State), (∀ l ∈ ls, l.calm = true) → SafeRun size bs s ls = true
  | [], _, _ => rfl
  | a :: as, s, h => by
    have ha := h a List.mem_cons_self
    simp only [SafeRun, Bool.and_eq_true]
    refine ⟨?_, ?_⟩
    · cases a <;> first | rfl | simp [Label.calm] at ha
    · split
      · exact calm_safe as _ (fun l hl => h l (List.mem_cons_of_mem _ hl))
      · rfl

/-! ### what one step does to the histories -/

theorem doSem_some {s s' : State} {i : Nat} {p : Proc} {ops : List SemBuf} {m : Mode} (h : s.doSem i p ops m = some s') :
    ∃ v a, s' = { s with sem := v }.upd i { p with mode := m, adj := a } := by
  unfold State.doSem at h
  split at h
  · simp only [Option.some.injEq] at h
    exact ⟨_, _, h.symm⟩
  · simp at h

theorem store_fields {s : State} {a : Nat} {v : UInt8} : (s.store size bs a v).procs = s.procs ∧ (s.store size bs a v).acc = s.acc ∧
    (s.store size bs a v).rcv = s.rcv ∧ (s.store size bs a v).sem = s.sem ∧ (s.store size bs a v).lost = s.lost := by
  unfold State.store
  split <;> exact ⟨rfl, rfl, rfl, rfl, rfl⟩

theorem store_upd_procs {s : State} {a i : Nat} {v : UInt8} {q : Proc} :
    ((s.store size bs a v).upd i q).procs = s.procs.set i q := by
  simp only [State.upd, store_fields.1]

/-- A box received by this step (the end of the memset). -/
def receivedBy (bs : Nat) (s : State) : Label → List (List UInt8)
  | .adv i =>
    match s.procs[i]? with
    | some p =>
      match p.mode with
      | .u3 k => if k < bs then [] else [p.cb]
      | _ => []
    | none => []
  | _ => []

theorem step_hist {s s' : State} {l : Label} (he : step size bs s l = some s') :
    s'.acc = s.acc ++ (acceptedBy bs s l).map Prod.snd ∧ s'.rcv = s.rcv ++ receivedBy bs s l := by
  cases l with
  | adv i =>
    simp only [step] at he
    cases hp : s.procs[i]? with
    | none => simp [hp] at he
    | some p =>
      simp only [hp] at he
      simp only [acceptedBy, receivedBy, hp]
      unfold adv at he
      cases hm : p.mode with
      | f2 k =>
        simp only [hm] at he
        dsimp only
        by_cases hc : k < bs
        · rw [if_pos hc] at he
          simp only [Option.some.injEq] at he
          rw [← he, if_pos hc]
          have := store_fields (size := size) (bs := bs) (s := s) (a := addr bs s.end_ k) (v := p.cb.getD k 0)
          simp only [State.upd, this.2.1, this.2.2.1, List.map_nil, List.append_nil, and_self]
        · rw [if_neg hc] at he
          simp only [Option.some.injEq] at he
          rw [← he, if_neg hc]
          simp [State.upd]
      | u3 k =>
        simp only [hm] at he
        dsimp only
        by_cases hc : k < bs
        · rw [if_pos hc] at he
          simp only [Option.some.injEq] at he
          rw [← he, if_pos hc]
          have := store_fields (size := size) (bs := bs) (s := s) (a := addr bs s.start k) (v := 0)
          simp only [State.upd, this.2.1, this.2.2.1, List.map_nil, List.append_nil, and_self]
        · rw [if_neg hc] at he
          simp only [Option.some.injEq] at he
          rw [← he, if_neg hc]
          simp [State.upd]
      | f0 =>
        simp only [hm] at he
        obtain ⟨v, a, rfl⟩ := doSem_some he
        simp [State.upd]
      | f6 =>
        simp only [hm] at he
        obtain ⟨v, a, rfl⟩ := doSem_some he
        simp [State.upd]
      | u0 =>
        simp only [hm] at he
        obtain ⟨v, a, rfl⟩ := doSem_some he
        simp [State.upd]
      | u1 =>
        simp only [hm] at he
        obtain ⟨v, a, rfl⟩ := doSem_some he
        simp [State.upd]
      | u6 =>
        simp only [hm] at he
        obtain ⟨v, a, rfl⟩ := doSem_some he
        simp [State.upd]
      | _ =>
        simp only [hm] at he
        repeat' split at he
        all_goals first
          | (simp at he; done)
          | (simp only [Option.some.injEq] at he; rw [← he]; simp [State.upd])
  | _ =>
    simp only [step] at he
    simp only [acceptedBy, receivedBy]
    repeat' split at he
    all_goals first
      | (simp at he; done)
      | (simp only [Option.some.injEq] at he; rw [← he]; simp [State.upd])

theorem exec_acc : ∀ (ls : List Label) (s s' : State), exec size bs s ls = some s' →
    s'.acc = s.acc ++ (accepted size bs s ls).map Prod.snd
  | [], s, s', he => by
    simp only [exec, Option.some.injEq] at he
    rw [← he]; simp [accepted]
  | a :: as, s, s', he => by
    simp only [exec] at he
    cases hst : step size bs s a with
    | none => rw [hst] at he; simp at he
    | some t =>
      rw [hst] at he
      simp only [accepted, hst]
      rw [exec_acc as t s' he, (step_hist hst).1]
      simp

/-- The process a label is about. -/
def Label.who : Label → Nat
  | .flush i _ | .unflush i | .timeout i | .adv i | .intr i | .kill i => i

/-- A step changes its own process only. -/
theorem step_procs {s s' : State} {l : Label} (he : step size bs s l = some s') :
    s'.procs = s.procs ∨ ∃ p q : Proc, s.procs[l.who]? = some p ∧ s'.procs = s.procs.set l.who q := by
  cases l with
  | adv i =>
    simp only [step] at he
    cases hp : s.procs[i]? with
    | none => simp [hp] at he
    | some p =>
      simp only [hp] at he
      unfold adv State.doSem at he
      repeat' split at he
      all_goals first
        | (simp at he; done)
        | (simp only [Option.some.injEq] at he; rw [← he]; right; exact ⟨p, _, hp, rfl⟩)
        | (simp only [Option.some.injEq] at he; rw [← he]; right; exact ⟨p, _, hp, store_upd_procs⟩)
        | (simp only [Option.some.injEq] at he; rw [← he]; left; rfl)
  | _ i =>
    simp only [step] at he
    cases hp : s.procs[i]? with
    | none => simp [hp] at he
    | some p =>
      simp only [hp] at he
      repeat' split at he
      all_goals first
        | (simp at he; done)
        | (simp only [Option.some.injEq] at he; rw [← he]; right; exact ⟨p, _, hp, rfl⟩)

theorem step_other {s s' : State} {l : Label} (he : step size bs s l = some s') {j : Nat} (hj : j ≠ l.who) : s'.procs[j]? = s.procs[j]? := by
  rcases step_procs he with h | ⟨p, q, hp, h⟩
  · rw [h]
  · rw [h, List.getElem?_set, if_neg (fun hh => hj hh.symm)]

/-! ### whose boxes are accepted -/

/-- The box a process inside flush has not yet copied. -/
def pending (s : State) (i : Nat) : List (List UInt8) :=
  match s.procs[i]? with
  | some p => match p.mode with
    | .f0 | .f1 | .f2 _ => [p.cb]
    | _ => []
  | none => []

def mine (i : Nat) (xs : List (Nat × List UInt8)) : List (List UInt8) := (xs.filter (fun x => x.1 = i)).map Prod.snd

def flushedBy (i : Nat) : Label → List (List UInt8)
  | .flush j b => if j = i then [b] else []
  | _ => []

theorem flushed_cons (i : Nat) (a : Label) (as : List Label) : flushed i (a :: as) = flushedBy i a ++ flushed i as := by
  cases a <;> simp only [flushed, flushedBy, List.nil_append]
  split <;> simp

theorem step_pending {s s' : State} {l : Label} (i : Nat) (he : step size bs s l = some s') :
    (mine i (acceptedBy bs s l) ++ pending s' i).Sublist (pending s i ++ flushedBy i l) := by
  by_cases hi : i = l.who
  · cases l with
    | adv j =>
      have hi' : i = j := hi
      subst hi'
      simp only [step] at he
      cases hp : s.procs[i]? with
      | none => simp [hp] at he
      | some p =>
        have hlt : i < s.procs.length := (List.getElem?_eq_some_iff.mp hp).1
        simp only [hp] at he
        simp only [acceptedBy, hp, pending, flushedBy, List.append_nil]
        unfold adv State.doSem at he
        cases hm : p.mode with
        | f2 k =>
          simp only [hm] at he
          dsimp only
          by_cases hc : k < bs
          · rw [if_pos hc] at he
            simp only [Option.some.injEq] at he
            rw [← he, if_pos hc]
            simp [State.upd, store_fields.1, hlt, mine]
          · rw [if_neg hc] at he
            simp only [Option.some.injEq] at he
            rw [← he, if_neg hc]
            simp [State.upd, hlt, mine]
        | _ =>
          simp only [hm] at he
          repeat' split at he
          all_goals first
            | (simp at he; done)
            | (simp only [Option.some.injEq] at he; rw [← he]; dsimp only; rw [hp]; simp [mine, hm]; done)
            | (simp only [Option.some.injEq] at he; rw [← he]; simp [State.upd, store_fields.1, hlt, mine]; done)
    | _ j =>
      have hi' : i = j := hi
      subst hi'
      simp only [step] at he
      cases hp : s.procs[i]? with
      | none => simp [hp] at he
      | some p =>
        have hlt : i < s.procs.length := (List.getElem?_eq_some_iff.mp hp).1
        simp only [hp] at he
        simp only [acceptedBy, hp, pending, flushedBy]
        repeat' split at he
        all_goals first
          | (simp at he; done)
          | (rename_i hc; simp only [Option.some.injEq] at he; rw [← he]; simp [State.upd, hlt, mine, hc])
          | (simp only [Option.some.injEq] at he; rw [← he]; simp [State.upd, hlt, mine])
  · have h1 : mine i (acceptedBy bs s l) = [] := by
      cases l with
      | adv j =>
        have hj : ¬ j = i := fun hh => hi hh.symm
        simp only [acceptedBy]
        repeat' split
        all_goals simp [mine, hj]
      | _ => rfl
    have h2 : pending s' i = pending s i := by
      unfold pending; rw [step_other he hi]
    rw [h1, h2, List.nil_append]
    exact List.sublist_append_left _ _

theorem mine_append (i : Nat) (xs ys : List (Nat × List UInt8)) : mine i (xs ++ ys) = mine i xs ++ mine i ys := by simp [mine]

theorem accepted_sub (i : Nat) : ∀ (ls : List Label) (s s' : State), exec size bs s ls = some s' →
    (mine i (accepted size bs s ls)).Sublist (pending s i ++ flushed i ls)
  | [], s, s', _ => by simp [accepted, mine]
  | a :: as, s, s', he => by
    simp only [exec] at he
    cases hst : step size bs s a with
    | none => rw [hst] at he; simp at he
    | some t =>
      rw [hst] at he
      simp only [accepted, hst]
      rw [flushed_cons, mine_append, ← List.append_assoc]
      refine List.Sublist.trans (List.Sublist.append_left (accepted_sub i as t s' he) _) ?_
      rw [← List.append_assoc]
      exact List.Sublist.append_right (step_pending i hst) _

/-! ### what is delivered -/

def hand (m : Mode) : Prop := m = .u5 ∨ m = .u6

/-- `d` was delivered; a box that is received and not yet delivered belongs to the process in the critical section. -/
def InHand (R : List (List UInt8) → List (List UInt8) → Prop) (s : State) (d : List (List UInt8)) : Prop :=
  (∃ (i : Nat) (p : Proc), s.procs[i]? = some p ∧ hand p.mode ∧ R (d ++ [p.cb]) s.rcv) ∨
  ((∀ p ∈ s.procs, ¬ hand p.mode) ∧ R d s.rcv)

theorem hand_same {R} {s s' : State} {d : List (List UInt8)} {i : Nat} {p q : Proc} (h : InHand R s d) (hp : s.procs[i]? = some p)
    (hps : s'.procs = s.procs.set i q) (h1 : ¬ hand p.mode) (h2 : ¬ hand q.mode) (hr : s'.rcv = s.rcv) : InHand R s' d := by
  rcases h with ⟨j, x, hx, hh, hR⟩ | ⟨ha, hR⟩
  · left
    refine ⟨j, x, ?_, hh, by rw [hr]; exact hR⟩
    rw [hps, List.getElem?_set, if_neg]
    · exact hx
    · rintro rfl
      rw [hp] at hx
      simp only [Option.some.injEq] at hx
      subst hx
      exact h1 hh
  · right
    refine ⟨?_, by rw [hr]; exact hR⟩
    intro x hx
    rw [hps] at hx
    rcases mem_set hx with hx | rfl
    · exact ha x hx
    · exact h2

theorem hand_inCS {m : Mode} (h : hand m) : m.inCS = true := by
  rcases h with rfl | rfl <;> rfl

/-- the process of the step is inside: nobody else is -/
theorem hand_self {R} {s : State} {d : List (List UInt8)} {i : Nat} {p : Proc} (hI : Inv size bs s) (h : InHand R s d)
    (hp : s.procs[i]? = some p) (hc : p.mode.inCS = true) : (hand p.mode ∧ R (d ++ [p.cb]) s.rcv) ∨ (¬ hand p.mode ∧ R d s.rcv) := by
  obtain ⟨_, ho, _⟩ := held hI hp hc
  rcases h with ⟨j, x, hx, hh, hR⟩ | ⟨ha, hR⟩
  · by_cases hj : j = i
    · subst hj
      rw [hp] at hx
      simp only [Option.some.injEq] at hx
      subst hx
      exact Or.inl ⟨hh, hR⟩
    · have := ho j x hj hx
      rw [hand_inCS hh] at this
      simp at this
  · exact Or.inr ⟨ha p (List.mem_of_getElem? hp), hR⟩

/-- the process of the step was inside: afterwards nobody else is in the hand modes -/
theorem hand_none {s s' : State} {i : Nat} {p q : Proc} (hI : Inv size bs s) (hp : s.procs[i]? = some p) (hc : p.mode.inCS = true)
    (hps : s'.procs = s.procs.set i q) (hq : ¬ hand q.mode) : ∀ x ∈ s'.procs, ¬ hand x.mode := by
  obtain ⟨_, ho, _⟩ := held hI hp hc
  intro x hx hh
  obtain ⟨k, hk⟩ := List.getElem?_of_mem hx
  rw [hps, List.getElem?_set] at hk
  split at hk
  · split at hk
    · simp only [Option.some.injEq] at hk; subst hk; exact hq hh
    · simp at hk
  · rename_i hik
    have := ho k x (fun e => hik e.symm) hk
    rw [hand_inCS hh] at this
    simp at this

theorem hand_set {s s' : State} {i : Nat} {p q : Proc} (hp : s.procs[i]? = some p) (hps : s'.procs = s.procs.set i q) : s'.procs[i]? = some q := by
  have hlt : i < s.procs.length := (List.getElem?_eq_some_iff.mp hp).1
  rw [hps]; simp [hlt]

/-- The relations for which the argument works. -/
structure HandRel (R : List (List UInt8) → List (List UInt8) → Prop) (kills : Prop) : Prop where
  snoc : ∀ d r b, R d r → R (d ++ [b]) (r ++ [b])
  drop : kills → ∀ d r b, R (d ++ [b]) r → R d r

theorem hand_eq : HandRel (fun d r => r = d) False := ⟨fun d r b h => by rw [h], fun h => h.elim⟩
theorem hand_sub : HandRel (fun d r => d.Sublist r) True :=
  ⟨fun d r b h => List.Sublist.append_right h _, fun _ d r b h => (List.sublist_append_left d [b]).trans h⟩

theorem hand_step {R} {kills : Prop} (hR : HandRel R kills) {s s' : State} {l : Label} {d : List (List UInt8)} (hI : Inv size bs s)
    (hk : (∃ i, l = .kill i) → kills) (hn : ∀ i, l ≠ .intr i) (h0 : 1 ≤ size)
    (h : InHand R s d) (he : step size bs s l = some s') : InHand R s' (d ++ (deliveredBy s l).map Prod.snd) := by
  cases l with
  | flush i b =>
    simp only [step] at he
    simp only [deliveredBy, List.map_nil, List.append_nil]
    cases hp : s.procs[i]? with
    | none => simp [hp] at he
    | some p =>
      simp only [hp] at he
      split at he
      · rename_i hc
        simp only [Option.some.injEq] at he
        rw [← he]
        exact hand_same h hp rfl (by rw [hc.1]; simp [hand]) (by simp [hand]) rfl
      · simp at he
  | unflush i =>
    simp only [step] at he
    simp only [deliveredBy, List.map_nil, List.append_nil]
    cases hp : s.procs[i]? with
    | none => simp [hp] at he
    | some p =>
      simp only [hp] at he
      split at he
      · rename_i hc
        simp only [Option.some.injEq] at he
        rw [← he]
        exact hand_same (q := { p with mode := .u0 }) h hp rfl (by rw [hc]; simp [hand]) (by simp [hand]) rfl
      · simp at he
  | timeout i =>
    simp only [step] at he
    simp only [deliveredBy, List.map_nil, List.append_nil]
    cases hp : s.procs[i]? with
    | none => simp [hp] at he
    | some p =>
      simp only [hp] at he
      split at he
      · rename_i hc
        simp only [Option.some.injEq] at he
        rw [← he]
        exact hand_same (q := { p with mode := .idle }) h hp rfl (by rw [hc]; simp [hand]) (by simp [hand]) rfl
      · simp at he
  | intr i => exact absurd rfl (hn i)
  | kill i =>
    simp only [step] at he
    simp only [deliveredBy, List.map_nil, List.append_nil]
    cases hp : s.procs[i]? with
    | none => simp [hp] at he
    | some p =>
      simp only [hp] at he
      split at he
      · simp at he
      · simp only [Option.some.injEq] at he
        have hps : s'.procs = s.procs.set i { p with mode := .dead, adj := ⟨0, 0⟩ } := by rw [← he]; rfl
        have hrc : s'.rcv = s.rcv := by rw [← he]; rfl
        by_cases hh : hand p.mode
        · have hc := hand_inCS hh
          rcases hand_self hI h hp hc with ⟨_, hr⟩ | ⟨hn', _⟩
          · right
            refine ⟨hand_none hI hp hc hps (by simp [hand]), ?_⟩
            rw [hrc]
            exact hR.drop (hk ⟨i, rfl⟩) _ _ _ hr
          · exact absurd hh hn'
        · exact hand_same h hp hps hh (by simp [hand]) hrc
  | adv i =>
    simp only [step] at he
    simp only [deliveredBy]
    cases hp : s.procs[i]? with
    | none => simp [hp] at he
    | some p =>
      simp only [hp] at he
      dsimp only
      unfold adv at he
      cases hm : p.mode with
      | idle => simp [hm] at he
      | dead => simp [hm] at he
      | u6 =>
        simp only [hm] at he
        obtain ⟨v, a, rfl⟩ := doSem_some he
        have hc : p.mode.inCS = true := by rw [hm]; rfl
        rw [if_pos rfl]
        rcases hand_self hI h hp hc with ⟨_, hr⟩ | ⟨hn', _⟩
        · right
          exact ⟨hand_none hI hp hc rfl (by simp [hand]), hr⟩
        · exact absurd (Or.inr hm) hn'
      | u5 =>
        simp only [hm] at he
        have hc : p.mode.inCS = true := by rw [hm]; rfl
        rw [if_neg (by simp)]
        simp only [List.map_nil, List.append_nil]
        rw [if_neg (by omega)] at he
        simp only [Option.some.injEq] at he
        rw [← he]
        rcases hand_self hI h hp hc with ⟨_, hr⟩ | ⟨hn', _⟩
        · left
          exact ⟨i, { p with mode := .u6 }, hand_set hp rfl, Or.inr rfl, hr⟩
        · exact absurd (Or.inl hm) hn'
      | u3 k =>
        simp only [hm] at he
        have hc : p.mode.inCS = true := by rw [hm]; rfl
        rw [if_neg (by simp)]
        simp only [List.map_nil, List.append_nil]
        split at he
        · simp only [Option.some.injEq] at he
          rw [← he]
          refine hand_same (q := { p with mode := .u3 (k + 1) }) h hp ?_ (by rw [hm]; simp [hand]) (by simp [hand]) ?_
          · show (State.store size bs s _ _).procs.set i _ = _
            rw [store_fields.1]
          · exact store_fields.2.2.1
        · simp only [Option.some.injEq] at he
          rw [← he]
          rcases hand_self hI h hp hc with ⟨hh, _⟩ | ⟨_, hr⟩
          · rw [hm] at hh; simp [hand] at hh
          · left
            exact ⟨i, { p with mode := .u5 }, hand_set hp rfl, Or.inl rfl, hR.snoc _ _ _ hr⟩
      | f2 k =>
        simp only [hm] at he
        rw [if_neg (by simp)]
        simp only [List.map_nil, List.append_nil]
        split at he
        · simp only [Option.some.injEq] at he
          rw [← he]
          refine hand_same (q := { p with mode := .f2 (k + 1) }) h hp ?_ (by rw [hm]; simp [hand]) (by simp [hand]) ?_
          · show (State.store size bs s _ _).procs.set i _ = _
            rw [store_fields.1]
          · exact store_fields.2.2.1
        · simp only [Option.some.injEq] at he
          rw [← he]
          exact hand_same (q := { p with mode := .f4 }) h hp rfl (by rw [hm]; simp [hand]) (by simp [hand]) rfl
      | u2 k =>
        simp only [hm] at he
        rw [if_neg (by simp)]
        simp only [List.map_nil, List.append_nil]
        repeat' split at he
        · simp only [Option.some.injEq] at he
          rw [← he]
          exact hand_same h hp rfl (by rw [hm]; simp [hand]) (by simp [hand]) rfl
        · simp only [Option.some.injEq] at he
          rw [← he]
          rcases h with ⟨j, x, hx, hh⟩ | ⟨ha, hh⟩
          · exact Or.inl ⟨j, x, hx, hh⟩
          · exact Or.inr ⟨ha, hh⟩
        · simp only [Option.some.injEq] at he
          rw [← he]
          exact hand_same (q := { p with mode := .u3 0 }) h hp rfl (by rw [hm]; simp [hand]) (by simp [hand]) rfl
      | f1 =>
        simp only [hm] at he
        rw [if_neg (by simp)]
        simp only [List.map_nil, List.append_nil]
        rw [if_neg (by omega)] at he
        split at he
        · simp only [Option.some.injEq] at he
          rw [← he]
          exact hand_same (q := { p with mode := .f2 0 }) h hp rfl (by rw [hm]; simp [hand]) (by simp [hand]) rfl
        · simp only [Option.some.injEq] at he
          rw [← he]
          exact hand_same (q := { p with mode := .f6 }) h hp rfl (by rw [hm]; simp [hand]) (by simp [hand]) rfl
      | f4 =>
        simp only [hm] at he
        rw [if_neg (by simp)]
        simp only [List.map_nil, List.append_nil]
        rw [if_neg (by omega)] at he
        simp only [Option.some.injEq] at he
        rw [← he]
        exact hand_same (q := { p with mode := .f5 }) h hp rfl (by rw [hm]; simp [hand]) (by simp [hand]) rfl
      | f5 =>
        simp only [hm] at he
        rw [if_neg (by simp)]
        simp only [List.map_nil, List.append_nil]
        split at he
        · simp only [Option.some.injEq] at he
          rw [← he]
          exact hand_same h hp rfl (by rw [hm]; simp [hand]) (by simp [hand]) rfl
        · simp only [Option.some.injEq] at he
          rw [← he]
          exact hand_same (q := { p with mode := .f6 }) h hp rfl (by rw [hm]; simp [hand]) (by simp [hand]) rfl
      | f0 =>
        simp only [hm] at he
        obtain ⟨v, a, rfl⟩ := doSem_some he
        rw [if_neg (by simp)]
        simp only [List.map_nil, List.append_nil]
        exact hand_same h hp rfl (by rw [hm]; simp [hand]) (by simp [hand]) rfl
      | f6 =>
        simp only [hm] at he
        obtain ⟨v, a, rfl⟩ := doSem_some he
        rw [if_neg (by simp)]
        simp only [List.map_nil, List.append_nil]
        exact hand_same h hp rfl (by rw [hm]; simp [hand]) (by simp [hand]) rfl
      | u0 =>
        simp only [hm] at he
        obtain ⟨v, a, rfl⟩ := doSem_some he
        rw [if_neg (by simp)]
        simp only [List.map_nil, List.append_nil]
        exact hand_same h hp rfl (by rw [hm]; simp [hand]) (by simp [hand]) rfl
      | u1 =>
        simp only [hm] at he
        obtain ⟨v, a, rfl⟩ := doSem_some he
        rw [if_neg (by simp)]
        simp only [List.map_nil, List.append_nil]
        exact hand_same h hp rfl (by rw [hm]; simp [hand]) (by simp [hand]) rfl

theorem hand_exec {R} {kills : Prop} (hR : HandRel R kills) (h1 : 1 ≤ size) (hz : size < 2 ^ 32) (hs : size * bs < 2 ^ 32) :
    ∀ (ls : List Label) (s s' : State) (d : List (List UInt8)), Inv size bs s → SafeRun size bs s ls = true →
      ((∃ i, .kill i ∈ ls) → kills) → InHand R s d → exec size bs s ls = some s' →
      InHand R s' (d ++ (delivered size bs s ls).map Prod.snd)
  | [], s, s', d, _, _, _, h, he => by
    simp only [exec, Option.some.injEq] at he
    rw [← he]; simpa [delivered] using h
  | a :: as, s, s', d, hI, hr, hk, h, he => by
    have hr' := hr
    simp only [exec] at he
    simp only [SafeRun, Bool.and_eq_true] at hr
    obtain ⟨hr1, hr2⟩ := hr
    cases hst : step size bs s a with
    | none => rw [hst] at he; simp at he
    | some t =>
      rw [hst] at he hr2
      have hIt : Inv size bs t := by
        refine exec_inv h1 hz hs [a] s t hI ?_ ?_
        · simp only [SafeRun, hst, Bool.and_true]; exact hr1
        · simp only [exec, hst]
      simp only [delivered, hst]
      rw [List.map_append, ← List.append_assoc]
      refine hand_exec hR h1 hz hs as t s' _ hIt hr2 (fun ⟨i, hi⟩ => hk ⟨i, List.mem_cons_of_mem _ hi⟩) ?_ he
      refine hand_step hR hI ?_ ?_ h1 h hst
      · rintro ⟨i, rfl⟩; exact hk ⟨i, List.mem_cons_self⟩
      · rintro i rfl; simp at hr1

end Verif.ShmQueue
