import Verif.QueueRegs.Spec
/-
  C154: the registers of a queue.
-/
set_option linter.unusedSimpArgs false
set_option linter.unusedVariables false

namespace Verif.QueueRegs

open Spec

/-! ## every call is atomic -/

/-- Where a process is, as the specification sees it. -/
def at_ : Option Proc → At
  | none => .out
  | some p =>
    match p.mode with
    | .idle => .out
    | .enter op => .called op
    | .cs op => .called op
    | .leave _ v => .done v
    | .fin v => .done v
    | .dead => .ended

/-- The model's registers are those of the specification. -/
def Same (r : UInt8 → UInt32) (r' : Nat → UInt32) : Prop := ∀ o : UInt8, o.toNat < 12 → r o = r' o.toNat

/-- The registers after the effects in `es`. -/
def after (r : Nat → UInt32) : List Ev → (Nat → UInt32)
  | [] => r
  | .acc _ op _ :: es => after (meaning r op).2 es
  | _ :: es => after r es

theorem sequential_append : ∀ (es : List Ev) (r : Nat → UInt32) (es' : List Ev), sequential r (es ++ es') ↔ sequential r es ∧ sequential (after r es) es'
  | [], r, es' => by simp [sequential, after]
  | e :: es, r, es' => by
    cases e <;> simp [sequential, after, sequential_append es, and_assoc]

theorem nexts_append (i : Nat) : ∀ (es : List Ev) (a : At) (es' : List Ev), nexts i a (es ++ es') = (nexts i a es).bind (fun b => nexts i b es')
  | [], a, es' => rfl
  | e :: es, a, es' => by
    simp only [List.cons_append, nexts]
    cases next i a e with
    | none => rfl
    | some b => exact nexts_append i es b es'

/-- Calls in a section are in range. -/
def Ranged (s : State) : Prop := ∀ p ∈ s.procs, ∀ op, p.mode = .enter op ∨ p.mode = .cs op → inRange op = true

theorem set_self {s : State} {i : Nat} {p q : Proc} (hp : s.procs[i]? = some p) : (s.procs.set i q)[i]? = some q := by
  rw [List.getElem?_set_self']
  simp [hp]

theorem set_other {s : State} {i j : Nat} {q : Proc} (h : i ≠ j) : (s.procs.set i q)[j]? = s.procs[j]? := List.getElem?_set_ne h

theorem ranged_upd {s : State} {i : Nat} {q : Proc} (h : Ranged s) (hq : ∀ op, q.mode = .enter op ∨ q.mode = .cs op → inRange op = true) : ∀ p ∈ s.procs.set i q, ∀ op, p.mode = .enter op ∨ p.mode = .cs op → inRange op = true := by
  intro p hp op ho
  rcases List.mem_or_eq_of_mem_set hp with hp | rfl
  · exact h p hp op ho
  · exact hq op ho

theorem nexts_one (i : Nat) (a : At) (e : Ev) : nexts i a [e] = next i a e := by
  simp only [nexts]
  cases next i a e <;> rfl

theorem atom_step {s s' : State} {a : Label} {es : List Ev} {r : Nat → UInt32} (hS : Same s.regs r) (hR : Ranged s) (e : step s a = some (s', es)) :
    sequential r es ∧ Same s'.regs (after r es) ∧ Ranged s' ∧ ∀ j, nexts j (at_ s.procs[j]?) es = some (at_ s'.procs[j]?) := by
  have other : ∀ {i : Nat} {q : Proc} {j : Nat} (es : List Ev), i ≠ j → (∀ x ∈ es, ∀ a, next j a x = some a) → ∀ a, nexts j a es = some a := by
    intro i q j es hij
    induction es with
    | nil => intro _ a; rfl
    | cons x es ih =>
      intro h a
      simp only [nexts, h x (by simp) a]
      exact ih (fun y hy => h y (by simp [hy])) a
  cases a with
  | call i op =>
    simp only [step] at e
    split at e
    · rename_i p hp
      split at e
      · rename_i hm
        split at e
        · rename_i hr
          cases e
          refine ⟨trivial, hS, ranged_upd hR (fun o ho => ?_), fun j => ?_⟩
          · simp at ho; rw [← ho]; exact hr
          · rw [nexts_one]
            by_cases hij : i = j
            · subst hij
              simp only [State.upd, set_self hp, hp, at_, hm, next, if_true]
            · simp only [State.upd, set_other hij, next, if_neg hij]
        · rename_i hr
          cases e
          have hv : (meaning r op).1 = 0 ∧ (∀ x, (meaning r op).2 x = r x) := by
            cases op with
            | set o v =>
              have hr : ¬ o.toNat < 12 := fun h => hr (decide_eq_true h)
              refine ⟨rfl, fun x => ?_⟩
              simp only [meaning]
              rw [if_neg (by omega)]
            | get o =>
              have hr : ¬ o.toNat < 12 := fun h => hr (decide_eq_true h)
              simp only [meaning]
              refine ⟨by rw [if_neg (by omega)], by simp⟩
            | work => simp [inRange] at hr
          refine ⟨⟨hv.1.symm, trivial⟩, ?_, ranged_upd hR (fun o ho => by simp at ho), fun j => ?_⟩
          · intro o ho
            simp only [after, hv.2]
            exact hS o ho
          · by_cases hij : i = j
            · subst hij
              simp only [State.upd, set_self hp, hp, at_, hm, nexts, next, if_true]
            · simp only [State.upd, set_other hij, nexts, next, if_neg hij]
      · cases e
    · cases e
  | adv i =>
    simp only [step] at e
    split at e
    · rename_i p hp
      unfold adv at e
      split at e
      · cases e
      · cases e
      · rename_i op hm
        split at e
        · cases e
          refine ⟨trivial, hS, ranged_upd hR (fun o ho => ?_), fun j => ?_⟩
          · simp at ho; rw [← ho]; exact hR p (List.mem_of_getElem? hp) op (.inl hm)
          · by_cases hij : i = j
            · subst hij
              simp only [State.upd, set_self hp, hp, at_, hm, nexts]
            · simp only [State.upd, set_other hij, nexts]
        · cases e
      · rename_i op hm
        cases e
        have hr := hR p (List.mem_of_getElem? hp) op (.inr hm)
        have hv : (access s.regs op).1 = (meaning r op).1 ∧ Same (access s.regs op).2 (meaning r op).2 := by
          cases op with
          | set o v =>
            have hr : o.toNat < 12 := of_decide_eq_true hr
            refine ⟨rfl, fun x hx => ?_⟩
            simp only [access, meaning]
            by_cases hxo : x = o
            · rw [if_pos hxo, if_pos ⟨by rw [hxo], hr⟩]
            · rw [if_neg hxo, if_neg (fun h => hxo (UInt8.toNat_inj.mp h.1))]
              exact hS x hx
          | get o =>
            have hr : o.toNat < 12 := of_decide_eq_true hr
            refine ⟨?_, hS⟩
            simp only [access, meaning]
            rw [if_pos hr]
            exact hS o hr
          | work => exact ⟨rfl, hS⟩
        refine ⟨⟨hv.1, trivial⟩, hv.2, ranged_upd hR (fun o ho => by simp at ho), fun j => ?_⟩
        rw [nexts_one]
        by_cases hij : i = j
        · subst hij
          simp only [State.upd, set_self hp, hp, at_, hm, next, if_true]
        · simp only [State.upd, set_other hij, next, if_neg hij]
      · rename_i op v hm
        split at e
        all_goals
          cases e
          refine ⟨trivial, hS, ranged_upd hR (fun o ho => by simp at ho), fun j => ?_⟩
          by_cases hij : i = j
          · subst hij
            simp only [State.upd, set_self hp, hp, at_, hm, nexts]
          · simp only [State.upd, set_other hij, nexts]
      · rename_i v hm
        cases e
        refine ⟨trivial, hS, ranged_upd hR (fun o ho => by simp at ho), fun j => ?_⟩
        rw [nexts_one]
        by_cases hij : i = j
        · subst hij
          simp only [State.upd, set_self hp, hp, at_, hm, next, if_true]
        · simp only [State.upd, set_other hij, next, if_neg hij]
    · cases e
  | intr i =>
    simp only [step] at e
    split at e
    · rename_i p hp
      split at e
      · rename_i op hm
        split at e
        · cases e
          refine ⟨trivial, hS, ranged_upd hR (fun o ho => ?_), fun j => ?_⟩
          · simp at ho; rw [← ho]; exact hR p (List.mem_of_getElem? hp) op (.inl hm)
          · by_cases hij : i = j
            · subst hij
              simp only [State.upd, set_self hp, hp, at_, hm, nexts]
            · simp only [State.upd, set_other hij, nexts]
        · cases e
      · cases e
    · cases e
  | kill i =>
    simp only [step] at e
    split at e
    · rename_i p hp
      split at e
      · cases e
      · rename_i hm
        cases e
        refine ⟨trivial, hS, ranged_upd hR (fun o ho => by simp at ho), fun j => ?_⟩
        rw [nexts_one]
        by_cases hij : i = j
        · subst hij
          simp only [State.upd, set_self hp, hp, next, if_true]
          unfold at_
          cases hmm : p.mode <;> simp_all
        · simp only [State.upd, set_other hij, next, if_neg hij]
    · cases e

theorem atom_exec : ∀ (as : List Label) (s s' : State) (es : List Ev) (r : Nat → UInt32), Same s.regs r → Ranged s → exec s as = some (s', es) →
    sequential r es ∧ Same s'.regs (after r es) ∧ ∀ j, nexts j (at_ s.procs[j]?) es = some (at_ s'.procs[j]?)
  | [], s, s', es, r, hS, _, e => by
    simp only [exec, Option.some.injEq, Prod.mk.injEq] at e
    obtain ⟨rfl, rfl⟩ := e
    exact ⟨trivial, hS, fun j => rfl⟩
  | a :: as, s, s', es, r, hS, hR, e => by
    simp only [exec] at e
    split at e
    · rename_i t es1 h1
      split at e
      · rename_i u es2 h2
        cases e
        obtain ⟨a1, a2, a3, a4⟩ := atom_step hS hR h1
        obtain ⟨b1, b2, b3⟩ := atom_exec as t s' es2 _ a2 a3 h2
        have haf : ∀ (es : List Ev) (r : Nat → UInt32) (es' : List Ev), after r (es ++ es') = after (after r es) es' := by
          intro es
          induction es with
          | nil => intro r es'; rfl
          | cons x es ih => intro r es'; cases x <;> simp [after, ih]
        refine ⟨(sequential_append _ _ _).mpr ⟨a1, b1⟩, by rw [haf]; exact b2, fun j => ?_⟩
        rw [nexts_append, a4 j]
        exact b3 j
      · cases e
    · cases e

theorem init_at (n j : Nat) : at_ (init n).procs[j]? = .out := by
  simp only [init, List.getElem?_replicate]
  by_cases h : j < n
  · rw [if_pos h]; rfl
  · rw [if_neg h]; rfl

theorem init_ranged (n : Nat) : Ranged (init n) := by
  intro p hp op ho
  rw [init, List.mem_replicate] at hp
  rw [hp.2] at ho
  simp at ho

/-- **C154.** Any number of processes, any schedule of their calls, kills at any point and interrupted semop calls: what can be seen can be explained by calls that take effect one after the other, each at one moment
between its call and its return; a set that was killed may have had its effect or not. -/
theorem C154_atomic (n : Nat) (as : List Label) (s : State) (es : List Ev) (he : exec (init n) as = some (s, es)) : atomic (es.filter visible) := by
  obtain ⟨h1, _, h3⟩ := atom_exec as (init n) s es (fun _ => 0) (fun _ _ => rfl) (init_ranged n) he
  refine ⟨es, rfl, h1, fun i => ?_⟩
  have := h3 i
  rw [init_at] at this
  rw [this]
  rfl

/-! ## calls end -/

def Mode.inCS : Mode → Bool
  | .cs _ | .leave _ _ => true
  | _ => false

/-- The sum of the adjustments, and the number of processes in a section. -/
def adjs : List Proc → Int
  | [] => 0
  | p :: ps => p.adj + adjs ps

def inside : List Proc → Int
  | [] => 0
  | p :: ps => (if p.mode.inCS then 1 else 0) + inside ps

theorem adjs_set {q p : Proc} : ∀ {ps : List Proc} {i : Nat}, ps[i]? = some p → adjs (ps.set i q) = adjs ps - p.adj + q.adj
  | [], _, h => by simp at h
  | x :: ps, 0, h => by simp at h; subst h; simp [adjs]; omega
  | x :: ps, i + 1, h => by simp at h; simp [adjs, adjs_set h]; omega

theorem inside_set {q p : Proc} : ∀ {ps : List Proc} {i : Nat}, ps[i]? = some p → inside (ps.set i q) = inside ps - (if p.mode.inCS then 1 else 0) + (if q.mode.inCS then 1 else 0)
  | [], _, h => by simp at h
  | x :: ps, 0, h => by simp at h; subst h; simp [inside]; omega
  | x :: ps, i + 1, h => by simp at h; simp [inside, inside_set h]; omega

theorem inside_le : ∀ ps : List Proc, inside ps ≤ ps.length
  | [] => by simp [inside]
  | p :: ps => by
    have := inside_le ps
    simp only [inside, List.length_cons]
    split <;> omega

theorem inside_nonneg : ∀ ps : List Proc, 0 ≤ inside ps
  | [] => by simp [inside]
  | p :: ps => by
    have := inside_nonneg ps
    simp only [inside]
    split <;> omega

structure Inv (s : State) : Prop where
  low : 0 ≤ s.sem
  bal : 1 ≤ s.sem + adjs s.procs
  one : ∀ p ∈ s.procs, p.adj ≤ if p.own && p.mode.inCS then 1 else 0
  top : s.sem + inside s.procs ≤ s.procs.length + 1

theorem one_upd {s : State} {i : Nat} {q : Proc} (h : ∀ p ∈ s.procs, p.adj ≤ if p.own && p.mode.inCS then 1 else 0) (hq : q.adj ≤ if q.own && q.mode.inCS then 1 else 0) :
    ∀ p ∈ s.procs.set i q, p.adj ≤ if p.own && p.mode.inCS then 1 else 0 := by
  intro p hp
  rcases List.mem_or_eq_of_mem_set hp with hp | rfl
  · exact h p hp
  · exact hq

theorem inv_step {s s' : State} {a : Label} {es : List Ev} (hn : s.procs.length < 32766) (h : Inv s) (e : step s a = some (s', es)) : Inv s' ∧ s'.procs.length = s.procs.length := by
  obtain ⟨h1, h2, h3, h4⟩ := h
  cases a with
  | call i op =>
    simp only [step] at e
    split at e
    · rename_i p hp
      have hpa := h3 p (List.mem_of_getElem? hp)
      split at e
      · rename_i hm
        simp [hm, Mode.inCS] at hpa
        split at e
        all_goals
          cases e
          refine ⟨⟨h1, ?_, one_upd h3 (by simpa [Mode.inCS] using hpa), ?_⟩, by simp [State.upd]⟩
          · simp only [State.upd]; rw [adjs_set hp]; simp only; omega
          · simp only [State.upd]; rw [inside_set hp]; simp only [hm, Mode.inCS, List.length_set]; simp; omega
      · cases e
    · cases e
  | adv i =>
    simp only [step] at e
    split at e
    · rename_i p hp
      have hpa := h3 p (List.mem_of_getElem? hp)
      unfold adv at e
      split at e
      · cases e
      · cases e
      · rename_i op hm
        simp [hm, Mode.inCS] at hpa
        split at e
        · cases e
          refine ⟨⟨by simp only [State.upd]; omega, ?_, one_upd h3 (by simp [Mode.inCS]; omega), ?_⟩, by simp [State.upd]⟩
          · simp only [State.upd]; rw [adjs_set hp]; simp only; omega
          · simp only [State.upd]; rw [inside_set hp]; simp only [hm, Mode.inCS, List.length_set]; simp; omega
        · cases e
      · rename_i op hm
        cases e
        refine ⟨⟨h1, ?_, one_upd h3 (by simpa [Mode.inCS, hm] using hpa), ?_⟩, by simp [State.upd]⟩
        · simp only [State.upd]; rw [adjs_set hp]; simp only; omega
        · simp only [State.upd]; rw [inside_set hp]; simp only [hm, Mode.inCS, List.length_set]; simp; omega
      · rename_i op v hm
        have hin := inside_set (q := ⟨.fin v, p.adj - 1, false⟩) hp
        simp only [hm, Mode.inCS] at hin
        have hnn := inside_nonneg (s.procs.set i ⟨.fin v, p.adj - 1, false⟩)
        simp at hin
        split at e
        · cases e
          refine ⟨⟨by simp only [State.upd]; omega, ?_, one_upd h3 ?_, ?_⟩, by simp [State.upd]⟩
          · simp only [State.upd]; rw [adjs_set hp]; simp only; omega
          · simp [Mode.inCS]; simp [hm, Mode.inCS] at hpa; split at hpa <;> omega
          · simp only [State.upd]; rw [inside_set hp]; simp only [hm, Mode.inCS, List.length_set]; simp; omega
        · omega
      · rename_i v hm
        simp [hm, Mode.inCS] at hpa
        cases e
        refine ⟨⟨h1, ?_, one_upd h3 (by simpa [Mode.inCS] using hpa), ?_⟩, by simp [State.upd]⟩
        · simp only [State.upd]; rw [adjs_set hp]; simp only; omega
        · simp only [State.upd]; rw [inside_set hp]; simp only [hm, Mode.inCS, List.length_set]; simp; omega
    · cases e
  | intr i =>
    simp only [step] at e
    split at e
    · rename_i p hp
      have hpa := h3 p (List.mem_of_getElem? hp)
      split at e
      · rename_i op hm
        simp [hm, Mode.inCS] at hpa
        split at e
        · cases e
          refine ⟨⟨h1, ?_, one_upd h3 (by simpa [Mode.inCS] using hpa), ?_⟩, by simp [State.upd]⟩
          · simp only [State.upd]; rw [adjs_set hp]; simp only; omega
          · have := inside_le (s.procs.set i { p with mode := .cs op, own := false })
            simp only [State.upd, List.length_set] at this ⊢
            omega
        · cases e
      · cases e
    · cases e
  | kill i =>
    simp only [step] at e
    split at e
    · rename_i p hp
      have hpa := h3 p (List.mem_of_getElem? hp)
      split at e
      · cases e
      · rename_i hm
        cases e
        have hin := inside_set (q := ⟨.dead, 0, false⟩) hp
        have had := adjs_set (q := ⟨.dead, 0, false⟩) hp
        have hnn := inside_nonneg (s.procs.set i ⟨.dead, 0, false⟩)
        simp only at had
        simp only [show Mode.dead.inCS = false from rfl, Bool.false_eq_true, if_false] at hin
        have hcs : p.adj ≤ if p.mode.inCS then 1 else 0 := by
          refine Int.le_trans hpa ?_
          cases p.own <;> cases p.mode.inCS <;> simp
        have htop : s.sem + p.adj + inside (s.procs.set i ⟨.dead, 0, false⟩) ≤ s.procs.length + 1 := by
          rw [hin]
          split at hcs <;> simp_all <;> omega
        refine ⟨⟨by simp only [State.upd]; omega, ?_, one_upd h3 (by simp [Mode.inCS]), ?_⟩, by simp [State.upd]⟩
        · simp only [State.upd]; rw [had]; omega
        · have := inside_le (s.procs.set i ⟨.dead, 0, false⟩)
          simp only [State.upd, List.length_set] at this ⊢
          omega
    · cases e

theorem inv_init (n : Nat) : Inv (init n) := by
  have ha : ∀ n, adjs (List.replicate n ⟨.idle, 0, false⟩) = 0 := by
    intro n; induction n with
    | zero => rfl
    | succ n ih => simp [List.replicate_succ, adjs, ih]
  have hi : ∀ n, inside (List.replicate n ⟨.idle, 0, false⟩) = 0 := by
    intro n; induction n with
    | zero => rfl
    | succ n ih => simp [List.replicate_succ, inside, ih, Mode.inCS]
  refine ⟨by simp [init], by simp [init, ha], ?_, by simp only [init, hi, List.length_replicate]; omega⟩
  intro p hp
  rw [init, List.mem_replicate] at hp
  rw [hp.2]
  simp

theorem inv_exec : ∀ (as : List Label) (s s' : State) (es : List Ev), s.procs.length < 32766 → Inv s → exec s as = some (s', es) → Inv s' ∧ s'.procs.length = s.procs.length
  | [], s, s', es, _, h, e => by
    simp only [exec, Option.some.injEq, Prod.mk.injEq] at e
    rw [← e.1]
    exact ⟨h, rfl⟩
  | a :: as, s, s', es, hn, h, e => by
    simp only [exec] at e
    split at e
    · rename_i t es1 h1
      split at e
      · rename_i u es2 h2
        cases e
        obtain ⟨a1, a2⟩ := inv_step hn h h1
        obtain ⟨b1, b2⟩ := inv_exec as t s' es2 (by omega) a1 h2
        exact ⟨b1, by omega⟩
      · cases e
    · cases e

theorem adjs_pos : ∀ {ps : List Proc}, 1 ≤ adjs ps → ∃ p ∈ ps, 1 ≤ p.adj
  | [], h => by simp [adjs] at h
  | p :: ps, h => by
    by_cases hp : 1 ≤ p.adj
    · exact ⟨p, by simp, hp⟩
    · obtain ⟨q, hq, hh⟩ := adjs_pos (ps := ps) (by simp only [adjs] at h; omega)
      exact ⟨q, by simp [hq], hh⟩

/-- **C154, no deadlock.** With fewer than 32766 processes, after any schedule, any kills and any interrupted calls: if a process is in a call, some process can go on (no call is blocked by a process that was killed,
or that is not in a call). -/
theorem C154_no_deadlock (n : Nat) (hn : n < 32766) (as : List Label) (s : State) (es : List Ev) (he : exec (init n) as = some (s, es)) (i : Nat) (p : Proc) (hp : s.procs[i]? = some p)
    (hm : p.mode ≠ .idle ∧ p.mode ≠ .dead) : ∃ j q, s.procs[j]? = some q ∧ q.mode ≠ .idle ∧ q.mode ≠ .dead ∧ (step s (.adv j)).isSome = true := by
  obtain ⟨hI, _⟩ := inv_exec as (init n) s es (by simpa [init] using hn) (inv_init n) he
  have go : ∀ j q, s.procs[j]? = some q → (q.mode.inCS = true ∨ (∃ v, q.mode = .fin v)) → (step s (.adv j)).isSome = true := by
    intro j q hq hc
    simp only [step, hq]
    unfold adv
    rcases hc with hc | ⟨v, hv⟩
    · cases hmm : q.mode with
      | cs op => rfl
      | leave op v => simp only; split <;> rfl
      | _ => rw [hmm] at hc; simp [Mode.inCS] at hc
    · rw [hv]; rfl
  by_cases hs : 1 ≤ s.sem
  · refine ⟨i, p, hp, hm.1, hm.2, ?_⟩
    cases hmm : p.mode with
    | idle => exact absurd hmm hm.1
    | dead => exact absurd hmm hm.2
    | enter op => simp only [step, hp]; unfold adv; simp only [hmm]; rw [if_pos hs]; rfl
    | cs op => exact go i p hp (.inl (by rw [hmm]; rfl))
    | leave op v => exact go i p hp (.inl (by rw [hmm]; rfl))
    | fin v => exact go i p hp (.inr ⟨v, hmm⟩)
  · have h0 := hI.low
    have hb := hI.bal
    obtain ⟨q, hq, h1⟩ := adjs_pos (ps := s.procs) (by omega)
    have hqa := hI.one q hq
    obtain ⟨j, hj⟩ := List.mem_iff_getElem?.mp hq
    have hc : q.mode.inCS = true := by
      cases hcc : q.mode.inCS with
      | true => rfl
      | false => rw [hcc] at hqa; simp at hqa; omega
    refine ⟨j, q, hj, ?_, ?_, go j q hj (.inl hc)⟩
    · intro h; rw [h] at hc; simp [Mode.inCS] at hc
    · intro h; rw [h] at hc; simp [Mode.inCS] at hc

/-- How many steps of its own a process needs to the end of its call. -/
def left : Mode → Nat
  | .enter _ => 4
  | .cs _ => 3
  | .leave _ _ => 2
  | .fin _ => 1
  | _ => 0

/-- **C154, calls end.** A call takes at most four steps of its process: each step brings it nearer to its end. -/
theorem C154_ends {s s' : State} {i : Nat} {p : Proc} {es : List Ev} (hp : s.procs[i]? = some p) (e : step s (.adv i) = some (s', es)) :
    ∃ q, s'.procs[i]? = some q ∧ left q.mode + 1 = left p.mode := by
  simp only [step, hp] at e
  unfold adv at e
  split at e
  · cases e
  · cases e
  · rename_i op hm
    split at e
    · cases e; exact ⟨_, set_self hp, by rw [hm]; rfl⟩
    · cases e
  · rename_i op hm
    cases e; exact ⟨_, set_self hp, by rw [hm]; rfl⟩
  · rename_i op v hm
    split at e <;> (cases e; exact ⟨_, set_self hp, by rw [hm]; rfl⟩)
  · rename_i v hm
    cases e; exact ⟨_, set_self hp, by rw [hm]; rfl⟩

/-! ## examples -/

/-- Process 0 is killed inside of its section, after its set; process 1, interrupted, gets its value; process 2 sets a register that is not there. -/
def run1 : List Label :=
  [.call 0 (.set 3 7), .adv 0, .call 1 (.get 3), .adv 0, .intr 1, .adv 1, .kill 0, .adv 1, .adv 1, .call 2 (.set 12 9), .adv 2, .call 2 (.get 12), .adv 2, .call 2 (.get 3), .adv 2, .adv 2, .adv 2, .adv 2]

example : (exec (init 3) run1).map (fun r => r.2.filter visible) =
    some [.call 0 (.set 3 7), .call 1 (.get 3), .kill 0, .ret 1 7, .call 2 (.set 12 9), .ret 2 0, .call 2 (.get 12), .ret 2 0, .call 2 (.get 3), .ret 2 7] := by decide +kernel
example : (exec (init 3) run1).map (fun r => r.1.sem) = some 2 := by decide +kernel

/-! What the specification excludes: a get that returns something else than the last value set. -/

theorem accs_out {A B : List Ev} (hA : ∀ e ∈ A, visible e = false) (h : ∀ j, (nexts j .out (A ++ B)).isSome = true) : A = [] := by
  cases A with
  | nil => rfl
  | cons e A =>
    have hv := hA e (by simp)
    cases e with
    | acc j op v => have := h j; simp [nexts, next] at this
    | _ => simp [visible] at hv

theorem accs_done {A B : List Ev} {i : Nat} {v : UInt32} (hA : ∀ e ∈ A, visible e = false) (hi : (nexts i (.done v) (A ++ B)).isSome = true) (h : ∀ j, j ≠ i → (nexts j .out (A ++ B)).isSome = true) : A = [] := by
  cases A with
  | nil => rfl
  | cons e A =>
    have hv := hA e (by simp)
    cases e with
    | acc j op v =>
      by_cases hj : j = i
      · subst hj; simp [nexts, next] at hi
      · have := h j hj; simp [nexts, next] at this
    | _ => simp [visible] at hv

theorem accs_called {A B : List Ev} {i : Nat} {op : Op} {v : UInt32} (hA : ∀ e ∈ A, visible e = false) (hi : (nexts i (.called op) (A ++ .ret i v :: B)).isSome = true)
    (h : ∀ j, j ≠ i → (nexts j .out (A ++ .ret i v :: B)).isSome = true) : A = [.acc i op v] ∧ ∀ j, (nexts j .out B).isSome = true := by
  cases A with
  | nil => simp [nexts, next] at hi
  | cons e A =>
    have hv := hA e (by simp)
    cases e with
    | acc j op' v' =>
      by_cases hj : j = i
      · subst hj
        by_cases ho : op' = op
        · subst ho
          simp only [List.cons_append, nexts, next, if_true] at hi
          have hn : ∀ k, k ≠ j → (nexts k .out (A ++ .ret j v :: B)).isSome = true := by
            intro k hk
            have := h k hk
            simp only [List.cons_append, nexts, next, if_neg (Ne.symm hk)] at this
            exact this
          have hA' := accs_done (fun e he => hA e (by simp [he])) hi hn
          subst hA'
          simp only [List.nil_append, nexts, next, if_true] at hi hn
          by_cases hvv : v = v'
          · subst hvv
            refine ⟨rfl, fun k => ?_⟩
            by_cases hk : k = j
            · subst hk; simpa using hi
            · have := hn k hk
              simpa [Ne.symm hk] using this
          · simp [hvv] at hi
        · simp [nexts, next, ho] at hi
      · have := h j hj; simp [nexts, next] at this
    | _ => simp [visible] at hv

example : ¬ atomic [.call 0 (.set 3 7), .ret 0 0, .call 1 (.get 3), .ret 1 0] := by
  rintro ⟨es, h1, h2, h3⟩
  obtain ⟨A0, R0, rfl, hA0, _, e0⟩ := List.filter_eq_cons_iff.mp h1
  have hA0' : A0 = [] := accs_out (fun e he => by simpa using hA0 e he) h3
  subst hA0'
  obtain ⟨A1, R1, rfl, hA1, _, e1⟩ := List.filter_eq_cons_iff.mp e0
  obtain ⟨hA1', h4⟩ := accs_called (i := 0) (op := .set 3 7) (v := 0) (A := A1) (B := R1) (fun e he => by simpa using hA1 e he) (by simpa [nexts, next] using h3 0)
    (fun j hj => by simpa [nexts, next, Ne.symm hj] using h3 j)
  subst hA1'
  obtain ⟨A2, R2, rfl, hA2, _, e2⟩ := List.filter_eq_cons_iff.mp e1
  have hA2' : A2 = [] := accs_out (fun e he => by simpa using hA2 e he) h4
  subst hA2'
  obtain ⟨A3, R3, rfl, hA3, _, e3⟩ := List.filter_eq_cons_iff.mp e2
  obtain ⟨hA3', h5⟩ := accs_called (i := 1) (op := .get 3) (v := 0) (A := A3) (B := R3) (fun e he => by simpa using hA3 e he) (by simpa [nexts, next] using h4 1)
    (fun j hj => by simpa [nexts, next, Ne.symm hj] using h4 j)
  subst hA3'
  simp [sequential, meaning] at h2

/-- **A counter in a register loses counts**: two processes get the register, add one and set it: both have finished, and the register is 1. -/
theorem C154_no_counter : ∃ s es, exec (init 2) ([.call 0 (.get 0), .adv 0, .adv 0, .adv 0, .adv 0, .call 1 (.get 0), .adv 1, .adv 1, .adv 1, .adv 1, .call 0 (.set 0 1), .adv 0, .adv 0, .adv 0, .adv 0,
    .call 1 (.set 0 1), .adv 1, .adv 1, .adv 1, .adv 1]) = some (s, es) ∧ es.filter visible = [.call 0 (.get 0), .ret 0 0, .call 1 (.get 0), .ret 1 0, .call 0 (.set 0 1), .ret 0 0, .call 1 (.set 0 1), .ret 1 0] ∧
      s.regs 0 = 1 := ⟨_, _, rfl, by decide +kernel⟩

end Verif.QueueRegs
