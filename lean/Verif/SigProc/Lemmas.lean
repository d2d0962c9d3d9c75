import Verif.SigProc.Model
import Verif.SigProc.Spec
import Mathlib.Data.List.Induction

namespace Verif.SigProc

open Daemon

/-! ### the handler -/

theorem lookup_sigs (n : Nat) (h : Hand) (hh : h ≠ .ignoremsg) : sigList.lookup n = some h ↔ n ∈ Spec.sigsOf h := by
  by_cases hn : n < 32
  · have k1 : ∀ n, n < 32 → (sigList.lookup n = some .terminate ↔ n ∈ Spec.terminate) := by decide
    have k2 : ∀ n, n < 32 → (sigList.lookup n = some .changecfg ↔ n ∈ Spec.changecfg) := by decide
    have k3 : ∀ n, n < 32 → (sigList.lookup n = some .rotatelog ↔ n ∈ Spec.rotatelog) := by decide
    have k4 : ∀ n, n < 32 → (sigList.lookup n = some .changebin ↔ n ∈ Spec.changebin) := by decide
    cases h
    · exact k1 n hn
    · exact k2 n hn
    · exact k3 n hn
    · exact k4 n hn
    · exact absurd rfl hh
  · have h1 : sigList.lookup n = none := by
      rw [List.lookup_eq_none_iff]
      have : ∀ p ∈ sigList, p.1 < 32 := by decide
      intro p hp
      have := this p hp
      have hne : n ≠ p.1 := by omega
      simpa using hne
    have h2 : n ∉ Spec.sigsOf h := by
      intro hm
      have : ∀ m ∈ Spec.sigsOf h, m < 32 := by cases h <;> decide
      exact hn (this n hm)
    rw [h1]
    simp [h2]

theorem handle_flag (f : Flags) (n : Nat) (h : Hand) : Spec.flagOf (coda_signal_handle f n) h = (Spec.flagOf f h || decide (n ∈ Spec.sigsOf h)) := by
  by_cases hh : h = .ignoremsg
  · subst hh; simp [Spec.flagOf, Spec.sigsOf]
  · have := lookup_sigs n h hh
    unfold coda_signal_handle
    cases hl : sigList.lookup n with
    | none => rw [hl] at this; simp only [reduceCtorEq, false_iff] at this; simp [this]
    | some g =>
      rw [hl] at this
      by_cases hg : g = h
      · subst hg
        have hm := this.mp rfl
        cases g <;> simp_all [setFlag, Spec.flagOf]
      · have hm : n ∉ Spec.sigsOf h := fun hm => hg (by have := this.mpr hm; injection this)
        simp only [hm, decide_false, Bool.or_false]
        cases g <;> cases h <;> first | rfl | exact absurd rfl hg

theorem clear_flag (f : Flags) (g h : Hand) (hg : g ≠ h) : Spec.flagOf (clearFlag f g) h = Spec.flagOf f h := by
  cases g <;> cases h <;> first | rfl | exact absurd rfl hg

theorem clear_flag_le (f : Flags) (g h : Hand) (hf : Spec.flagOf (clearFlag f g) h = true) : Spec.flagOf f h = true := by
  cases g <;> cases h <;> first | exact hf | (simp [clearFlag, Spec.flagOf] at hf)

theorem handled_iff (n : Nat) : Spec.handled n ↔ ∃ x ∈ sigList, x.1 = n := by
  constructor
  · intro h
    have : ∀ m ∈ Spec.terminate ++ Spec.changecfg ++ Spec.rotatelog ++ Spec.changebin ++ Spec.quiet, ∃ x ∈ sigList, x.1 = m := by decide
    refine this n ?_
    simp only [List.mem_append]
    rcases h with h | h | h | h | h <;> simp [h]
  · rintro ⟨x, hx, rfl⟩
    have : ∀ x ∈ sigList, x.1 ∈ Spec.terminate ∨ x.1 ∈ Spec.changecfg ∨ x.1 ∈ Spec.rotatelog ∨ x.1 ∈ Spec.changebin ∨ x.1 ∈ Spec.quiet := by decide
    exact this x hx

theorem sigsOf_handled {h : Hand} {n : Nat} (hn : n ∈ Spec.sigsOf h) : Spec.handled n := by
  cases h
  · exact Or.inl hn
  · exact Or.inr (Or.inl hn)
  · exact Or.inr (Or.inr (Or.inl hn))
  · exact Or.inr (Or.inr (Or.inr (Or.inl hn)))
  · exact absurd hn (by simp [Spec.sigsOf])

/-! ### installation -/

theorem foldl_bsd (l : List (Nat × Hand)) (a : Nat → Act) (n : Nat) :
    ((∃ x ∈ l, x.1 = n) → l.foldl (fun a x => bsdSignal a x.1) a n = ⟨.coda, true, false, false, fun j => j == n⟩) ∧
    ((¬ ∃ x ∈ l, x.1 = n) → l.foldl (fun a x => bsdSignal a x.1) a n = a n) := by
  induction l using List.reverseRecOn with
  | nil => simp
  | append_singleton l x ih =>
    rw [List.foldl_append]
    simp only [List.foldl_cons, List.foldl_nil, bsdSignal]
    by_cases hx : n = x.1
    · subst hx
      simp
    · rw [if_neg hx]
      have : (∃ y ∈ l ++ [x], y.1 = n) ↔ ∃ y ∈ l, y.1 = n := by
        constructor
        · rintro ⟨y, hy, rfl⟩
          rcases List.mem_append.mp hy with h | h
          · exact ⟨y, h, rfl⟩
          · rw [List.mem_singleton] at h; subst h; exact absurd rfl hx
        · rintro ⟨y, hy, rfl⟩; exact ⟨y, by simp [hy], rfl⟩
      rw [this]
      exact ih

theorem foldl_noRestart (l : List (Nat × Hand)) (a : Nat → Act) (n : Nat) :
    ((∃ x ∈ l, x.1 = n) → l.foldl (fun a x => noRestart a x.1) a n = { a n with hand := .coda, restart := false }) ∧
    ((¬ ∃ x ∈ l, x.1 = n) → l.foldl (fun a x => noRestart a x.1) a n = a n) := by
  induction l using List.reverseRecOn with
  | nil => simp
  | append_singleton l x ih =>
    rw [List.foldl_append]
    simp only [List.foldl_cons, List.foldl_nil, noRestart]
    by_cases hx : n = x.1
    · subst hx
      simp only [if_true]
      refine ⟨fun _ => ?_, fun h => absurd ⟨x, by simp, rfl⟩ h⟩
      by_cases he : ∃ y ∈ l, y.1 = x.1
      · rw [ih.1 he]
      · rw [ih.2 he]
    · rw [if_neg hx]
      have : (∃ y ∈ l ++ [x], y.1 = n) ↔ ∃ y ∈ l, y.1 = n := by
        constructor
        · rintro ⟨y, hy, rfl⟩
          rcases List.mem_append.mp hy with h | h
          · exact ⟨y, h, rfl⟩
          · rw [List.mem_singleton] at h; subst h; exact absurd rfl hx
        · rintro ⟨y, hy, rfl⟩; exact ⟨y, by simp [hy], rfl⟩
      rw [this]
      exact ih

/-- The handler is installed for good. -/
def Inst (s : St) : Prop := ∀ n, Spec.handled n → (s.act n).hand = .coda ∧ (s.act n).reset = false

theorem inst_init (act : Nat → Act) (mask : Nat → Bool) : Inst (coda_signal_init (fresh act mask)) := by
  intro n hn
  rw [handled_iff] at hn
  simp only [coda_signal_init, fresh]
  rw [(foldl_bsd sigList act n).1 hn]
  exact ⟨rfl, rfl⟩

theorem inst_norestart (act : Nat → Act) (mask : Nat → Bool) (hr : ∀ n, Spec.handled n → (act n).reset = false) :
    Inst (coda_signal_init_norestart (fresh act mask)) := by
  intro n hn
  have := hr n hn
  rw [handled_iff] at hn
  simp only [coda_signal_init_norestart, fresh]
  rw [(foldl_noRestart sigList act n).1 hn]
  exact ⟨rfl, this⟩

/-! ### one step -/

/-- All that a step can be. -/
theorem step_cases {s t : St} {e : Ev} (h : step s e = some t) : s.gone = false ∧
    ((∃ n, e = .raise n ∧ t = { s with pend := fun k => if k = n then true else s.pend k }) ∨
     (∃ n, e = .deliver n ∧ s.pend n = true ∧ s.mask n = false ∧ t = deliverTo s n) ∨
     (∃ f fs, e = .body ∧ s.frames = f :: fs ∧ f.done = false ∧ t = { s with flags := coda_signal_handle s.flags f.sig, frames := { f with done := true } :: fs }) ∨
     (∃ f fs, e = .ret ∧ s.frames = f :: fs ∧ f.done = true ∧ t = { s with frames := fs, mask := f.saved }) ∨
     (∃ how m, e = .sigmask how m ∧ s.frames = [] ∧ s.pc ≠ .call ∧ t = (coda_signal_mask s how m).2) ∨
     (∃ g, e = .clear g ∧ s.frames = [] ∧ s.pc ≠ .call ∧ t = { s with flags := clearFlag s.flags g }) ∨
     (e = .test ∧ s.frames = [] ∧ s.pc = .check ∧ t = { s with pc := if s.flags.terminate then .out else .enter }) ∨
     (e = .begin ∧ s.frames = [] ∧ s.pc = .enter ∧ t = { s with pc := .call, eintr := false }) ∨
     (e = .finish ∧ s.frames = [] ∧ s.pc = .call ∧ s.eintr = false ∧ t = { s with pc := .check }) ∨
     (e = .intr ∧ s.frames = [] ∧ s.pc = .call ∧ s.eintr = true ∧ t = { s with pc := .check })) := by
  unfold step at h
  by_cases hg : s.gone = true
  · rw [hg] at h; simp at h
  · rw [if_neg hg] at h
    refine ⟨by simpa using hg, ?_⟩
    cases e with
    | raise n => injection h with h; exact Or.inl ⟨n, rfl, h.symm⟩
    | deliver n =>
      simp at h
      exact Or.inr (Or.inl ⟨n, rfl, h.1.1, h.1.2, h.2.symm⟩)
    | body =>
      simp only [userStep] at h
      rcases hf : s.frames with _ | ⟨f, fs⟩
      · rw [hf] at h; simp at h
      · rw [hf] at h
        simp at h
        rw [← hf]
        exact Or.inr (Or.inr (Or.inl ⟨f, fs, rfl, hf, h.1, h.2.symm⟩))
    | ret =>
      simp only [userStep] at h
      rcases hf : s.frames with _ | ⟨f, fs⟩
      · rw [hf] at h; simp at h
      · rw [hf] at h
        simp at h
        rw [← hf]
        exact Or.inr (Or.inr (Or.inr (Or.inl ⟨f, fs, rfl, hf, h.1, h.2.symm⟩)))
    | sigmask how m =>
      simp [userStep] at h
      exact Or.inr (Or.inr (Or.inr (Or.inr (Or.inl ⟨how, m, rfl, h.1.1, h.1.2, h.2.symm⟩))))
    | clear g =>
      simp [userStep] at h
      exact Or.inr (Or.inr (Or.inr (Or.inr (Or.inr (Or.inl ⟨g, rfl, h.1.1, h.1.2, h.2.symm⟩)))))
    | test =>
      simp [userStep] at h
      exact Or.inr (Or.inr (Or.inr (Or.inr (Or.inr (Or.inr (Or.inl ⟨rfl, h.1.1, h.1.2, h.2.symm⟩))))))
    | begin =>
      simp [userStep] at h
      exact Or.inr (Or.inr (Or.inr (Or.inr (Or.inr (Or.inr (Or.inr (Or.inl ⟨rfl, h.1.1, h.1.2, h.2.symm⟩)))))))
    | finish =>
      simp [userStep] at h
      exact Or.inr (Or.inr (Or.inr (Or.inr (Or.inr (Or.inr (Or.inr (Or.inr (Or.inl ⟨rfl, h.1.1.1, h.1.1.2, h.1.2, h.2.symm⟩))))))))
    | intr =>
      simp [userStep] at h
      exact Or.inr (Or.inr (Or.inr (Or.inr (Or.inr (Or.inr (Or.inr (Or.inr (Or.inr ⟨rfl, h.1.1.1, h.1.1.2, h.1.2, h.2.symm⟩))))))))

theorem sigmask_act (s : St) (how : Int) (m : UInt32) :
    (coda_signal_mask s how m).2.act = s.act ∧ (coda_signal_mask s how m).2.pend = s.pend ∧ (coda_signal_mask s how m).2.flags = s.flags ∧
    (coda_signal_mask s how m).2.frames = s.frames ∧ (coda_signal_mask s how m).2.pc = s.pc ∧ (coda_signal_mask s how m).2.eintr = s.eintr ∧
    (coda_signal_mask s how m).2.gone = s.gone := by
  unfold coda_signal_mask
  split
  · exact ⟨rfl, rfl, rfl, rfl, rfl, rfl, rfl⟩
  · split
    · exact ⟨rfl, rfl, rfl, rfl, rfl, rfl, rfl⟩
    · split <;> exact ⟨rfl, rfl, rfl, rfl, rfl, rfl, rfl⟩

theorem run_append (s : St) (a b : List Ev) : run s (a ++ b) = (run s a).bind fun t => run t b := by
  induction a generalizing s with
  | nil => rfl
  | cons e a ih =>
    simp only [List.cons_append, run]
    cases step s e with
    | none => rfl
    | some t => exact ih t

/-- Induction over a run. -/
theorem run_induct {P : St → List Ev → Prop} {s0 : St} (h0 : P s0 [])
    (hs : ∀ s es e t, run s0 es = some s → P s es → step s e = some t → P t (es ++ [e])) :
    ∀ es s, run s0 es = some s → P s es := by
  intro es
  induction es using List.reverseRecOn with
  | nil => intro s h; injection h with h; subst h; exact h0
  | append_singleton es e ih =>
    intro t h
    rw [run_append] at h
    cases hr : run s0 es with
    | none => rw [hr] at h; simp at h
    | some s =>
      rw [hr] at h
      simp only [Option.bind_some, run] at h
      cases hst : step s e with
      | none => rw [hst] at h; simp at h
      | some t' =>
        rw [hst] at h
        injection h with h; subst h
        exact hs s es e _ hr (ih s hr) hst

theorem inst_step {s t : St} {e : Ev} (hi : Inst s) (h : step s e = some t) : Inst t := by
  obtain ⟨_, hc⟩ := step_cases h
  rcases hc with ⟨n, rfl, rfl⟩ | ⟨n, rfl, _, _, rfl⟩ | ⟨f, fs, rfl, _, _, rfl⟩ | ⟨f, fs, rfl, _, _, rfl⟩ | ⟨how, m, rfl, _, _, rfl⟩ | ⟨g, rfl, _, _, rfl⟩ |
    ⟨rfl, _, _, rfl⟩ | ⟨rfl, _, _, rfl⟩ | ⟨rfl, _, _, _, rfl⟩ | ⟨rfl, _, _, _, rfl⟩ <;> try exact hi
  · intro k hk
    unfold deliverTo
    split
    · exact hi k hk
    · exact hi k hk
    · simp only [enterHandler]
      split
      · rename_i hkn
        obtain ⟨rfl, hr⟩ := hkn
        rw [(hi k hk).2] at hr
        exact absurd hr (by simp)
      · exact hi k hk
  · intro k hk
    rw [(sigmask_act s how m).1]
    exact hi k hk

end Verif.SigProc
