import Verif.SigProc.Lemmas

/-
  C134: no signal is lost, and masks do what they say.  C135: the main loop ends on SIGINT and SIGTERM.
-/
namespace Verif.SigProc

open Daemon

/-! ## C134 -/

/-- Only handled signals arrive. -/
def OnlyHandled (es : List Ev) : Prop := ∀ n, .raise n ∈ es → Spec.handled n

theorem pend_handled {s0 s : St} {es : List Ev} (h0 : ∀ n, s0.pend n = true → Spec.handled n) (h : run s0 es = some s) (ho : OnlyHandled es) :
    ∀ n, s.pend n = true → Spec.handled n := by
  refine run_induct (P := fun s es => OnlyHandled es → ∀ n, s.pend n = true → Spec.handled n) (fun _ => h0) ?_ es s h ho
  intro s es e t _ ih hst ho n hn
  have hs := ih (fun n hn => ho n (by simp [hn]))
  obtain ⟨_, hc⟩ := step_cases hst
  rcases hc with ⟨m, rfl, rfl⟩ | ⟨m, rfl, _, _, rfl⟩ | ⟨f, fs, rfl, _, _, rfl⟩ | ⟨f, fs, rfl, _, _, rfl⟩ | ⟨how, m, rfl, _, _, rfl⟩ | ⟨g, rfl, _, _, rfl⟩ |
    ⟨rfl, _, _, rfl⟩ | ⟨rfl, _, _, rfl⟩ | ⟨rfl, _, _, _, rfl⟩ | ⟨rfl, _, _, _, rfl⟩ <;> try exact hs n hn
  · dsimp only at hn
    by_cases hnm : n = m
    · subst hnm; exact ho n (by simp)
    · rw [if_neg hnm] at hn; exact hs n hn
  · unfold deliverTo at hn
    split at hn
    · exact hs n hn
    · dsimp only at hn
      split at hn
      · simp at hn
      · exact hs n hn
    · simp only [enterHandler] at hn
      split at hn
      · simp at hn
      · exact hs n hn
  · rw [(sigmask_act s how m).2.1] at hn; exact hs n hn

theorem inst_run {s0 s : St} {es : List Ev} (h0 : Inst s0) (h : run s0 es = some s) : Inst s :=
  run_induct (P := fun s _ => Inst s) h0 (fun _ _ _ _ _ ih hst => inst_step ih hst) es s h

theorem alive_run {s0 s : St} {es : List Ev} (hi : Inst s0) (hg : s0.gone = false) (h0 : ∀ n, s0.pend n = true → Spec.handled n)
    (h : run s0 es = some s) (ho : OnlyHandled es) : s.gone = false := by
  refine run_induct (P := fun s es => OnlyHandled es → s.gone = false) (fun _ => hg) ?_ es s h ho
  intro s es e t hr ih hst ho
  have ho' : OnlyHandled es := fun n hn => ho n (by simp [hn])
  have hs := ih ho'
  have hp := pend_handled h0 hr ho'
  obtain ⟨_, hc⟩ := step_cases hst
  rcases hc with ⟨m, rfl, rfl⟩ | ⟨m, rfl, hpm, _, rfl⟩ | ⟨f, fs, rfl, _, _, rfl⟩ | ⟨f, fs, rfl, _, _, rfl⟩ | ⟨how, m, rfl, _, _, rfl⟩ | ⟨g, rfl, _, _, rfl⟩ |
    ⟨rfl, _, _, rfl⟩ | ⟨rfl, _, _, rfl⟩ | ⟨rfl, _, _, _, rfl⟩ | ⟨rfl, _, _, _, rfl⟩ <;> try exact hs
  · have := (inst_run hi hr m (hp m hpm)).1
    unfold deliverTo
    rw [this]
    exact hs
  · rw [(sigmask_act s how m).2.2.2.2.2.2]; exact hs

/-- What calls of coda_signal_mask make of the mask. -/
def maskHist (old : Nat → Prop) : List Ev → Nat → Prop
  | [] => old
  | .sigmask how m :: es => maskHist (Spec.maskAfter old how m.toNat) es
  | _ :: es => maskHist old es

theorem maskHist_append (old : Nat → Prop) (a b : List Ev) : maskHist old (a ++ b) = maskHist (maskHist old a) b := by
  induction a generalizing old with
  | nil => rfl
  | cons e a ih => cases e <;> simp only [List.cons_append, maskHist, ih]

theorem maskAfter_spec (s : St) (how : Int) (m : UInt32) (n : Nat) :
    ((coda_signal_mask s how m).2.mask n = true) ↔ Spec.maskAfter (fun k => s.mask k = true) how m.toNat n := by
  have hc : (Daemon.coda_signal_mask m).contains n = true ↔ (Spec.handled n ∧ m.toNat.testBit n = true) := by
    rw [handled_iff]
    simp only [Daemon.coda_signal_mask, inMask, List.contains_iff_mem, List.mem_map, List.mem_filter]
    constructor
    · rintro ⟨x, ⟨hx, hb⟩, rfl⟩; exact ⟨⟨x, hx, rfl⟩, hb⟩
    · rintro ⟨⟨x, hx, rfl⟩, hb⟩; exact ⟨x, ⟨hx, hb⟩, rfl⟩
  unfold coda_signal_mask Spec.maskAfter
  dsimp only
  rw [← hc]
  by_cases h0 : how = 0
  · simp [h0]
  · by_cases h1 : how = 1
    · simp [h1]
    · by_cases h2 : how = 2
      · simp [h2]
      · simp [h0, h1, h2]

/-- The mask of the main program, also while handlers run. -/
def baseMask (s : St) : Nat → Bool :=
  match s.frames.getLast? with
  | some f => f.saved
  | none => s.mask

theorem base_run {s0 s : St} {es : List Ev} (h0 : s0.frames = []) (h : run s0 es = some s) :
    ∀ n, baseMask s n = true ↔ maskHist (fun k => s0.mask k = true) es n := by
  refine run_induct (P := fun s es => ∀ n, baseMask s n = true ↔ maskHist (fun k => s0.mask k = true) es n) ?_ ?_ es s h
  · intro n; simp [baseMask, h0, maskHist]
  · intro s es e t _ ih hst n
    obtain ⟨_, hc⟩ := step_cases hst
    rw [maskHist_append]
    rcases hc with ⟨m, rfl, rfl⟩ | ⟨m, rfl, _, _, rfl⟩ | ⟨f, fs, rfl, hf, _, rfl⟩ | ⟨f, fs, rfl, hf, _, rfl⟩ | ⟨how, m, rfl, hf, _, rfl⟩ | ⟨g, rfl, _, _, rfl⟩ |
      ⟨rfl, _, _, rfl⟩ | ⟨rfl, _, _, rfl⟩ | ⟨rfl, _, _, _, rfl⟩ | ⟨rfl, _, _, _, rfl⟩ <;> simp only [maskHist] <;> try exact ih n
    · rw [← ih n]
      unfold deliverTo
      split
      · rfl
      · rfl
      · unfold baseMask enterHandler
        dsimp only
        cases hf : s.frames with
        | nil => simp
        | cons f fs => rw [List.getLast?_cons_cons, List.getLast?_cons]
    · rw [← ih n]
      unfold baseMask
      dsimp only
      rw [hf]
      cases fs with
      | nil => simp
      | cons g fs => rw [List.getLast?_cons_cons, List.getLast?_cons_cons]
    · rw [← ih n]
      unfold baseMask
      dsimp only
      rw [hf]
      cases fs with
      | nil => simp
      | cons g fs => rw [List.getLast?_cons_cons, List.getLast?_cons]
    · have hb : (fun k => s.mask k = true) = maskHist (fun k => s0.mask k = true) es := by
        funext k
        have := ih k
        simp only [baseMask, hf, List.getLast?_nil] at this
        exact propext this
      rw [← hb, ← maskAfter_spec]
      unfold baseMask
      rw [(sigmask_act s how m).2.2.2.1, hf]
      simp

/-- **C134, the process goes on.** After coda_signal_init, and after coda_signal_init_norestart if no action had SA_RESETHAND before, no sequence of handled signals ends the process. -/
theorem C134_alive_partial (act : Nat → Act) (mask : Nat → Bool) (s0 s : St)
    (hs0 : s0 = coda_signal_init (fresh act mask) ∨ (s0 = coda_signal_init_norestart (fresh act mask) ∧ ∀ n, Spec.handled n → (act n).reset = false))
    (es : List Ev) (ho : OnlyHandled es) (h : run s0 es = some s) : s.gone = false := by
  rcases hs0 with rfl | ⟨rfl, hr⟩
  · exact alive_run (inst_init act mask) rfl (by simp [coda_signal_init, fresh]) h ho
  · exact alive_run (inst_norestart act mask hr) rfl (by simp [coda_signal_init_norestart, fresh]) h ho

/-- **C134, no signal is lost.** If a signal of a flag arrives at any point of any run, and the program does not clear the flag afterwards, then the flag is set, or the signal is still
pending, or its handler has started and not yet set the flag. -/
theorem C134_noticed_partial (act : Nat → Act) (mask : Nat → Bool) (s0 s : St)
    (hs0 : s0 = coda_signal_init (fresh act mask) ∨ (s0 = coda_signal_init_norestart (fresh act mask) ∧ ∀ n, Spec.handled n → (act n).reset = false))
    (h : Hand) (n : Nat) (hn : n ∈ Spec.sigsOf h) (es es' : List Ev) (hc : .clear h ∉ es') (hr : run s0 (es ++ .raise n :: es') = some s) :
    Spec.flagOf s.flags h = true ∨ s.pend n = true ∨ ∃ f ∈ s.frames, f.sig = n ∧ f.done = false := by
  have hi0 : Inst s0 := by
    rcases hs0 with rfl | ⟨rfl, hre⟩
    · exact inst_init act mask
    · exact inst_norestart act mask hre
  rw [run_append] at hr
  cases h1 : run s0 es with
  | none => rw [h1] at hr; simp at hr
  | some s1 =>
    rw [h1] at hr
    simp only [Option.bind_some, run] at hr
    cases h2 : step s1 (.raise n) with
    | none => rw [h2] at hr; simp at hr
    | some s2 =>
      rw [h2] at hr
      dsimp only at hr
      have hi2 := inst_step (inst_run hi0 h1) h2
      have hp2 : s2.pend n = true := by
        obtain ⟨_, hc⟩ := step_cases h2
        rcases hc with ⟨m, he, rfl⟩ | hc
        · injection he with he; subst he; simp
        · simp at hc
      refine run_induct (P := fun s es => .clear h ∉ es → Spec.flagOf s.flags h = true ∨ s.pend n = true ∨ ∃ f ∈ s.frames, f.sig = n ∧ f.done = false)
        (fun _ => Or.inr (Or.inl hp2)) ?_ es' s hr hc
      intro s es e t hrun ih hst hce
      have hs := ih (fun hm => hce (by simp [hm]))
      have hi := inst_run hi2 hrun
      obtain ⟨_, hc⟩ := step_cases hst
      rcases hc with ⟨m, rfl, rfl⟩ | ⟨m, rfl, hpm, _, rfl⟩ | ⟨f, fs, rfl, hf, hd, rfl⟩ | ⟨f, fs, rfl, hf, hd, rfl⟩ | ⟨how, m, rfl, hf, _, rfl⟩ | ⟨g, rfl, _, _, rfl⟩ |
        ⟨rfl, _, _, rfl⟩ | ⟨rfl, _, _, rfl⟩ | ⟨rfl, _, _, _, rfl⟩ | ⟨rfl, _, _, _, rfl⟩ <;> try exact hs
      · rcases hs with hs | hs | hs
        · exact Or.inl hs
        · refine Or.inr (Or.inl ?_)
          dsimp only
          split
          · rfl
          · exact hs
        · exact Or.inr (Or.inr hs)
      · unfold deliverTo
        split
        · exact hs
        · rename_i hign
          rcases hs with hs | hs | hs
          · exact Or.inl hs
          · refine Or.inr (Or.inl ?_)
            dsimp only
            rw [if_neg]
            · exact hs
            · rintro rfl
              rw [(hi n (sigsOf_handled hn)).1] at hign
              simp at hign
          · exact Or.inr (Or.inr hs)
        · rcases hs with hs | hs | ⟨f, hf, hs⟩
          · exact Or.inl hs
          · by_cases hnm : n = m
            · subst hnm
              exact Or.inr (Or.inr ⟨_, List.mem_cons_self, rfl, rfl⟩)
            · refine Or.inr (Or.inl ?_)
              simp only [enterHandler]
              rw [if_neg hnm]; exact hs
          · exact Or.inr (Or.inr ⟨f, List.mem_cons_of_mem _ hf, hs⟩)
      · rcases hs with hs | hs | ⟨f', hf', hs⟩
        · left; dsimp only; rw [handle_flag, hs]; rfl
        · exact Or.inr (Or.inl hs)
        · rw [hf] at hf'
          rcases List.mem_cons.mp hf' with rfl | hf'
          · left; dsimp only; rw [handle_flag, hs.1]; simp [hn]
          · exact Or.inr (Or.inr ⟨f', List.mem_cons_of_mem _ hf', hs⟩)
      · rcases hs with hs | hs | ⟨f', hf', hs⟩
        · exact Or.inl hs
        · exact Or.inr (Or.inl hs)
        · rw [hf] at hf'
          rcases List.mem_cons.mp hf' with rfl | hf'
          · rw [hd] at hs; simp at hs
          · exact Or.inr (Or.inr ⟨f', hf', hs⟩)
      · rw [(sigmask_act s how m).2.1, (sigmask_act s how m).2.2.1, (sigmask_act s how m).2.2.2.1]; exact hs
      · dsimp only
        rw [clear_flag _ _ _ (by rintro rfl; exact hce (by simp))]
        exact hs

/-- At rest, when no handler runs and no signal waits that is not blocked, the flag is set or the signal is one that the program has blocked. -/
theorem C134_rest_partial (act : Nat → Act) (mask : Nat → Bool) (s0 s : St)
    (hs0 : s0 = coda_signal_init (fresh act mask) ∨ (s0 = coda_signal_init_norestart (fresh act mask) ∧ ∀ n, Spec.handled n → (act n).reset = false))
    (h : Hand) (n : Nat) (hn : n ∈ Spec.sigsOf h) (es es' : List Ev) (hc : .clear h ∉ es') (hr : run s0 (es ++ .raise n :: es') = some s)
    (hf : s.frames = []) (hp : ∀ k, s.pend k = true → s.mask k = true) :
    Spec.flagOf s.flags h = true ∨ maskHist (fun k => mask k = true) (es ++ .raise n :: es') n := by
  rcases C134_noticed_partial act mask s0 s hs0 h n hn es es' hc hr with h1 | h1 | ⟨f, hm, _⟩
  · exact Or.inl h1
  · right
    have h0 : s0.frames = [] ∧ s0.mask = mask := by rcases hs0 with rfl | ⟨rfl, _⟩ <;> exact ⟨rfl, rfl⟩
    have := base_run h0.1 hr n
    rw [h0.2] at this
    rw [← this]
    simp only [baseMask, hf, List.getLast?_nil]
    exact hp n h1
  · rw [hf] at hm; simp at hm

/-- **C134, the mask.** When no handler runs, the mask is the one that the calls of coda_signal_mask have made of the first one: signals do not change it. -/
theorem C134_mask (act : Nat → Act) (mask : Nat → Bool) (s0 s : St) (hs0 : s0 = coda_signal_init (fresh act mask) ∨ s0 = coda_signal_init_norestart (fresh act mask))
    (es : List Ev) (hr : run s0 es = some s) (hf : s.frames = []) (n : Nat) : s.mask n = true ↔ maskHist (fun k => mask k = true) es n := by
  have h0 : s0.frames = [] ∧ s0.mask = mask := by rcases hs0 with rfl | rfl <;> exact ⟨rfl, rfl⟩
  have := base_run h0.1 hr n
  rw [h0.2] at this
  rw [← this]
  simp only [baseMask, hf, List.getLast?_nil]

/-- coda_signal_mask returns 0 exactly if `how` is one of the three. -/
theorem C134_mask_result (s : St) (how : Int) (m : UInt32) :
    ((coda_signal_mask s how m).1 = 0 ↔ how = 0 ∨ how = 1 ∨ how = 2) ∧ ((coda_signal_mask s how m).1 ≠ 0 → (coda_signal_mask s how m) = (-1, s)) := by
  unfold coda_signal_mask
  by_cases h0 : how = 0
  · simp [h0]
  · by_cases h1 : how = 1
    · simp [h1]
    · by_cases h2 : how = 2
      · simp [h2]
      · simp [h0, h1, h2]

/-- **C134, only signals set flags.** -/
theorem C134_only (act : Nat → Act) (mask : Nat → Bool) (s0 s : St) (hs0 : s0 = coda_signal_init (fresh act mask) ∨ s0 = coda_signal_init_norestart (fresh act mask))
    (es : List Ev) (hr : run s0 es = some s) (h : Hand) (hf : Spec.flagOf s.flags h = true) : ∃ n ∈ Spec.sigsOf h, .raise n ∈ es := by
  have h0 : s0.frames = [] ∧ s0.pend = (fun _ => false) ∧ s0.flags = {} := by rcases hs0 with rfl | rfl <;> exact ⟨rfl, rfl, rfl⟩
  have key : (∀ n, s.pend n = true → .raise n ∈ es) ∧ (∀ f ∈ s.frames, .raise f.sig ∈ es) ∧ (∀ h, Spec.flagOf s.flags h = true → ∃ n ∈ Spec.sigsOf h, .raise n ∈ es) := by
    refine run_induct (P := fun s es => (∀ n, s.pend n = true → .raise n ∈ es) ∧ (∀ f ∈ s.frames, .raise f.sig ∈ es) ∧
      (∀ h, Spec.flagOf s.flags h = true → ∃ n ∈ Spec.sigsOf h, .raise n ∈ es)) ?_ ?_ es s hr
    · rw [h0.1, h0.2.1, h0.2.2]
      refine ⟨by simp, by simp, ?_⟩
      intro h hf; cases h <;> simp [Spec.flagOf] at hf
    · intro s es e t _ ih hst
      have up : ∀ {x}, x ∈ es → x ∈ es ++ [e] := fun hx => by simp [hx]
      have hP : (∀ n, s.pend n = true → .raise n ∈ es ++ [e]) ∧ (∀ f ∈ s.frames, .raise f.sig ∈ es ++ [e]) ∧
          (∀ h, Spec.flagOf s.flags h = true → ∃ n ∈ Spec.sigsOf h, .raise n ∈ es ++ [e]) :=
        ⟨fun n hn => up (ih.1 n hn), fun f hf => up (ih.2.1 f hf), fun h hh => by obtain ⟨n, hn, hm⟩ := ih.2.2 h hh; exact ⟨n, hn, up hm⟩⟩
      obtain ⟨_, hc⟩ := step_cases hst
      rcases hc with ⟨m, rfl, rfl⟩ | ⟨m, rfl, hpm, _, rfl⟩ | ⟨f, fs, rfl, hf, hd, rfl⟩ | ⟨f, fs, rfl, hf, hd, rfl⟩ | ⟨how, m, rfl, hf, _, rfl⟩ | ⟨g, rfl, _, _, rfl⟩ |
        ⟨rfl, _, _, rfl⟩ | ⟨rfl, _, _, rfl⟩ | ⟨rfl, _, _, _, rfl⟩ | ⟨rfl, _, _, _, rfl⟩ <;> try exact hP
      · refine ⟨fun n hn => ?_, hP.2⟩
        dsimp only at hn
        by_cases hnm : n = m
        · subst hnm; simp
        · rw [if_neg hnm] at hn; exact hP.1 n hn
      · unfold deliverTo
        split
        · exact hP
        · refine ⟨fun n hn => ?_, hP.2⟩
          dsimp only at hn
          split at hn
          · simp at hn
          · exact hP.1 n hn
        · refine ⟨fun n hn => ?_, fun f hf => ?_, hP.2.2⟩
          · simp only [enterHandler] at hn
            split at hn
            · simp at hn
            · exact hP.1 n hn
          · simp only [enterHandler] at hf
            rcases List.mem_cons.mp hf with rfl | hf
            · exact hP.1 m hpm
            · exact hP.2.1 f hf
      · refine ⟨hP.1, fun f' hf' => ?_, fun h hh => ?_⟩
        · dsimp only at hf'
          rcases List.mem_cons.mp hf' with rfl | hf'
          · exact hP.2.1 f (by rw [hf]; simp)
          · exact hP.2.1 f' (by rw [hf]; simp [hf'])
        · dsimp only at hh
          rw [handle_flag, Bool.or_eq_true] at hh
          rcases hh with hh | hh
          · exact hP.2.2 h hh
          · exact ⟨f.sig, by simpa using hh, hP.2.1 f (by rw [hf]; simp)⟩
      · refine ⟨hP.1, fun f' hf' => hP.2.1 f' (by rw [hf]; simp [hf']), hP.2.2⟩
      · rw [(sigmask_act s how m).2.1, (sigmask_act s how m).2.2.1, (sigmask_act s how m).2.2.2.1]; exact hP
      · refine ⟨hP.1, hP.2.1, fun h hh => hP.2.2 h (clear_flag_le _ _ _ hh)⟩
  exact key.2.2 h hf

/-- **C134, blocked signals.** While the signals of a flag are blocked, it is not set, whatever arrives. -/
theorem C134_blocked (s s' : St) (h : Hand) (hf : s.frames = []) (hm : ∀ n ∈ Spec.sigsOf h, s.mask n = true) (hfl : Spec.flagOf s.flags h = false)
    (es : List Ev) (hes : ∀ how m, .sigmask how m ∉ es) (hr : run s es = some s') : Spec.flagOf s'.flags h = false := by
  have key : (∀ n ∈ Spec.sigsOf h, s'.mask n = true) ∧ (∀ f ∈ s'.frames, f.sig ∉ Spec.sigsOf h ∧ ∀ n ∈ Spec.sigsOf h, f.saved n = true) ∧ Spec.flagOf s'.flags h = false := by
    refine run_induct (P := fun s es => (∀ how m, .sigmask how m ∉ es) → (∀ n ∈ Spec.sigsOf h, s.mask n = true) ∧
      (∀ f ∈ s.frames, f.sig ∉ Spec.sigsOf h ∧ ∀ n ∈ Spec.sigsOf h, f.saved n = true) ∧ Spec.flagOf s.flags h = false) ?_ ?_ es s' hr hes
    · intro _; exact ⟨hm, by rw [hf]; simp, hfl⟩
    · intro s es e t _ ih hst hes
      have hP := ih (fun how m hx => hes how m (by simp [hx]))
      obtain ⟨_, hc⟩ := step_cases hst
      rcases hc with ⟨m, rfl, rfl⟩ | ⟨m, rfl, hpm, hmm, rfl⟩ | ⟨f, fs, rfl, hf, hd, rfl⟩ | ⟨f, fs, rfl, hf, hd, rfl⟩ | ⟨how, m, rfl, hf, _, rfl⟩ | ⟨g, rfl, _, _, rfl⟩ |
        ⟨rfl, _, _, rfl⟩ | ⟨rfl, _, _, rfl⟩ | ⟨rfl, _, _, _, rfl⟩ | ⟨rfl, _, _, _, rfl⟩ <;> try exact hP
      · unfold deliverTo
        split
        · exact hP
        · exact hP
        · refine ⟨fun n hn => ?_, fun f hf => ?_, hP.2.2⟩
          · simp only [enterHandler, hP.1 n hn, Bool.true_or]
          · simp only [enterHandler] at hf
            rcases List.mem_cons.mp hf with rfl | hf
            · refine ⟨fun hn => ?_, hP.1⟩
              have := hP.1 m hn
              rw [hmm] at this; simp at this
            · exact hP.2.1 f hf
      · refine ⟨hP.1, fun f' hf' => ?_, ?_⟩
        · dsimp only at hf'
          rcases List.mem_cons.mp hf' with rfl | hf'
          · exact hP.2.1 f (by rw [hf]; simp)
          · exact hP.2.1 f' (by rw [hf]; simp [hf'])
        · dsimp only
          rw [handle_flag, hP.2.2]
          simpa using (hP.2.1 f (by rw [hf]; simp)).1
      · exact ⟨(hP.2.1 f (by rw [hf]; simp)).2, fun f' hf' => hP.2.1 f' (by rw [hf]; simp [hf']), hP.2.2⟩
      · exact absurd (by simp) (hes how m)
      · refine ⟨hP.1, hP.2.1, ?_⟩
        cases hx : Spec.flagOf (clearFlag s.flags g) h with
        | false => rfl
        | true => rw [clear_flag_le _ _ _ hx] at hP; simp at hP
  exact key.2.2

/-- **C134, cleared flags.** A flag that is set although the program has cleared it since: a signal of this flag has been delivered after that. -/
theorem C134_cleared (s t u : St) (h : Hand) (hst : step s (.clear h) = some t) (es : List Ev) (hr : run t es = some u) (hf : Spec.flagOf u.flags h = true) :
    ∃ n ∈ Spec.sigsOf h, .deliver n ∈ es := by
  obtain ⟨_, hc⟩ := step_cases hst
  have h0 : t.frames = [] ∧ Spec.flagOf t.flags h = false := by
    rcases hc with ⟨m, he, _⟩ | ⟨m, he, _⟩ | ⟨f, fs, he, _⟩ | ⟨f, fs, he, _⟩ | ⟨how, m, he, _⟩ | ⟨g, he, hfr, _, rfl⟩ | ⟨he, _⟩ | ⟨he, _⟩ | ⟨he, _⟩ | ⟨he, _⟩ <;> cases he
    exact ⟨hfr, by cases h <;> rfl⟩
  have key : (∀ f ∈ u.frames, .deliver f.sig ∈ es) ∧ (Spec.flagOf u.flags h = true → ∃ n ∈ Spec.sigsOf h, .deliver n ∈ es) := by
    refine run_induct (P := fun u es => (∀ f ∈ u.frames, .deliver f.sig ∈ es) ∧ (Spec.flagOf u.flags h = true → ∃ n ∈ Spec.sigsOf h, .deliver n ∈ es)) ?_ ?_ es u hr
    · rw [h0.1, h0.2]; simp
    · intro s es e t _ ih hst
      have hP : (∀ f ∈ s.frames, .deliver f.sig ∈ es ++ [e]) ∧ (Spec.flagOf s.flags h = true → ∃ n ∈ Spec.sigsOf h, .deliver n ∈ es ++ [e]) :=
        ⟨fun f hf => by simp [ih.1 f hf], fun hh => by obtain ⟨n, hn, hm⟩ := ih.2 hh; exact ⟨n, hn, by simp [hm]⟩⟩
      obtain ⟨_, hc⟩ := step_cases hst
      rcases hc with ⟨m, rfl, rfl⟩ | ⟨m, rfl, hpm, _, rfl⟩ | ⟨f, fs, rfl, hf, hd, rfl⟩ | ⟨f, fs, rfl, hf, hd, rfl⟩ | ⟨how, m, rfl, hf, _, rfl⟩ | ⟨g, rfl, _, _, rfl⟩ |
        ⟨rfl, _, _, rfl⟩ | ⟨rfl, _, _, rfl⟩ | ⟨rfl, _, _, _, rfl⟩ | ⟨rfl, _, _, _, rfl⟩ <;> try exact hP
      · unfold deliverTo
        split
        · exact hP
        · exact hP
        · refine ⟨fun f hf => ?_, hP.2⟩
          simp only [enterHandler] at hf
          rcases List.mem_cons.mp hf with rfl | hf
          · simp
          · exact hP.1 f hf
      · refine ⟨fun f' hf' => ?_, fun hh => ?_⟩
        · dsimp only at hf'
          rcases List.mem_cons.mp hf' with rfl | hf'
          · exact hP.1 f (by rw [hf]; simp)
          · exact hP.1 f' (by rw [hf]; simp [hf'])
        · dsimp only at hh
          rw [handle_flag, Bool.or_eq_true] at hh
          rcases hh with hh | hh
          · exact hP.2 hh
          · exact ⟨f.sig, by simpa using hh, hP.1 f (by rw [hf]; simp)⟩
      · exact ⟨fun f' hf' => hP.1 f' (by rw [hf]; simp [hf']), hP.2⟩
      · rw [(sigmask_act s how m).2.2.1, (sigmask_act s how m).2.2.2.1]; exact hP
      · exact ⟨hP.1, fun hh => hP.2 (clear_flag_le _ _ _ hh)⟩
  exact key.2 hf

/-- The signals that are blocked while a handler of `o` runs. -/
theorem nested (s0 s : St) (h0 : s0.frames = []) (es : List Ev) (hr : run s0 es = some s) :
    s.frames.Pairwise (fun i o => (s0.act o.sig).smask i.sig = false ∧ ((s0.act o.sig).nodefer = false → i.sig ≠ o.sig)) := by
  let bl (o : Nat) (m : Nat → Bool) : Prop := ∀ k, ((s0.act o).smask k = true ∨ ((s0.act o).nodefer = false ∧ k = o)) → m k = true
  have key : s.frames.Pairwise (fun i o => (s0.act o.sig).smask i.sig = false ∧ ((s0.act o.sig).nodefer = false → i.sig ≠ o.sig)) ∧
      s.frames.Pairwise (fun i o => bl o.sig i.saved) ∧ (∀ o ∈ s.frames, bl o.sig s.mask) ∧ (∀ n, (s.act n).smask = (s0.act n).smask ∧ (s.act n).nodefer = (s0.act n).nodefer) := by
    refine run_induct (P := fun s _ => s.frames.Pairwise (fun i o => (s0.act o.sig).smask i.sig = false ∧ ((s0.act o.sig).nodefer = false → i.sig ≠ o.sig)) ∧
      s.frames.Pairwise (fun i o => bl o.sig i.saved) ∧ (∀ o ∈ s.frames, bl o.sig s.mask) ∧ (∀ n, (s.act n).smask = (s0.act n).smask ∧ (s.act n).nodefer = (s0.act n).nodefer)) ?_ ?_ es s hr
    · rw [h0]; simp
    · intro s es e t _ hP hst
      obtain ⟨_, hc⟩ := step_cases hst
      rcases hc with ⟨m, rfl, rfl⟩ | ⟨m, rfl, hpm, hmm, rfl⟩ | ⟨f, fs, rfl, hf, hd, rfl⟩ | ⟨f, fs, rfl, hf, hd, rfl⟩ | ⟨how, m, rfl, hf, _, rfl⟩ | ⟨g, rfl, _, _, rfl⟩ |
        ⟨rfl, _, _, rfl⟩ | ⟨rfl, _, _, rfl⟩ | ⟨rfl, _, _, _, rfl⟩ | ⟨rfl, _, _, _, rfl⟩ <;> try exact hP
      · unfold deliverTo
        split
        · exact hP
        · exact hP
        · obtain ⟨p1, p2, p3, p4⟩ := hP
          simp only [enterHandler]
          refine ⟨List.pairwise_cons.2 ⟨fun o ho => ?_, p1⟩, List.pairwise_cons.2 ⟨p3, p2⟩, fun o ho => ?_, fun n => ?_⟩
          · constructor
            · cases hx : (s0.act o.sig).smask m with
              | false => rfl
              | true => have := p3 o ho m (Or.inl hx); rw [hmm] at this; cases this
            · rintro hn rfl
              have := p3 o ho o.sig (Or.inr ⟨hn, rfl⟩); rw [hmm] at this; cases this
          · rcases List.mem_cons.mp ho with rfl | ho
            · rintro k (hk | ⟨hk, rfl⟩)
              · simp [(p4 m).1, hk]
              · simp [(p4 k).2, hk]
            · intro k hk
              simp [p3 o ho k hk]
          · split
            · rename_i h; rw [h.1]; exact p4 m
            · exact p4 n
      · rw [hf] at hP
        obtain ⟨p1, p2, p3, p4⟩ := hP
        refine ⟨?_, ?_, ?_, p4⟩
        · exact List.pairwise_cons.2 (List.pairwise_cons.1 p1)
        · exact List.pairwise_cons.2 (List.pairwise_cons.1 p2)
        · intro o ho
          rcases List.mem_cons.mp ho with rfl | ho
          · exact p3 f (by simp)
          · exact p3 o (by simp [ho])
      · rw [hf] at hP
        obtain ⟨p1, p2, p3, p4⟩ := hP
        exact ⟨(List.pairwise_cons.1 p1).2, (List.pairwise_cons.1 p2).2, fun o ho => (List.pairwise_cons.1 p2).1 o ho, p4⟩
      · rw [(sigmask_act s how m).2.2.2.1, (sigmask_act s how m).1, hf]
        exact ⟨List.Pairwise.nil, List.Pairwise.nil, by simp, hP.2.2.2⟩
  exact key.1

/-- **C134, nested handlers.** After coda_signal_init, the handler of a signal is never interrupted by the same signal. -/
theorem C134_nested (act : Nat → Act) (mask : Nat → Bool) (s : St) (es : List Ev) (hr : run (coda_signal_init (fresh act mask)) es = some s) :
    s.frames.Pairwise (fun inner outer => Spec.handled outer.sig → inner.sig ≠ outer.sig) := by
  refine (nested _ s rfl es hr).imp ?_
  intro i o h ho
  rw [handled_iff] at ho
  have := (foldl_bsd sigList act o.sig).1 ho
  simp only [coda_signal_init, fresh, this] at h
  exact h.2 trivial

/-- After coda_signal_init_norestart, the handler of a signal is not interrupted by those that the former action of this signal had in its sa_mask, nor by the same signal, unless
the former action had SA_NODEFER. -/
theorem C134_nested_norestart (act : Nat → Act) (mask : Nat → Bool) (s : St) (es : List Ev) (hr : run (coda_signal_init_norestart (fresh act mask)) es = some s) :
    s.frames.Pairwise (fun inner outer => Spec.handled outer.sig → (act outer.sig).smask inner.sig = false ∧ ((act outer.sig).nodefer = false → inner.sig ≠ outer.sig)) := by
  refine (nested _ s rfl es hr).imp ?_
  intro i o h ho
  rw [handled_iff] at ho
  have := (foldl_noRestart sigList act o.sig).1 ho
  simp only [coda_signal_init_norestart, fresh, this] at h
  exact h

/-! Actions of a program that has just been started, and some runs. -/

def plain : Nat → Act := fun _ => ⟨.dfl, false, false, false, fun _ => false⟩

/-- Runs: a test of a run for the examples. -/
def chk (r : Option St) (p : St → Bool) : Bool :=
  match r with
  | some s => p s
  | none => false

/-- SIGHUP is blocked and arrives, SIGTERM arrives and interrupts the handler of SIGUSR1, SIGHUP is unblocked. -/
def sample : List Ev := [.sigmask 0 2, .raise 1, .raise 10, .deliver 10, .raise 15, .deliver 15, .body, .ret, .body, .ret, .sigmask 1 2, .deliver 1, .body, .ret]

example : chk (run (coda_signal_init (fresh plain (fun _ => false))) sample) (fun s => s.flags == ⟨true, true, true, false⟩ && s.frames.isEmpty && !s.gone && !s.mask 1) = true := by
  decide +kernel

example : chk (run (coda_signal_init_norestart (fresh plain (fun _ => false))) (sample.take 10)) (fun s => s.flags == ⟨true, false, true, false⟩ && s.frames.isEmpty && s.mask 1 && s.pend 1) = true := by
  decide +kernel

example : OnlyHandled sample := by
  intro n hn
  have : n = 1 ∨ n = 10 ∨ n = 15 := by simpa [sample] using hn
  rcases this with rfl | rfl | rfl
  · exact Or.inr (Or.inl (by decide))
  · exact Or.inr (Or.inr (Or.inl (by decide)))
  · exact Or.inl (by decide)

/-- A flag that is set again after it has been cleared; two handlers on the stack. -/
example : chk (run (coda_signal_init (fresh plain (fun _ => false))) [.raise 1, .deliver 1, .body, .ret, .clear .changecfg, .raise 1, .deliver 1, .raise 10, .deliver 10, .body])
    (fun s => !s.flags.changecfg && s.flags.rotatelog && s.frames.map (·.sig) == [10, 1]) = true := by
  decide +kernel

/-- But coda_signal_init_norestart keeps the flags of the former action: if that had SA_RESETHAND, the second signal ends the process. -/
theorem C134_refuted_reset (act : Nat → Act) (mask : Nat → Bool) (n : Nat) (hn : Spec.handled n) (hr : (act n).reset = true) (hm : mask n = false) :
    ∃ s, run (coda_signal_init_norestart (fresh act mask)) [.raise n, .deliver n, .body, .ret, .raise n, .deliver n] = some s ∧ s.gone = true := by
  have hA : (coda_signal_init_norestart (fresh act mask)).act n = { act n with hand := .coda, restart := false } := by
    rw [handled_iff] at hn
    exact (foldl_noRestart sigList act n).1 hn
  generalize hs : coda_signal_init_norestart (fresh act mask) = s0 at hA
  have h1 : s0.mask = mask ∧ s0.gone = false ∧ s0.frames = [] := by subst hs; exact ⟨rfl, rfl, rfl⟩
  obtain ⟨hm0, hg0, hf0⟩ := h1
  simp [run, step, hg0, hm0, hm, deliverTo, hA, enterHandler, userStep, hr, hf0]

/-! ## C135 -/

theorem flag_terminate (f : Flags) : Spec.flagOf f .terminate = f.terminate := rfl

/-- **C135, the call is interrupted.** A program that has called coda_signal_init_norestart waits in the call of the loop when SIGINT or SIGTERM is delivered.  Then whatever happens,
no call begins any more, the call in progress does not go on until it returns by itself, and as soon as no handler runs, the loop ends by the next steps of the program.
(The program does not clear the flag.) -/
theorem C135_interrupts_partial (act : Nat → Act) (mask : Nat → Bool) (hre : ∀ n, Spec.handled n → (act n).reset = false) (es : List Ev) (s : St)
    (hr : run (coda_signal_init_norestart (fresh act mask)) es = some s) (hcall : s.pc = .call) (hf : s.frames = []) (n : Nat) (hn : n ∈ Spec.terminate)
    (s1 : St) (hd : step s (.deliver n) = some s1) (es' : List Ev) (hc : .clear .terminate ∉ es') (s2 : St) (hr2 : run s1 es' = some s2) :
    .begin ∉ es' ∧ .finish ∉ es' ∧ (s2.frames = [] → s2.gone = false →
      s2.pc = .out ∨ (∃ t, step s2 .test = some t ∧ t.pc = .out) ∨ (∃ t u, step s2 .intr = some t ∧ step t .test = some u ∧ u.pc = .out)) := by
  have hA : ∀ k, Spec.handled k → (s.act k).restart = false ∧ (s.act k).hand = .coda := by
    refine run_induct (P := fun s _ => ∀ k, Spec.handled k → (s.act k).restart = false ∧ (s.act k).hand = .coda) ?_ ?_ es s hr
    · intro k hk
      rw [handled_iff] at hk
      simp only [coda_signal_init_norestart, fresh]
      rw [(foldl_noRestart sigList act k).1 hk]
      exact ⟨rfl, rfl⟩
    · intro s es e t hrun ih hst k hk
      refine ⟨?_, (inst_step (inst_run (inst_norestart act mask hre) hrun) hst k hk).1⟩
      obtain ⟨_, hc⟩ := step_cases hst
      rcases hc with ⟨m, rfl, rfl⟩ | ⟨m, rfl, hpm, _, rfl⟩ | ⟨f, fs, rfl, hf, hd, rfl⟩ | ⟨f, fs, rfl, hf, hd, rfl⟩ | ⟨how, m, rfl, hf, _, rfl⟩ | ⟨g, rfl, _, _, rfl⟩ |
        ⟨rfl, _, _, rfl⟩ | ⟨rfl, _, _, rfl⟩ | ⟨rfl, _, _, _, rfl⟩ | ⟨rfl, _, _, _, rfl⟩ <;> try exact (ih k hk).1
      · unfold deliverTo
        split
        · exact (ih k hk).1
        · exact (ih k hk).1
        · simp only [enterHandler]
          split
          · rename_i hkm; rw [← hkm.1]; exact (ih k hk).1
          · exact (ih k hk).1
      · rw [(sigmask_act s how m).1]; exact (ih k hk).1
  have hn' := hA n (Or.inl hn)
  have hs1 : s1 = enterHandler s n := by
    obtain ⟨_, hc⟩ := step_cases hd
    rcases hc with ⟨m, he, rfl⟩ | ⟨m, he, _, _, rfl⟩ | hc
    · simp at he
    · injection he with he; subst he
      unfold deliverTo; rw [hn'.2]
    · simp at hc
  have key : .begin ∉ es' ∧ .finish ∉ es' ∧ ((s2.pc = .call ∧ s2.eintr = true ∧ (s2.flags.terminate = true ∨ ∃ f ∈ s2.frames, f.sig = n ∧ f.done = false)) ∨
      (s2.pc = .check ∧ s2.flags.terminate = true) ∨ s2.pc = .out) := by
    refine run_induct (P := fun s2 es' => .clear .terminate ∉ es' → .begin ∉ es' ∧ .finish ∉ es' ∧
      ((s2.pc = .call ∧ s2.eintr = true ∧ (s2.flags.terminate = true ∨ ∃ f ∈ s2.frames, f.sig = n ∧ f.done = false)) ∨
      (s2.pc = .check ∧ s2.flags.terminate = true) ∨ s2.pc = .out)) ?_ ?_ es' s2 hr2 hc
    · intro _
      refine ⟨by simp, by simp, Or.inl ⟨?_, ?_, ?_⟩⟩
      · rw [hs1]; exact hcall
      · rw [hs1]; simp [enterHandler, hcall, hf, hn'.1]
      · rw [hs1]; exact Or.inr ⟨_, List.mem_cons_self, rfl, rfl⟩
    · intro s es e t _ ih hst hce
      obtain ⟨hb, hfi, hP⟩ := ih (fun hm => hce (by simp [hm]))
      simp only [List.mem_append, List.mem_singleton, not_or]
      obtain ⟨_, hc⟩ := step_cases hst
      rcases hc with ⟨m, rfl, rfl⟩ | ⟨m, rfl, hpm, _, rfl⟩ | ⟨f, fs, rfl, hf, hd, rfl⟩ | ⟨f, fs, rfl, hf, hd, rfl⟩ | ⟨how, m, rfl, hf, _, rfl⟩ | ⟨g, rfl, hf, hpc, rfl⟩ |
        ⟨rfl, hf, hpc, rfl⟩ | ⟨rfl, hf, hpc, rfl⟩ | ⟨rfl, hf, hpc, hei, rfl⟩ | ⟨rfl, hf, hpc, hei, rfl⟩
      · exact ⟨⟨hb, by simp⟩, ⟨hfi, by simp⟩, hP⟩
      · refine ⟨⟨hb, by simp⟩, ⟨hfi, by simp⟩, ?_⟩
        unfold deliverTo
        split
        · exact hP
        · exact hP
        · rcases hP with ⟨h1, h2, h3⟩ | hP
          · refine Or.inl ⟨h1, by simp [enterHandler, h2], ?_⟩
            rcases h3 with h3 | ⟨f, hf, h3⟩
            · exact Or.inl h3
            · exact Or.inr ⟨f, List.mem_cons_of_mem _ hf, h3⟩
          · exact Or.inr hP
      · refine ⟨⟨hb, by simp⟩, ⟨hfi, by simp⟩, ?_⟩
        have mono : s.flags.terminate = true → (coda_signal_handle s.flags f.sig).terminate = true := by
          intro hx
          rw [← flag_terminate, handle_flag, flag_terminate, hx]; rfl
        rcases hP with ⟨h1, h2, h3⟩ | ⟨h1, h2⟩ | hP
        · refine Or.inl ⟨h1, h2, ?_⟩
          rcases h3 with h3 | ⟨f', hf', h3⟩
          · exact Or.inl (mono h3)
          · rw [hf] at hf'
            rcases List.mem_cons.mp hf' with rfl | hf'
            · left
              dsimp only
              rw [← flag_terminate, handle_flag, h3.1]
              simp [Spec.sigsOf, hn]
            · exact Or.inr ⟨f', List.mem_cons_of_mem _ hf', h3⟩
        · exact Or.inr (Or.inl ⟨h1, mono h2⟩)
        · exact Or.inr (Or.inr hP)
      · refine ⟨⟨hb, by simp⟩, ⟨hfi, by simp⟩, ?_⟩
        rcases hP with ⟨h1, h2, h3⟩ | hP
        · refine Or.inl ⟨h1, h2, ?_⟩
          rcases h3 with h3 | ⟨f', hf', h3⟩
          · exact Or.inl h3
          · rw [hf] at hf'
            rcases List.mem_cons.mp hf' with rfl | hf'
            · rw [hd] at h3; simp at h3
            · exact Or.inr ⟨f', hf', h3⟩
        · exact Or.inr hP
      · refine ⟨⟨hb, by simp⟩, ⟨hfi, by simp⟩, ?_⟩
        obtain ⟨_, _, e3, e4, e5, e6, _⟩ := sigmask_act s how m
        rw [e3, e4, e5, e6]; exact hP
      · refine ⟨⟨hb, by simp⟩, ⟨hfi, by simp⟩, ?_⟩
        have hg : g ≠ .terminate := by rintro rfl; exact hce (by simp)
        have hx : (clearFlag s.flags g).terminate = s.flags.terminate := by
          have := clear_flag s.flags g .terminate hg
          exact this
        rcases hP with ⟨h1, _⟩ | ⟨h1, h2⟩ | hP
        · exact absurd h1 hpc
        · exact Or.inr (Or.inl ⟨h1, by dsimp only; rw [hx]; exact h2⟩)
        · exact Or.inr (Or.inr hP)
      · refine ⟨⟨hb, by simp⟩, ⟨hfi, by simp⟩, ?_⟩
        rcases hP with ⟨h1, _⟩ | ⟨h1, h2⟩ | hP
        · rw [hpc] at h1; simp at h1
        · exact Or.inr (Or.inr (by dsimp only; rw [h2]; rfl))
        · rw [hpc] at hP; simp at hP
      · rcases hP with ⟨h1, _⟩ | ⟨h1, h2⟩ | hP <;> simp_all
      · rcases hP with ⟨h1, h2, _⟩ | ⟨h1, h2⟩ | hP <;> simp_all
      · refine ⟨⟨hb, by simp⟩, ⟨hfi, by simp⟩, ?_⟩
        rcases hP with ⟨h1, h2, h3⟩ | ⟨h1, h2⟩ | hP
        · rcases h3 with h3 | ⟨f, hm, _⟩
          · exact Or.inr (Or.inl ⟨rfl, h3⟩)
          · rw [hf] at hm; simp at hm
        · rw [hpc] at h1; simp at h1
        · rw [hpc] at hP; simp at hP
  refine ⟨key.1, key.2.1, fun hf2 hg2 => ?_⟩
  rcases key.2.2 with ⟨h1, h2, h3⟩ | ⟨h1, h2⟩ | h1
  · right; right
    have ht : s2.flags.terminate = true := by
      rcases h3 with h3 | ⟨f, hm, _⟩
      · exact h3
      · rw [hf2] at hm; simp at hm
    simp [step, hg2, userStep, hf2, h1, h2, ht]
  · right; left
    simp [step, hg2, userStep, hf2, h1, h2]
  · exact Or.inl h1

/-- The calls that may still end, and those that may still begin. -/
def endsLeft : Pc → Nat
  | .enter | .call => 1
  | _ => 0

def beginsLeft : Pc → Nat
  | .enter => 1
  | _ => 0

/-- **C135, at most one more call.** Once coda_terminate is set, in any program (with either initialisation) that does not clear it, at most one call begins and at most one returns before
the loop ends: if the calls return by themselves (time-outs), the loop ends after one of them. -/
theorem C135_one_more (s s' : St) (hfl : s.flags.terminate = true) (es : List Ev) (hc : .clear .terminate ∉ es) (hr : run s es = some s') :
    es.count .begin ≤ 1 ∧ es.count .finish + es.count .intr ≤ 1 := by
  have key : s'.flags.terminate = true ∧ es.count .begin + beginsLeft s'.pc ≤ beginsLeft s.pc ∧ es.count .finish + es.count .intr + endsLeft s'.pc ≤ endsLeft s.pc := by
    refine run_induct (P := fun s' es => .clear .terminate ∉ es → s'.flags.terminate = true ∧ es.count .begin + beginsLeft s'.pc ≤ beginsLeft s.pc ∧
      es.count .finish + es.count .intr + endsLeft s'.pc ≤ endsLeft s.pc) ?_ ?_ es s' hr hc
    · intro _; exact ⟨hfl, by simp, by simp⟩
    · intro s' es e t _ ih hst hce
      obtain ⟨h1, h2, h3⟩ := ih (fun hm => hce (by simp [hm]))
      simp only [List.count_append, List.count_cons, List.count_nil]
      obtain ⟨_, hc⟩ := step_cases hst
      rcases hc with ⟨m, rfl, rfl⟩ | ⟨m, rfl, hpm, _, rfl⟩ | ⟨f, fs, rfl, hf, hd, rfl⟩ | ⟨f, fs, rfl, hf, hd, rfl⟩ | ⟨how, m, rfl, hf, _, rfl⟩ | ⟨g, rfl, hf, hpc, rfl⟩ |
        ⟨rfl, hf, hpc, rfl⟩ | ⟨rfl, hf, hpc, rfl⟩ | ⟨rfl, hf, hpc, hei, rfl⟩ | ⟨rfl, hf, hpc, hei, rfl⟩
      · exact ⟨h1, h2, h3⟩
      · have e1 : (deliverTo s' m).flags = s'.flags := by unfold deliverTo; split <;> rfl
        have e2 : (deliverTo s' m).pc = s'.pc := by unfold deliverTo; split <;> rfl
        rw [e1, e2]
        exact ⟨h1, h2, h3⟩
      · refine ⟨?_, h2, h3⟩
        dsimp only
        rw [← flag_terminate, handle_flag, flag_terminate, h1]; rfl
      · exact ⟨h1, h2, h3⟩
      · obtain ⟨_, _, e3, _, e5, _⟩ := sigmask_act s' how m
        rw [e3, e5]
        exact ⟨h1, h2, h3⟩
      · refine ⟨?_, h2, h3⟩
        have := clear_flag s'.flags g .terminate (by rintro rfl; exact hce (by simp))
        exact (show (clearFlag s'.flags g).terminate = s'.flags.terminate from this).trans h1
      · refine ⟨h1, ?_, ?_⟩ <;> simp [h1, hpc, beginsLeft, endsLeft] at h2 h3 ⊢ <;> omega
      · refine ⟨h1, ?_, ?_⟩ <;> simp [hpc, beginsLeft, endsLeft] at h2 h3 ⊢ <;> omega
      · refine ⟨h1, ?_, ?_⟩ <;> simp [hpc, beginsLeft, endsLeft] at h2 h3 ⊢ <;> omega
      · refine ⟨h1, ?_, ?_⟩ <;> simp [hpc, beginsLeft, endsLeft] at h2 h3 ⊢ <;> omega
  have hb : beginsLeft s.pc ≤ 1 := by cases s.pc <;> simp [beginsLeft]
  have he : endsLeft s.pc ≤ 1 := by cases s.pc <;> simp [endsLeft]
  omega

/-- A program with coda_signal_init_norestart whose poll is interrupted by SIGTERM. -/
example : chk (run (coda_signal_init_norestart (fresh plain (fun _ => false))) [.test, .begin, .finish, .test, .begin, .raise 15, .deliver 15, .body, .ret, .intr, .test]) (fun s => s.pc == .out) = true := by
  decide +kernel

/-- With coda_signal_init the call goes on: SIGINT or SIGTERM arrives during the call, the flag is set, and from then on, however many signals arrive, the program stays in the call until that
returns by itself. -/
theorem C135_refuted_restart (act : Nat → Act) (mask : Nat → Bool) (n : Nat) (hn : n ∈ Spec.terminate) (hm : mask n = false) :
    ∃ s, run (coda_signal_init (fresh act mask)) [.test, .begin, .raise n, .deliver n, .body, .ret] = some s ∧ s.flags.terminate = true ∧ s.pc = .call ∧
      ∀ es s', OnlyHandled es → .finish ∉ es → run s es = some s' → s'.pc = .call := by
  have hA : ∀ k, Spec.handled k → (coda_signal_init (fresh act mask)).act k = ⟨.coda, true, false, false, fun j => j == k⟩ := by
    intro k hk
    rw [handled_iff] at hk
    exact (foldl_bsd sigList act k).1 hk
  have h1 : ∃ s0, s0 = coda_signal_init (fresh act mask) ∧ s0.mask = mask ∧ s0.gone = false ∧ s0.frames = [] ∧ s0.pc = .check ∧ s0.flags = {} ∧ s0.pend = fun _ => false :=
    ⟨_, rfl, rfl, rfl, rfl, rfl, rfl, rfl⟩
  obtain ⟨s0, hs, hm0, hg0, hf0, hp0, hfl0, hpe0⟩ := h1
  rw [← hs] at hA ⊢
  have hAn := hA n (Or.inl hn)
  have hfl : (coda_signal_handle {} n).terminate = true := by
    rw [← flag_terminate, handle_flag]
    simp [Spec.sigsOf, hn]
  have hnot : ({} : Flags).terminate = false := rfl
  have hrun : ∃ s, run s0 [.test, .begin, .raise n, .deliver n, .body, .ret] = some s ∧ s.flags.terminate = true ∧ s.pc = .call ∧ s.eintr = false ∧ s.act = s0.act ∧
      ∀ k, s.pend k = true → Spec.handled k := by
    simp [run, step, hg0, hm0, hm, deliverTo, hAn, enterHandler, userStep, hf0, hp0, hfl0, hpe0, hfl]
  obtain ⟨s, hr, hfs, hpc, hei, hac, hpe⟩ := hrun
  refine ⟨s, hr, hfs, hpc, ?_⟩
  intro es s' ho hfin hr'
  have key : s'.pc = .call ∧ s'.eintr = false ∧ (∀ k, Spec.handled k → (s'.act k).restart = true) := by
    refine run_induct (P := fun s' es => OnlyHandled es → .finish ∉ es → s'.pc = .call ∧ s'.eintr = false ∧ (∀ k, Spec.handled k → (s'.act k).restart = true)) ?_ ?_ es s' hr' ho hfin
    · intro _ _
      refine ⟨hpc, hei, fun k hk => ?_⟩
      rw [hac, hA k hk]
    · intro s1 es e t hrun ih hst ho hfin
      have ho' : OnlyHandled es := fun n hn => ho n (by simp [hn])
      obtain ⟨i1, i2, i3⟩ := ih ho' (fun hm => hfin (by simp [hm]))
      have hph := pend_handled hpe hrun ho'
      obtain ⟨_, hc⟩ := step_cases hst
      rcases hc with ⟨m, rfl, rfl⟩ | ⟨m, rfl, hpm, _, rfl⟩ | ⟨f, fs, rfl, hf, hd, rfl⟩ | ⟨f, fs, rfl, hf, hd, rfl⟩ | ⟨how, m, rfl, hf, hpc, rfl⟩ | ⟨g, rfl, hf, hpc, rfl⟩ |
        ⟨rfl, hf, hpc, rfl⟩ | ⟨rfl, hf, hpc, rfl⟩ | ⟨rfl, hf, hpc, hei, rfl⟩ | ⟨rfl, hf, hpc, hei, rfl⟩ <;> try exact ⟨i1, i2, i3⟩
      · unfold deliverTo
        split
        · exact ⟨i1, i2, i3⟩
        · exact ⟨i1, i2, i3⟩
        · refine ⟨i1, ?_, fun k hk => ?_⟩
          · simp [enterHandler, i2, i3 m (hph m hpm)]
          · simp only [enterHandler]
            split
            · rename_i hkm; rw [← hkm.1]; exact i3 k hk
            · exact i3 k hk
      · exact absurd i1 hpc
      · rw [hpc] at i1; simp at i1
      · rw [hpc] at i1; simp at i1
      · exact absurd (by simp) hfin
      · rw [hei] at i2; simp at i2
  exact key.1

/-- And with coda_signal_init_norestart there is the time between the test and the call: the signal sets the flag, the call begins, and the program stays in it until it returns by itself or
another signal arrives. -/
theorem C135_refuted_race (act : Nat → Act) (mask : Nat → Bool) (n : Nat) (hn : n ∈ Spec.terminate) (hm : mask n = false) :
    ∃ s, run (coda_signal_init_norestart (fresh act mask)) [.test, .raise n, .deliver n, .body, .ret, .begin] = some s ∧ s.flags.terminate = true ∧ s.pc = .call ∧
      ∀ es s', (∀ k, .raise k ∉ es) → .finish ∉ es → run s es = some s' → s' = s := by
  have hA : (coda_signal_init_norestart (fresh act mask)).act n = { act n with hand := .coda, restart := false } :=
    (foldl_noRestart sigList act n).1 ((handled_iff n).mp (Or.inl hn))
  have h1 : ∃ s0, s0 = coda_signal_init_norestart (fresh act mask) ∧ s0.mask = mask ∧ s0.gone = false ∧ s0.frames = [] ∧ s0.pc = .check ∧ s0.flags = {} ∧ s0.pend = fun _ => false :=
    ⟨_, rfl, rfl, rfl, rfl, rfl, rfl, rfl⟩
  obtain ⟨s0, hs, hm0, hg0, hf0, hp0, hfl0, hpe0⟩ := h1
  rw [← hs] at hA ⊢
  have hfl : (coda_signal_handle {} n).terminate = true := by
    rw [← flag_terminate, handle_flag]
    simp [Spec.sigsOf, hn]
  have hrun : ∃ s, run s0 [.test, .raise n, .deliver n, .body, .ret, .begin] = some s ∧ s.flags.terminate = true ∧ s.pc = .call ∧ s.eintr = false ∧ s.frames = [] ∧
      ∀ k, s.pend k = false := by
    simp [run, step, hg0, hm0, hm, deliverTo, hA, enterHandler, userStep, hf0, hp0, hfl0, hpe0, hfl]
  obtain ⟨s, hr, hfs, hpc, hei, hfr, hpe⟩ := hrun
  refine ⟨s, hr, hfs, hpc, ?_⟩
  intro es s' ho hfin hr'
  refine run_induct (P := fun s' es => (∀ k, .raise k ∉ es) → .finish ∉ es → s' = s) (fun _ _ => rfl) ?_ es s' hr' ho hfin
  intro s1 es e t hrun ih hst ho hfin
  have := ih (fun k hk => ho k (by simp [hk])) (fun hm => hfin (by simp [hm]))
  subst this
  obtain ⟨_, hc⟩ := step_cases hst
  rcases hc with ⟨m, rfl, rfl⟩ | ⟨m, rfl, hpm, _, rfl⟩ | ⟨f, fs, rfl, hf, hd, rfl⟩ | ⟨f, fs, rfl, hf, hd, rfl⟩ | ⟨how, m, rfl, hf, hpc', rfl⟩ | ⟨g, rfl, hf, hpc', rfl⟩ |
    ⟨rfl, hf, hpc', rfl⟩ | ⟨rfl, hf, hpc', rfl⟩ | ⟨rfl, hf, hpc', hei', rfl⟩ | ⟨rfl, hf, hpc', hei', rfl⟩
  · exact absurd (by simp) (ho m)
  · rw [hpe] at hpm; simp at hpm
  · rw [hfr] at hf; simp at hf
  · rw [hfr] at hf; simp at hf
  · exact absurd hpc hpc'
  · exact absurd hpc hpc'
  · rw [hpc] at hpc'; simp at hpc'
  · rw [hpc] at hpc'; simp at hpc'
  · exact absurd (by simp) hfin
  · rw [hei] at hei'; simp at hei'

end Verif.SigProc
