/-
  Lemmas for C146: a process that has flushed and now reads is like a new reader.
-/
import Verif.QueueKill.PhaseSpec
import Verif.QueueKill.Lemmas

set_option linter.unusedSimpArgs false
set_option linter.unusedVariables false

namespace Verif.QueueKill

open ShmQueue (Box Proc Mode boxOf Codec accepted delivered flushed)
open QueueMsg (World WInv RInv readAll upd inF inU upd_same upd_other)
open Spec (Phase)

variable {M : Type} {size bs K : Nat} {ser : M → List UInt8} {des : List UInt8 → Option M}

/-- The world without what process `i` has sent. -/
def hide (i : Nat) (w : World M) : World M := { w with sent := upd w.sent i [] }

/-- A label of a writer, of a reader. -/
def isW : QueueMsg.Label M → Bool
  | .put _ _ | .flush _ => true
  | _ => false

theorem role_w {a : QueueMsg.Label M} {i : Nat} (h : a.who = i → isW a = true ∨ ∃ j, a = .adv j) :
    QueueMsg.Spec.inRole (fun k => if k = i then true else isW a) a = true := by
  cases a with
  | adv j => rfl
  | put j m => simp [QueueMsg.Spec.inRole, isW]
  | flush j => simp [QueueMsg.Spec.inRole, isW]
  | unflush j | timeout j | get j =>
    by_cases hj : j = i
    · rcases h hj with h | ⟨k, h⟩
      · simp [isW] at h
      · cases h
    · simp [QueueMsg.Spec.inRole, hj, isW]

theorem role_r {a : QueueMsg.Label M} {i : Nat} (h : a.who = i → isW a = false) :
    QueueMsg.Spec.inRole (fun k => if k = i then false else isW a) a = true := by
  cases a with
  | adv j => rfl
  | unflush j => simp [QueueMsg.Spec.inRole, isW]
  | timeout j => simp [QueueMsg.Spec.inRole, isW]
  | get j => simp [QueueMsg.Spec.inRole, isW]
  | put j m | flush j =>
    by_cases hj : j = i
    · have := h hj
      simp [isW] at this
    · simp [QueueMsg.Spec.inRole, hj, isW]

theorem upd_comm {α : Type} (f : Nat → α) {i j : Nat} (x y : α) (h : i ≠ j) : upd (upd f i x) j y = upd (upd f j y) i x := by
  funext k
  unfold upd
  split <;> split <;> first | rfl | (subst_vars; exact absurd rfl h)

/-- A step that is not a write of process `i` does not look at what it has sent. -/
theorem hide_step {w w' : World M} {a : QueueMsg.Label M} {i : Nat} (h : a.who = i → isW a = false ∧ ∀ p, w.q.procs[i]? = some p → p.mode ≠ .f6)
    (e : QueueMsg.step size bs K ser des w a = some w') : QueueMsg.step size bs K ser des (hide i w) a = some (hide i w') := by
  have hfl : ∀ {j : Nat} {o : Option M}, QueueMsg.callFlush size bs w j o = some w' → QueueMsg.callFlush size bs (hide i w) j o = some (hide i w') := by
    intro j o e
    unfold QueueMsg.callFlush at e ⊢
    simp only [hide] at e ⊢
    cases hq : ShmQueue.step size bs w.q (.flush j (w.loc j).box.buf) with
    | none => rw [hq] at e; cases e
    | some q => rw [hq] at e; simp only at e ⊢; rw [← Option.some.inj e]
  cases a with
  | put j m =>
    have hj : i ≠ j := fun x => by have := (h x.symm).1; simp [isW] at this
    simp only [QueueMsg.step, QueueMsg.callPut] at e ⊢
    have hi : QueueMsg.idle (hide i w) j = QueueMsg.idle w j := rfl
    rw [hi]
    have hb : (hide i w).loc = w.loc := rfl
    rw [hb]
    cases hp : Box.put K ser (w.loc j).box m with
    | none => rw [hp] at e; exact hfl e
    | some b =>
      rw [hp] at e
      simp only at e ⊢
      by_cases hid : QueueMsg.idle w j = true
      · rw [if_pos hid] at e ⊢
        rw [← Option.some.inj e]
        simp only [hide, upd_other _ _ (Ne.symm hj), upd_comm _ _ _ hj]
      · rw [if_neg hid] at e; cases e
  | flush j => exact hfl e
  | unflush j =>
    simp only [QueueMsg.step, hide] at e ⊢
    cases hq : ShmQueue.step size bs w.q (.unflush j) with
    | none => rw [hq] at e; cases e
    | some q => rw [hq] at e; simp only at e ⊢; rw [← Option.some.inj e]
  | timeout j =>
    simp only [QueueMsg.step, hide] at e ⊢
    cases hq : ShmQueue.step size bs w.q (.timeout j) with
    | none => rw [hq] at e; cases e
    | some q => rw [hq] at e; simp only at e ⊢; rw [← Option.some.inj e]
  | get j =>
    simp only [QueueMsg.step] at e ⊢
    have hi : QueueMsg.idle (hide i w) j = QueueMsg.idle w j := rfl
    rw [hi]
    by_cases hid : QueueMsg.idle w j = true
    · rw [if_pos hid] at e ⊢
      have hb : (hide i w).loc = w.loc := rfl
      rw [hb]
      cases hp : Box.get K des (w.loc j).box with
      | none => rw [hp] at e; simp only at e ⊢; rw [← Option.some.inj e]
      | some x => rw [hp] at e; simp only at e ⊢; rw [← Option.some.inj e]; rfl
    · rw [if_neg hid] at e; cases e
  | adv j =>
    simp only [QueueMsg.step] at e ⊢
    have hq0 : (hide i w).q = w.q := rfl
    rw [hq0]
    cases hp : w.q.procs[j]? with
    | none => rw [hp] at e; cases e
    | some p =>
      rw [hp] at e
      simp only at e ⊢
      cases hq : ShmQueue.step size bs w.q (.adv j) with
      | none => rw [hq] at e; cases e
      | some q =>
        rw [hq] at e
        simp only at e ⊢
        rw [← Option.some.inj e]
        congr 1
        unfold QueueMsg.after
        by_cases h6 : p.mode = .f6
        · rw [if_pos h6, if_pos h6]
          have hj : i ≠ j := by
            intro x
            subst x
            exact (h rfl).2 p hp h6
          unfold QueueMsg.endFlush
          simp only [hide]
          split
          · rfl
          · split
            · simp only [upd_other _ _ (Ne.symm hj), upd_comm _ _ _ hj]
            · rfl
        · rw [if_neg h6, if_neg h6]
          split <;> rfl

/-- The box of a process that has flushed is empty. -/
def Clean (bs : Nat) (w : World M) (i : Nat) : Prop :=
  ∀ p, w.q.procs[i]? = some p → (p.mode = .idle → (w.loc i).box = Box.clear bs) ∧ (inF p.mode = true → (w.loc i).pend = none)

theorem clean_flush {w w' : World M} {i : Nat} (e : QueueMsg.step size bs K ser des w (.flush i) = some w') : Clean bs w' i := by
  simp only [QueueMsg.step] at e
  obtain ⟨q, hq, rfl⟩ := QueueMsg.callFlush_some e
  obtain ⟨_, p, hp, hm⟩ := QueueMsg.flush_mode hq
  intro p' hp'
  have hpp : p' = p := Option.some.inj (hp'.symm.trans hp)
  subst hpp
  refine ⟨fun hi => ?_, fun _ => ?_⟩
  · rw [hi] at hm; simp [inF] at hm
  · show (upd w.loc i _ i).pend = none
    rw [upd_same]

theorem clean_adv {w w' : World M} {i : Nat} (h : Clean bs w i) (hw : ∀ p, w.q.procs[i]? = some p → p.mode = .idle ∨ inF p.mode = true)
    (e : QueueMsg.step size bs K ser des w (.adv i) = some w') : Clean bs w' i := by
  simp only [QueueMsg.step] at e
  split at e
  · rename_i p hp
    split at e
    · rename_i q hq
      obtain ⟨p', hp', m1, m2, m3, m4, m5⟩ := QueueMsg.adv_mode hp hq
      have hF : inF p.mode = true := (hw p hp).resolve_left m5
      have hpe := (h p hp).2 hF
      rw [← Option.some.inj e]
      intro x hx
      rw [QueueMsg.after_q] at hx
      have hxx : x = p' := Option.some.inj (hx.symm.trans hp')
      subst hxx
      unfold QueueMsg.after
      by_cases h6 : p.mode = .f6
      · rw [if_pos h6]
        unfold QueueMsg.endFlush
        simp only [hpe, upd_same]
        exact ⟨fun _ => trivial, fun _ => trivial⟩
      · have hu : ¬ p.mode = .u6 := by intro hu; rw [hu] at hF; simp [inF] at hF
        rw [if_neg h6, if_neg hu]
        refine ⟨fun hi => ?_, fun _ => hpe⟩
        have := m3 hF h6
        rw [hi] at this
        simp [inF] at this
    · cases e
  · cases e

/-- What is known of a process; `F` are the boxes it flushed, `D` those that were delivered to anybody. -/
def PK (K bs : Nat) (ser : M → List UInt8) (des : List UInt8 → Option M) (ph : Phase) (w : World M) (i : Nat) (F : List (List UInt8)) (D : List (Nat × List UInt8)) : Prop :=
  match ph with
  | .clean => WK K bs ser w i F ∧ ShmQueue.mine i D = [] ∧ Clean bs w i
  | .dirty => WK K bs ser w i F ∧ ShmQueue.mine i D = []
  | .reads => RK K bs des (hide i w) i D ∧ ∃ (bl : List (List M)) (r : List M), F = bl.map (boxOf bs ser) ∧ (∀ ms ∈ bl, ms.length * K ≤ bs) ∧ w.sent i = bl.flatten ++ r

theorem PK.view {ph : Phase} {w : World M} {i : Nat} {F : List (List UInt8)} {D : List (Nat × List UInt8)} (h : PK K bs ser des ph w i F D) :
    (∃ (bl : List (List M)) (r : List M), F = bl.map (boxOf bs ser) ∧ (∀ ms ∈ bl, ms.length * K ≤ bs) ∧ w.sent i = bl.flatten ++ r) ∧
      ∃ P : List (List UInt8 × Nat), ShmQueue.mine i D = P.map Prod.fst ∧ w.got i = readAll K des P := by
  cases ph with
  | clean => exact ⟨h.1.view.2, [], h.2.1, h.1.view.1⟩
  | dirty => exact ⟨h.1.view.2, [], h.2, h.1.view.1⟩
  | reads =>
    obtain ⟨bl, r, h2⟩ := h.2
    exact ⟨⟨bl, r, h2⟩, h.1.view.2⟩

theorem hide_other {w : World M} {i j : Nat} (h : j ≠ i) : (hide i w).sent j = w.sent j := upd_other _ _ h

/-- A kill, seen without what a process sent. -/
theorem hide_kill {w w' : World M} {i k : Nat} (e : step size bs K ser des w (.kill k) = some w') : step size bs K ser des (hide i w) (.kill k) = some (hide i w') := by
  simp only [step, hide] at e ⊢
  split at e
  · rw [← Option.some.inj e]
  · cases e

theorem wk_modes {w : World M} {i : Nat} {F : List (List UInt8)} (h : WK K bs ser w i F) : ∀ p, w.q.procs[i]? = some p → p.mode = .idle ∨ inF p.mode = true ∨ p.mode = .dead := by
  intro p hp
  rcases h with ⟨_, _, _, _, hcase⟩ | ⟨⟨x, hx, hm⟩, _⟩
  · rcases hcase with ⟨x, hx, hm, _⟩ | ⟨hi, _⟩
    · rw [hp] at hx; rw [Option.some.inj hx]; exact .inr (.inl hm)
    · exact .inl (hi p hp)
  · rw [hp] at hx; rw [Option.some.inj hx]; exact .inr (.inr hm)

theorem rk_modes {w : World M} {i : Nat} {D : List (Nat × List UInt8)} (h : RK K bs des w i D) : ∀ p, w.q.procs[i]? = some p → p.mode ≠ .f6 := by
  intro p hp h6
  rcases h with ⟨_, hm, _⟩ | ⟨⟨x, hx, hm⟩, _⟩
  · rcases hm p hp with h | h
    · rw [h6] at h; cases h
    · rw [h6] at h; simp [inU] at h
  · rw [hp] at hx; rw [← Option.some.inj hx, h6] at hm; cases hm

/-- A process that has flushed begins to read: it is like a reader that has just connected. -/
theorem start_read {w : World M} {i : Nat} {F : List (List UInt8)} {D : List (Nat × List UInt8)} (h : PK K bs ser des .clean w i F D) (hi : ∀ p, w.q.procs[i]? = some p → p.mode = .idle)
    (hs : (w.q.procs[i]?).isSome = true) : PK K bs ser des .reads w i F D := by
  obtain ⟨hw, hD, hc⟩ := h
  obtain ⟨hg, bl, r, hF, hf, hsent⟩ := hw.view
  refine ⟨.inl ⟨upd_same _ _ _, fun p hp => .inl (hi p hp), [], hD, hg, .inl ⟨rfl, ?_⟩⟩, bl, r, hF, hf, hsent⟩
  cases hp : w.q.procs[i]? with
  | none => rw [hp] at hs; cases hs
  | some p => exact (hc p hp).1 (hi p hp)

/-- A step of a process that reads. -/
theorem reads_step (hz : ∀ n, des (List.replicate n 0) = none) {w w' : World M} {a : Label M} {i : Nat} {F : List (List UInt8)} {D : List (Nat × List UInt8)}
    (h : PK K bs ser des .reads w i F D) (ha : ∀ b, a = .lab b → b.who = i → isW b = false) (e : step size bs K ser des w a = some w') :
    PK K bs ser des .reads w' i (F ++ flushed i (proj K ser w a)) (D ++ delivered size bs w.q (proj K ser w a)) := by
  obtain ⟨hr, bl, r, hF, hf, hsent⟩ := h
  cases a with
  | lab b =>
    have e' : step size bs K ser des (hide i w) (.lab b) = some (hide i w') := hide_step (fun hb => ⟨ha b rfl hb, rk_modes (w := hide i w) hr⟩) e
    have hrole := role_r (ha b rfl)
    have hpr : proj K ser (hide i w) (.lab b) = proj K ser w (.lab b) := by cases b <;> rfl
    have := rk_step (writes := fun k => if k = i then false else isW b) hz (by simp) (a := .lab b) hrole hr e'
    rw [hpr] at this
    refine ⟨this.1, bl, r, ?_, hf, ?_⟩
    · rw [this.2, List.append_nil]; exact hF
    · rw [← hsent]
      by_cases hb : i = b.who
      · have hl := ha b rfl hb.symm
        have e : QueueMsg.step size bs K ser des w b = some w' := e
        cases b with
        | put j m => simp [isW] at hl
        | flush j => simp [isW] at hl
        | unflush j =>
          simp only [QueueMsg.step] at e
          split at e <;> first | (rw [← Option.some.inj e]; done) | cases e
        | timeout j =>
          simp only [QueueMsg.step] at e
          split at e <;> first | (rw [← Option.some.inj e]; done) | cases e
        | get j =>
          simp only [QueueMsg.step] at e
          repeat' split at e
          all_goals first | (rw [← Option.some.inj e]; done) | cases e
        | adv j =>
          have hb : i = j := hb
          subst hb
          simp only [QueueMsg.step] at e
          split at e
          · rename_i p hp
            have h6 := rk_modes (w := hide i w) hr p hp
            split at e
            · rw [← Option.some.inj e]
              unfold QueueMsg.after
              rw [if_neg h6]
              split <;> rfl
            · cases e
          · cases e
      · exact (QueueMsg.frame e hb).2.2.1
  | kill k =>
    have e' := hide_kill (i := i) e
    have := rk_step (writes := fun _ => false) hz rfl (a := .kill k) rfl hr e'
    have hpr : proj K ser (hide i w) (.kill k) = proj K ser w (.kill k) := rfl
    rw [hpr] at this
    refine ⟨this.1, bl, r, by rw [this.2, List.append_nil]; exact hF, hf, ?_⟩
    rw [(kill_some e).2.2.1]
    exact hsent

/-- A step of a process that writes. -/
theorem writes_step (hl : ∀ m, (ser m).length = K) {w w' : World M} {a : Label M} {i : Nat} {F : List (List UInt8)} {D : List (Nat × List UInt8)}
    (h : WK K bs ser w i F) (hD : ShmQueue.mine i D = []) (ha : ∀ b, a = .lab b → b.who = i → isW b = true ∨ ∃ j, b = .adv j) (e : step size bs K ser des w a = some w') :
    WK K bs ser w' i (F ++ flushed i (proj K ser w a)) ∧ ShmQueue.mine i (D ++ delivered size bs w.q (proj K ser w a)) = [] := by
  have key : ∃ writes : Nat → Bool, writes i = true ∧ Spec.inRole writes a = true := by
    cases a with
    | lab b => exact ⟨fun k => if k = i then true else isW b, by simp, role_w (ha b rfl)⟩
    | kill k => exact ⟨fun _ => true, rfl, rfl⟩
  obtain ⟨writes, h1, h2⟩ := key
  obtain ⟨g1, g2⟩ := wk_step hl h1 h2 h e
  exact ⟨g1, by rw [ShmQueue.mine_append, hD, g2]; rfl⟩

theorem clean_frame {w w' : World M} {i : Nat} (h : Clean bs w i) (h1 : w'.q.procs[i]? = w.q.procs[i]?) (h2 : w'.loc i = w.loc i) : Clean bs w' i := by
  intro p hp
  rw [h1] at hp
  rw [h2]
  exact h p hp

/-- The phase stays, and the process does not begin to do something else. -/
theorem clean_step {w w' : World M} {a : Label M} {i : Nat} {F : List (List UInt8)} (hw : WK K bs ser w i F) (h : Clean bs w i) (hn : ∀ b, a = .lab b → b.who = i → ∃ j, b = .adv j)
    (e : step size bs K ser des w a = some w') : Clean bs w' i := by
  cases a with
  | lab b =>
    by_cases hb : i = b.who
    · obtain ⟨j, hj⟩ := hn b rfl hb.symm
      subst hj
      have hb : i = j := hb
      subst hb
      refine clean_adv (size := size) (K := K) (ser := ser) (des := des) h ?_ e
      intro p hp
      rcases wk_modes hw p hp with h | h | h
      · exact .inl h
      · exact .inr h
      · have := dead_step (size := size) (bs := bs) (K := K) (ser := ser) (des := des) (w := w) (a := QueueMsg.Label.adv i) ⟨p, hp, h⟩
        rw [show step size bs K ser des w (.lab (.adv i)) = QueueMsg.step size bs K ser des w (.adv i) from rfl, this] at e
        cases e
    · obtain ⟨f1, f2, _⟩ := QueueMsg.frame e hb
      exact clean_frame h f1 f2
  | kill k =>
    obtain ⟨g1, g2, g3, g4, g5, g6⟩ := kill_some e
    by_cases hk : i = k
    · subst hk
      obtain ⟨p, hp, hm⟩ := g1
      intro x hx
      rw [Option.some.inj (hx.symm.trans hp)]
      refine ⟨fun h => ?_, fun h => ?_⟩
      · rw [hm] at h; cases h
      · rw [hm] at h; simp [inF] at h
    · exact clean_frame h (g5 i hk) (by rw [g2])

/-- The beginning of the reading phase, in the middle of a step. -/
theorem first_read (hz : ∀ n, des (List.replicate n 0) = none) {w w' : World M} {b : QueueMsg.Label M} {i : Nat} {F : List (List UInt8)} {D : List (Nat × List UInt8)}
    (h : PK K bs ser des .clean w i F D) (hb : b.who = i) (hl : isW b = false) (hn : ∀ j, b ≠ .adv j) (e : step size bs K ser des w (.lab b) = some w') :
    PK K bs ser des .reads w' i (F ++ flushed i (proj K ser w (.lab b))) (D ++ delivered size bs w.q (proj K ser w (.lab b))) := by
  have hid : ∃ p, w.q.procs[i]? = some p ∧ p.mode = .idle := by
    have e : QueueMsg.step size bs K ser des w b = some w' := e
    cases b with
    | put j m => simp [isW] at hl
    | flush j => simp [isW] at hl
    | unflush j =>
      have hb : j = i := hb
      subst hb
      simp only [QueueMsg.step, ShmQueue.step] at e
      split at e
      · rename_i q hq
        split at hq
        · rename_i p hp
          split at hq
          · exact ⟨p, hp, ‹_›⟩
          · cases hq
        · cases hq
      · cases e
    | timeout j =>
      have hb : j = i := hb
      subst hb
      simp only [QueueMsg.step, ShmQueue.step] at e
      split at e
      · rename_i q hq
        split at hq
        · rename_i p hp
          split at hq
          · rename_i hu
            rcases wk_modes h.1 p hp with h | h | h <;> rw [hu] at h <;> simp [inF] at h
          · cases hq
        · cases hq
      · cases e
    | get j =>
      have hb : j = i := hb
      subst hb
      simp only [QueueMsg.step] at e
      split at e
      · exact QueueMsg.idle_proc ‹_›
      · cases e
    | adv j => exact absurd rfl (hn j)
  obtain ⟨p, hp, hm⟩ := hid
  refine reads_step hz (start_read h ?_ (by rw [hp]; rfl)) ?_ e
  · intro x hx
    rw [← Option.some.inj (hp.symm.trans hx)]
    exact hm
  · intro c hc _
    cases hc
    exact hl

theorem next_other {ph ph' : Phase} {i : Nat} {b : QueueMsg.Label M} (hb : b.who ≠ i) (h : Spec.next ph i (.lab b) = some ph') : ph' = ph := by
  cases b <;> simp only [QueueMsg.Label.who] at hb <;> simp [Spec.next, hb] at h <;> exact h.symm

theorem pk_step (hl : ∀ m, (ser m).length = K) (hz : ∀ n, des (List.replicate n 0) = none) {ph ph' : Phase} {w w' : World M} {a : Label M} {i : Nat} {F : List (List UInt8)} {D : List (Nat × List UInt8)}
    (h : PK K bs ser des ph w i F D) (hn : Spec.next ph i a = some ph') (e : step size bs K ser des w a = some w') :
    PK K bs ser des ph' w' i (F ++ flushed i (proj K ser w a)) (D ++ delivered size bs w.q (proj K ser w a)) := by
  -- the phase does not change, or it is a call of the process itself
  have same : (∀ b, a = .lab b → b.who = i → ∃ j, b = .adv j) → ph' = ph → PK K bs ser des ph' w' i (F ++ flushed i (proj K ser w a)) (D ++ delivered size bs w.q (proj K ser w a)) := by
    intro ho hp
    subst hp
    cases ph' with
    | clean =>
      have := writes_step hl h.1 h.2.1 (fun b hb hw => .inr (ho b hb hw)) e
      exact ⟨this.1, this.2, clean_step h.1 h.2.2 ho e⟩
    | dirty => exact writes_step hl h.1 h.2 (fun b hb hw => .inr (ho b hb hw)) e
    | reads => exact reads_step hz h (fun b hb hw => by obtain ⟨j, rfl⟩ := ho b hb hw; rfl) e
  cases a with
  | kill k => exact same (fun b hb => by cases hb) (by simpa [Spec.next] using hn.symm)
  | lab b =>
    by_cases hb : b.who = i
    · cases b with
      | adv j => exact same (fun c hc _ => by cases hc; exact ⟨j, rfl⟩) (by simpa [Spec.next] using hn.symm)
      | put j m =>
        have hb : j = i := hb
        subst hb
        cases ph with
        | reads => simp [Spec.next] at hn
        | clean =>
          simp [Spec.next] at hn
          subst hn
          exact writes_step hl h.1 h.2.1 (fun b hb _ => by cases hb; exact .inl rfl) e
        | dirty =>
          simp [Spec.next] at hn
          subst hn
          exact writes_step hl h.1 h.2 (fun b hb _ => by cases hb; exact .inl rfl) e
      | flush j =>
        have hb : j = i := hb
        subst hb
        cases ph with
        | reads => simp [Spec.next] at hn
        | clean =>
          simp [Spec.next] at hn
          subst hn
          have := writes_step hl h.1 h.2.1 (fun b hb _ => by cases hb; exact .inl rfl) e
          exact ⟨this.1, this.2, clean_flush (size := size) (K := K) (ser := ser) (des := des) e⟩
        | dirty =>
          simp [Spec.next] at hn
          subst hn
          have := writes_step hl h.1 h.2 (fun b hb _ => by cases hb; exact .inl rfl) e
          exact ⟨this.1, this.2, clean_flush (size := size) (K := K) (ser := ser) (des := des) e⟩
      | unflush j | timeout j | get j =>
        have hj : j = i := hb
        subst hj
        cases ph with
        | dirty => simp [Spec.next] at hn
        | clean =>
          simp [Spec.next] at hn
          subst hn
          exact first_read hz h rfl rfl (fun k => by simp) e
        | reads =>
          simp [Spec.next] at hn
          subst hn
          exact reads_step hz h (fun b hb _ => by cases hb; rfl) e
    · exact same (fun c hc hw => by cases hc; exact absurd hw hb) (next_other hb hn)

theorem pk_exec (hl : ∀ m, (ser m).length = K) (hz : ∀ n, des (List.replicate n 0) = none) {i : Nat} : ∀ (as : List (Label M)) (ph : Phase) (w w' : World M) (F : List (List UInt8))
    (D : List (Nat × List UInt8)), PK K bs ser des ph w i F D → (Spec.nexts ph i as).isSome = true → exec size bs K ser des w as = some w' →
      ∃ ph', PK K bs ser des ph' w' i (F ++ flushed i (projs size bs K ser des w as)) (D ++ delivered size bs w.q (projs size bs K ser des w as))
  | [], ph, w, w', F, D, h, _, e => by rw [← Option.some.inj e]; exact ⟨ph, by simpa [projs, flushed, delivered] using h⟩
  | a :: as, ph, w, w', F, D, h, hn, e => by
    simp only [exec] at e
    simp only [Spec.nexts] at hn
    cases hst : step size bs K ser des w a with
    | none => rw [hst] at e; exact absurd e (by simp)
    | some t =>
      rw [hst] at e
      cases hnx : Spec.next ph i a with
      | none => rw [hnx] at hn; cases hn
      | some ph1 =>
        rw [hnx] at hn
        have hs := pk_step hl hz h hnx hst
        obtain ⟨ph', hr⟩ := pk_exec hl hz as ph1 t w' _ _ hs hn e
        refine ⟨ph', ?_⟩
        simp only [projs, hst, QueueMsg.flushed_append]
        rw [(QueueMsg.accepted_append (proj K ser w a) _ w.q t.q (proj_step hst)).2, ← List.append_assoc, ← List.append_assoc]
        exact hr

end Verif.QueueKill
