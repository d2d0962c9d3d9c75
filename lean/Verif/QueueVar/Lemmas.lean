/-
  Lemmas for C155.
-/
import Verif.QueueVar.Spec
import Verif.VarBox.Props
import Verif.QueueMsg.Props
import Verif.QueueKill.Lemmas

set_option linter.unusedSimpArgs false
set_option linter.unusedVariables false

namespace Verif.QueueVar

open ShmQueue (Proc Mode accepted delivered flushed SafeRun)
open VarBox (Box Class flat boxOf)
open QueueMsg (inF inU)
open Spec

variable {M : Type} {dr : Prop} {size bs lo : Nat} {T : Class M} {ok : M → Prop}

/-! ### boxes -/

/-- The box with the messages `ms`. -/
def full (T : Class M) (bs : Nat) (ms : List M) : Box := ⟨boxOf T bs ms, (flat T ms).length⟩

theorem clear_eq : Box.clear bs = full T bs [] := by simp [full, Box.clear, boxOf, flat]

theorem put_cases (hc : Contract T lo ok) {cur : List M} {m : M} (hm : ok m) (hf : (flat T cur).length ≤ bs) :
    (Box.put T (full T bs cur) m = .ok (some (full T bs (cur ++ [m]))) ∧ (flat T (cur ++ [m])).length ≤ bs) ∨ Box.put T (full T bs cur) m = .ok none := by
  have hb := VarBox.boxOf_len (bs := bs) (T := T) hf
  have hl := hc.len m hm
  by_cases h : (flat T (cur ++ [m])).length ≤ bs
  · refine .inl ⟨?_, h⟩
    rw [VarBox.flat_snoc, List.length_append] at h
    unfold Box.put Box.is_space_for full
    simp only [hb]
    rw [if_pos (by simp only [decide_eq_true_eq]; omega), if_pos (by omega)]
    have h1 : (boxOf T bs cur).take (flat T cur).length = flat T cur := by
      unfold boxOf
      rw [List.take_left]
    have h2 : (boxOf T bs cur).drop ((flat T cur).length + (T.ser m).length) = List.replicate (bs - ((flat T cur).length + (T.ser m).length)) 0 := by
      unfold boxOf
      rw [List.drop_append, List.drop_of_length_le (by omega), List.nil_append, List.drop_replicate]
      congr 1; omega
    rw [h1, h2]
    unfold boxOf
    rw [VarBox.flat_snoc, List.length_append, hl]
  · right
    rw [VarBox.flat_snoc, List.length_append, hl] at h
    unfold Box.put Box.is_space_for full
    simp only [hb]
    rw [if_neg (by simp only [decide_eq_true_eq]; omega)]

theorem flat_count (hc : Contract T lo ok) (ms : List M) (h : ∀ m ∈ ms, ok m) : ms.length ≤ (flat T ms).length := by
  induction ms with
  | nil => simp
  | cons m ms ih =>
    have hm := h m List.mem_cons_self
    have := hc.low m hm
    have := hc.pos
    have ih := ih (fun x hx => h x (List.mem_cons_of_mem _ hx))
    simp only [flat, List.flatMap_cons, List.length_append, hc.len m hm, List.length_cons] at ih ⊢
    omega

/-- `ts` can be read from the bytes `cb`, and the next place is then `pos`. -/
inductive Reach (T : Class M) (lo : Nat) (cb : List UInt8) : List M → Nat → Prop
  | nil : Reach T lo cb [] 0
  | snoc {ts : List M} {pos : Nat} {m : M} : Reach T lo cb ts pos → pos + lo ≤ cb.length → T.des (cb.drop pos) = .ok (some m) → Reach T lo cb (ts ++ [m]) (pos + T.size m)

theorem drop_box {ms ts rest : List M} (e : ms = ts ++ rest) :
    (boxOf T bs ms).drop (flat T ts).length = flat T rest ++ List.replicate (bs - (flat T ms).length) 0 := by
  subst e
  unfold boxOf
  rw [show flat T (ts ++ rest) = flat T ts ++ flat T rest by simp [flat], List.append_assoc, List.drop_left]

theorem reach_box (hc : Contract T lo ok) {ms ts : List M} {pos : Nat} (ho : ∀ m ∈ ms, ok m) (hf : (flat T ms).length ≤ bs) (h : Reach T lo (boxOf T bs ms) ts pos) :
    ts <+: ms ∧ pos = (flat T ts).length := by
  induction h with
  | nil => exact ⟨List.nil_prefix, by simp [flat]⟩
  | @snoc ts pos m _ hsp hd ih =>
    obtain ⟨⟨rest, hr⟩, rfl⟩ := ih
    rw [drop_box hr.symm] at hd
    cases rest with
    | nil =>
      rw [List.append_nil] at hr
      subst hr
      rw [VarBox.boxOf_len hf] at hsp
      have := hc.zeros (bs - (flat T ts).length) (by omega)
      rw [show flat T ([] : List M) = [] from rfl, List.nil_append, this] at hd
      exact absurd hd (by simp)
    | cons x rest =>
      have hx : ok x := ho x (by rw [← hr]; simp)
      rw [show flat T (x :: rest) = T.ser x ++ flat T rest by simp [flat], List.append_assoc, hc.back x _ hx] at hd
      have : x = m := Option.some.inj (Res.ok.inj hd)
      subst this
      refine ⟨⟨rest, by simp [← hr]⟩, ?_⟩
      rw [VarBox.flat_snoc, List.length_append, hc.len x hx]

/-- `get` with an object of at least the least size, on a box from which messages were read. -/
theorem get_box (hc : Contract T lo ok) {ms ts rest : List M} (h : M) (hh : lo ≤ T.size h) (ho : ∀ m ∈ ms, ok m) (hf : (flat T ms).length ≤ bs) (e : ms = ts ++ rest) :
    Box.get T ⟨boxOf T bs ms, (flat T ts).length⟩ h ≠ .ub ∧
      (T.size h = lo → Box.get T ⟨boxOf T bs ms, (flat T ts).length⟩ h = .ok none → rest = []) := by
  unfold Box.get Box.is_space_for
  simp only [VarBox.boxOf_len hf]
  have hl : (flat T ms).length = (flat T ts).length + (flat T rest).length := by rw [e]; simp [flat]
  by_cases hs : (flat T ts).length + T.size h ≤ bs
  · rw [if_pos (decide_eq_true hs), drop_box e]
    cases rest with
    | nil =>
      have : T.des (flat T ([] : List M) ++ List.replicate (bs - (flat T ms).length) 0) = .ok none := by
        rw [show flat T ([] : List M) = [] from rfl, List.nil_append]
        refine hc.zeros _ ?_
        have h0 : (flat T ([] : List M)).length = 0 := rfl
        omega
      rw [this]
      exact ⟨by simp [Res.map], fun _ _ => rfl⟩
    | cons x rest =>
      rw [show flat T (x :: rest) = T.ser x ++ flat T rest by simp [flat], List.append_assoc, hc.back x _ (ho x (by rw [e]; simp))]
      exact ⟨by simp [Res.map], fun _ hn => by simp [Res.map] at hn⟩
  · rw [if_neg (by simpa using hs)]
    refine ⟨by simp, fun hlo _ => ?_⟩
    cases rest with
    | nil => rfl
    | cons x rest =>
      have hx : ok x := ho x (by rw [e]; simp)
      have h1 := hc.low x hx
      have h2 : (flat T (x :: rest)).length = T.size x + (flat T rest).length := by simp [flat, hc.len x hx]
      omega

theorem get_some {b b' : Box} {h m : M} (e : Box.get T b h = .ok (some (m, b'))) : b.pos + T.size h ≤ b.buf.length ∧ T.des (b.buf.drop b.pos) = .ok (some m) ∧ b' = ⟨b.buf, b.pos + T.size m⟩ := by
  unfold Box.get Box.is_space_for at e
  split at e
  · rename_i hs
    cases hd : T.des (b.buf.drop b.pos) with
    | ub => rw [hd] at e; simp [Res.map] at e
    | ok o =>
      rw [hd] at e
      cases o with
      | none => simp [Res.map] at e
      | some m' =>
        simp only [Res.map, Res.ok.injEq, Option.some.injEq, Prod.mk.injEq] at e
        obtain ⟨rfl, rfl⟩ := e
        exact ⟨of_decide_eq_true hs, rfl, rfl⟩
  · simp at e

theorem get_clear (hc : Contract T lo ok) {h : M} (hh : lo ≤ T.size h) : Box.get T (Box.clear bs) h = .ok none := by
  unfold Box.get Box.is_space_for Box.clear
  simp only [List.length_replicate, Nat.zero_add, List.drop_zero]
  split
  · rename_i hs
    rw [hc.zeros bs (by have := of_decide_eq_true hs; omega)]
    rfl
  · rfl

/-! ### steps -/

/-- The steps of the ring that a step of the system makes. -/
def proj (bs : Nat) (T : Class M) (w : World M) (a : Label M) : List ShmQueue.Label :=
  match w.q.procs[a.who]? with
  | none => []
  | some p =>
    match act bs T p (w.loc a.who) a with
    | .ok (some (some l, _)) => [l]
    | _ => []

def projs (size bs : Nat) (T : Class M) (w : World M) : List (Label M) → List ShmQueue.Label
  | [] => []
  | a :: as =>
    match step size bs T w a with
    | .ok (some w') => proj bs T w a ++ projs size bs T w' as
    | _ => []

theorem step_some {w w' : World M} {a : Label M} (e : step size bs T w a = .ok (some w')) :
    ∃ p l x q, w.q.procs[a.who]? = some p ∧ act bs T p (w.loc a.who) a = .ok (some (l, x)) ∧ ringDo size bs w.q l = some q ∧ proj bs T w a = l.toList ∧
      w' = ⟨q, fun j => if j = a.who then x else w.loc j⟩ := by
  unfold step at e
  split at e
  · simp at e
  · rename_i p hp
    cases ha : act bs T p (w.loc a.who) a with
    | ub => rw [ha] at e; simp [Res.map] at e
    | ok o =>
      cases o with
      | none => rw [ha] at e; simp [Res.map] at e
      | some lx =>
        obtain ⟨l, x⟩ := lx
        rw [ha] at e
        simp only [Res.map, Res.ok.injEq] at e
        cases hq : ringDo size bs w.q l with
        | none => rw [hq] at e; simp at e
        | some q =>
          rw [hq] at e
          refine ⟨p, l, x, q, hp, ha, hq, ?_, (Option.some.inj e).symm⟩
          unfold proj
          rw [hp]
          simp only [ha]
          cases l <;> rfl

/-- The ring step of a label. -/
theorem act_label {p : Proc} {x x' : Loc M} {a : Label M} {l : ShmQueue.Label} (e : act bs T p x a = .ok (some (some l, x'))) :
    l.who = a.who ∧ ((∀ i, a ≠ .kill i) → l.calm = true) ∧ (∀ i, l = .kill i → a = .kill i) ∧ (∀ i, l = .adv i → a = .adv i) := by
  cases a with
  | put i m =>
    simp only [act] at e
    split at e
    · unfold callPut at e
      split at e
      · simp at e
      · simp at e
      · simp only [Res.ok.injEq, Option.some.injEq, Prod.mk.injEq] at e
        obtain ⟨rfl, _⟩ := e
        exact ⟨rfl, fun _ => rfl, by simp, by simp⟩
    · simp at e
  | get i h =>
    simp only [act] at e
    split at e
    · unfold callGet at e
      split at e <;> simp at e
    · simp at e
  | flush i => simp only [act, Res.ok.injEq, Option.some.injEq, Prod.mk.injEq] at e; obtain ⟨rfl, _⟩ := e; exact ⟨rfl, fun _ => rfl, by simp, by simp⟩
  | unflush i => simp only [act, Res.ok.injEq, Option.some.injEq, Prod.mk.injEq] at e; obtain ⟨rfl, _⟩ := e; exact ⟨rfl, fun _ => rfl, by simp, by simp⟩
  | timeout i => simp only [act, Res.ok.injEq, Option.some.injEq, Prod.mk.injEq] at e; obtain ⟨rfl, _⟩ := e; exact ⟨rfl, fun _ => rfl, by simp, by simp⟩
  | kill i => simp only [act, Res.ok.injEq, Option.some.injEq, Prod.mk.injEq] at e; obtain ⟨rfl, _⟩ := e; exact ⟨rfl, fun h => absurd rfl (h i), by simp, by simp⟩
  | adv i =>
    simp only [act] at e
    cases ha : after bs T x p with
    | ub => rw [ha] at e; simp [Res.map] at e
    | ok y =>
      rw [ha] at e
      simp only [Res.map, Res.ok.injEq, Option.some.injEq, Prod.mk.injEq] at e
      obtain ⟨rfl, _⟩ := e
      exact ⟨rfl, fun _ => rfl, by simp, by simp⟩

theorem proj_step {w w' : World M} {a : Label M} (e : step size bs T w a = .ok (some w')) : ShmQueue.exec size bs w.q (proj bs T w a) = some w'.q := by
  obtain ⟨p, l, x, q, hp, ha, hq, hl, rfl⟩ := step_some e
  rw [hl]
  cases l with
  | none => simpa [ShmQueue.exec, ringDo] using hq
  | some l =>
    have hq : ShmQueue.step size bs w.q l = some q := hq
    simp [ShmQueue.exec, hq]

theorem projs_exec : ∀ (as : List (Label M)) (w w' : World M), exec size bs T w as = .ok (some w') →
    ShmQueue.exec size bs w.q (projs size bs T w as) = some w'.q
  | [], w, w', e => by rw [← Option.some.inj (Res.ok.inj e)]; rfl
  | a :: as, w, w', e => by
    simp only [exec] at e
    split at e
    · simp at e
    · simp at e
    · rename_i t hst
      simp only [projs, hst]
      rw [QueueMsg.ring_append, proj_step hst]
      exact projs_exec as t w' e

theorem projs_calm : ∀ (as : List (Label M)) (w : World M), (∀ i, .kill i ∉ as) → ∀ l ∈ projs size bs T w as, l.calm = true
  | [], w, _, l, h => by simp [projs] at h
  | a :: as, w, hk, l, h => by
    unfold projs at h
    split at h
    · rename_i t hst
      rcases List.mem_append.mp h with h | h
      · obtain ⟨p, l', x, q, hp, ha, hq, hl, _⟩ := step_some hst
        rw [hl] at h
        have : l' = some l := by simpa using h
        subst this
        exact (act_label ha).2.1 (fun i hi => hk i (by rw [hi]; exact List.mem_cons_self))
      · exact projs_calm as _ (fun i hi => hk i (List.mem_cons_of_mem _ hi)) l h
    · simp at h

theorem harmless_ring {q : ShmQueue.State} {i : Nat} (h : harmless size q i) : ((q.procs[i]?.map (ShmQueue.harmless size q)).getD true) = true := by
  cases hp : q.procs[i]? with
  | none => rfl
  | some p =>
    obtain ⟨h1, h2, h3⟩ := h p hp
    simp only [Option.map_some, Option.getD_some, ShmQueue.harmless]
    cases hm : p.mode <;> first | rfl | skip
    · exact decide_eq_true (h1 hm)
    · exact decide_eq_true (h3 _ hm)
    · exact decide_eq_true (h2 hm)

theorem projs_safe : ∀ (as : List (Label M)) (w : World M), harmlessKills size bs T w as → SafeRun size bs w.q (projs size bs T w as) = true
  | [], w, _ => rfl
  | a :: as, w, h => by
    unfold projs
    split
    · rename_i t hst
      refine QueueKill.safe_append _ _ w.q t.q (proj_step hst) ?_ (projs_safe as t (h.2 t hst))
      obtain ⟨p, l, x, q, hp, ha, hq, hl, rfl⟩ := step_some hst
      rw [hl]
      cases l with
      | none => rfl
      | some l =>
        by_cases hk : ∃ i, a = .kill i
        · obtain ⟨i, rfl⟩ := hk
          simp only [act, Res.ok.injEq, Option.some.injEq, Prod.mk.injEq] at ha
          obtain ⟨rfl, _⟩ := ha
          simp only [Option.toList, SafeRun, Bool.and_eq_true]
          refine ⟨harmless_ring (h.1 i rfl), ?_⟩
          split <;> rfl
        · refine ShmQueue.calm_safe _ _ (fun l' hl' => ?_)
          have : l' = l := by simpa using hl'
          subst this
          exact (act_label ha).2.1 (fun i hi => hk ⟨i, hi⟩)
    · rfl

/-- What a step leaves alone. -/
theorem frame {w w' : World M} {a : Label M} (e : step size bs T w a = .ok (some w')) {j : Nat} (h : j ≠ a.who) :
    w'.q.procs[j]? = w.q.procs[j]? ∧ w'.loc j = w.loc j ∧ flushed j (proj bs T w a) = [] ∧ ShmQueue.mine j (delivered size bs w.q (proj bs T w a)) = [] := by
  obtain ⟨p, l, x, q, hp, ha, hq, hl, rfl⟩ := step_some e
  rw [hl]
  cases l with
  | none =>
    have hq : w.q = q := Option.some.inj hq
    subst hq
    exact ⟨rfl, if_neg h, rfl, rfl⟩
  | some l =>
    have hq : ShmQueue.step size bs w.q l = some q := hq
    have hw : j ≠ l.who := by rw [(act_label ha).1]; exact h
    refine ⟨ShmQueue.step_other hq hw, if_neg h, ?_, ?_⟩
    · simp only [Option.toList]
      cases l with
      | flush k b => have hw : ¬ k = j := fun e => hw e.symm; simp [flushed, hw]
      | _ => rfl
    · simp only [Option.toList, delivered, hq, List.append_nil]
      exact QueueMsg.mine_none j l w.q hw

/-! ### modes after the steps of the ring -/

theorem mode_flush {s s' : ShmQueue.State} {i : Nat} {b : List UInt8} (e : ShmQueue.step size bs s (.flush i b) = some s') :
    (∃ p, s.procs[i]? = some p ∧ p.mode = .idle) ∧ ∃ p, s'.procs[i]? = some p ∧ p.mode = .f0 := by
  simp only [ShmQueue.step] at e
  split at e
  · rename_i p hp
    have hlt := (List.getElem?_eq_some_iff.mp hp).1
    split at e
    · rename_i hm
      rw [← Option.some.inj e]
      exact ⟨⟨p, hp, hm.1⟩, _, by simp [ShmQueue.State.upd, hlt]; rfl, rfl⟩
    · exact absurd e (by simp)
  · exact absurd e (by simp)

theorem mode_unflush {s s' : ShmQueue.State} {i : Nat} (e : ShmQueue.step size bs s (.unflush i) = some s') :
    ∃ p, s'.procs[i]? = some p ∧ inU p.mode = true := by
  simp only [ShmQueue.step] at e
  split at e
  · rename_i p hp
    have hlt := (List.getElem?_eq_some_iff.mp hp).1
    split at e
    · rw [← Option.some.inj e]
      exact ⟨_, by simp [ShmQueue.State.upd, hlt]; rfl, rfl⟩
    · exact absurd e (by simp)
  · exact absurd e (by simp)

theorem mode_timeout {s s' : ShmQueue.State} {i : Nat} (e : ShmQueue.step size bs s (.timeout i) = some s') :
    ∃ p, s'.procs[i]? = some p ∧ p.mode = .idle := by
  simp only [ShmQueue.step] at e
  split at e
  · rename_i p hp
    have hlt := (List.getElem?_eq_some_iff.mp hp).1
    split at e
    · rw [← Option.some.inj e]
      exact ⟨_, by simp [ShmQueue.State.upd, hlt]; rfl, rfl⟩
    · exact absurd e (by simp)
  · exact absurd e (by simp)

theorem mode_kill {s s' : ShmQueue.State} {i : Nat} (e : ShmQueue.step size bs s (.kill i) = some s') :
    ∃ p, s'.procs[i]? = some p ∧ p.mode = .dead := by
  simp only [ShmQueue.step] at e
  split at e
  · rename_i p hp
    have hlt := (List.getElem?_eq_some_iff.mp hp).1
    split at e
    · exact absurd e (by simp)
    · rw [← Option.some.inj e]
      exact ⟨_, by simp [ShmQueue.State.upd, hlt]; rfl, rfl⟩
  · exact absurd e (by simp)

/-! ### a writer -/

/-- `F` are the boxes it flushed. -/
def WInv (T : Class M) (ok : M → Prop) (bs : Nat) (w : World M) (i : Nat) (F : List (List UInt8)) : Prop :=
  (w.loc i).got = [] ∧ (∀ m ∈ (w.loc i).sent, ok m) ∧ (∀ m, (w.loc i).pend = some m → ok m) ∧ ∃ (bl : List (List M)) (rest : List M), F = bl.map (boxOf T bs) ∧ (∀ ms ∈ bl, (flat T ms).length ≤ bs) ∧ (w.loc i).sent = bl.flatten ++ rest ∧
    ((w.q.procs[i]? = none ∧ rest = []) ∨ ∃ p, w.q.procs[i]? = some p ∧
      ((p.mode = .idle ∧ (flat T rest).length ≤ bs ∧ (w.loc i).box = full T bs rest) ∨ (inF p.mode = true ∧ rest = []) ∨ p.mode = .dead))

theorem winv_step (hc : Contract T lo ok) {writes : Nat → Bool} {w w' : World M} {a : Label M} {i : Nat} {F : List (List UInt8)} (hi : writes i = true)
    (hr : inRole T lo ok writes a) (h : WInv T ok bs w i F) (e : step size bs T w a = .ok (some w')) :
    WInv T ok bs w' i (F ++ flushed i (proj bs T w a)) ∧ ShmQueue.mine i (delivered size bs w.q (proj bs T w a)) = [] := by
  by_cases hw : i = a.who
  · obtain ⟨p, l, x, q, hp, ha, hq, hl, rfl⟩ := step_some e
    rw [hl]
    rw [← hw] at hp ha
    obtain ⟨hg, hos, hop, bl, rest, hF, hfit, hsent, hcase⟩ := h
    have hcase : (p.mode = .idle ∧ (flat T rest).length ≤ bs ∧ (w.loc i).box = full T bs rest) ∨ (inF p.mode = true ∧ rest = []) ∨ p.mode = .dead := by
      rcases hcase with ⟨h0, _⟩ | ⟨p', hp', hcase⟩
      · rw [h0] at hp; exact absurd hp (by simp)
      · rw [hp] at hp'
        rw [Option.some.inj hp']; exact hcase
    have hcl : (flat T ([] : List M)).length ≤ bs := by simp [flat]
    -- a call of flush
    have hflush : ∀ pe : Option M, (∀ m, pe = some m → ok m) → ShmQueue.step size bs w.q (.flush i (w.loc i).box.buf) = some q → l = some (.flush i (w.loc i).box.buf) → x = { w.loc i with pend := pe } →
        WInv T ok bs ⟨q, fun j => if j = a.who then x else w.loc j⟩ i (F ++ flushed i l.toList) ∧ ShmQueue.mine i (delivered size bs w.q l.toList) = [] := by
      intro pe hpe hq' hl' hx
      subst hl'
      obtain ⟨⟨p0, hp0, hm0⟩, p', hp', hm'⟩ := mode_flush hq'
      rw [hp] at hp0
      have := Option.some.inj hp0
      subst this
      rcases hcase with ⟨_, hfr, hb⟩ | ⟨hF', _⟩ | hd
      · refine ⟨⟨?_, by simp only [if_pos hw, hx]; exact hos, by simp only [if_pos hw, hx]; exact hpe, bl ++ [rest], [], ?_, ?_, ?_, .inr ⟨p', hp', .inr (.inl ⟨by rw [hm']; rfl, rfl⟩)⟩⟩, ?_⟩
        · simp only [if_pos hw, hx]; exact hg
        · simp [flushed, hF, hb, full]
        · intro ms hms
          rcases List.mem_append.mp hms with hms | hms
          · exact hfit ms hms
          · rw [List.mem_singleton.mp hms]; exact hfr
        · simp only [if_pos hw, hx]; simp [hsent]
        · simp [Option.toList, delivered, hq', ShmQueue.deliveredBy, ShmQueue.mine]
      · rw [hm0] at hF'; exact absurd hF' (by simp [inF])
      · rw [hm0] at hd; exact absurd hd (by simp)
    cases a with
    | put k m =>
      have hw : i = k := hw
      subst hw
      simp only [act] at ha
      split at ha
      · rename_i hidle
        rcases hcase with ⟨_, hfr, hb⟩ | ⟨hF', _⟩ | hd
        · unfold callPut at ha
          rw [hb] at ha
          rcases put_cases hc hr.2 hfr with ⟨h1, h2⟩ | h1
          · rw [h1] at ha
            simp only [Res.ok.injEq, Option.some.injEq, Prod.mk.injEq] at ha
            obtain ⟨rfl, rfl⟩ := ha
            have hq : w.q = q := Option.some.inj hq
            subst hq
            refine ⟨⟨?_, ?_, by simp only [if_pos hw]; exact hop, bl, rest ++ [m], by simp [Option.toList, flushed, hF], hfit, ?_, .inr ⟨p, hp, .inl ⟨hidle, h2, ?_⟩⟩⟩, rfl⟩
            · simp only [if_pos hw]; exact hg
            · simp only [if_pos hw]
              intro y hy
              rcases List.mem_append.mp hy with hy | hy
              · exact hos y hy
              · rw [List.mem_singleton.mp hy]; exact hr.2
            · simp only [if_pos hw]; simp [hsent]
            · simp only [if_pos hw]
          · rw [h1] at ha
            simp only [Res.ok.injEq, Option.some.injEq, Prod.mk.injEq] at ha
            obtain ⟨rfl, rfl⟩ := ha
            rw [← hb] at hq
            exact hflush (some m) (fun y hy => by rw [← Option.some.inj hy]; exact hr.2) hq (by rw [hb]) (by rw [← hb])
        · rw [hidle] at hF'; exact absurd hF' (by simp [inF])
        · rw [hidle] at hd; exact absurd hd (by simp)
      · simp at ha
    | flush k =>
      have hw : i = k := hw
      subst hw
      simp only [act, Res.ok.injEq, Option.some.injEq, Prod.mk.injEq] at ha
      obtain ⟨rfl, rfl⟩ := ha
      exact hflush none (by simp) hq rfl rfl
    | unflush k => have hw : i = k := hw; subst hw; simp [inRole, hi] at hr
    | timeout k => have hw : i = k := hw; subst hw; simp [inRole, hi] at hr
    | get k h => have hw : i = k := hw; subst hw; simp [inRole, hi] at hr
    | kill k =>
      have hw : i = k := hw
      subst hw
      simp only [act, Res.ok.injEq, Option.some.injEq, Prod.mk.injEq] at ha
      obtain ⟨rfl, rfl⟩ := ha
      have hq : ShmQueue.step size bs w.q (.kill i) = some q := hq
      obtain ⟨p', hp', hm'⟩ := mode_kill hq
      refine ⟨⟨?_, by simp only [if_pos hw]; exact hos, by simp only [if_pos hw]; exact hop, bl, rest, by simp [Option.toList, flushed, hF], hfit, ?_, .inr ⟨p', hp', .inr (.inr hm')⟩⟩, ?_⟩
      · simp only [if_pos hw]; exact hg
      · simp only [if_pos hw]; exact hsent
      · simp [Option.toList, delivered, hq, ShmQueue.deliveredBy, ShmQueue.mine]
    | adv k =>
      have hw : i = k := hw
      subst hw
      simp only [act] at ha
      cases hx : after bs T (w.loc i) p with
      | ub => rw [hx] at ha; simp [Res.map] at ha
      | ok y =>
        rw [hx] at ha
        simp only [Res.map, Res.ok.injEq, Option.some.injEq, Prod.mk.injEq] at ha
        obtain ⟨rfl, rfl⟩ := ha
        have hq : ShmQueue.step size bs w.q (.adv i) = some q := hq
        obtain ⟨p', hp', m1, m2, m3, m4, m5⟩ := QueueMsg.adv_mode hp hq
        rcases hcase with ⟨hid, _⟩ | ⟨hF', hr0⟩ | hd
        · exact absurd hid m5
        · subst hr0
          have hu : ¬ p.mode = .u6 := by intro hu; rw [hu] at hF'; exact absurd hF' (by simp [inF])
          refine ⟨?_, by simp [Option.toList, delivered, hq, ShmQueue.deliveredBy, hp, hu, ShmQueue.mine]⟩
          by_cases h6 : p.mode = .f6
          · unfold after at hx
            rw [if_pos h6] at hx
            have hid := m1 h6
            have hclr : ∀ z : Loc M, z.box = Box.clear bs → z.sent = (w.loc i).sent → z.got = (w.loc i).got → (∀ m, z.pend = some m → ok m) → y = z →
                WInv T ok bs ⟨q, fun j => if j = (Label.adv i : Label M).who then y else w.loc j⟩ i (F ++ flushed i (some (ShmQueue.Label.adv i)).toList) := by
              intro z z1 z2 z3 z4 hz
              subst hz
              refine ⟨?_, by simp only [if_pos hw]; rw [z2]; exact hos, by simp only [if_pos hw]; exact z4, bl, [], by simp [Option.toList, flushed, hF], hfit, ?_, .inr ⟨p', hp', .inl ⟨hid, hcl, ?_⟩⟩⟩
              · simp only [if_pos hw]; rw [z3]; exact hg
              · simp only [if_pos hw]; rw [z2]; exact hsent
              · simp only [if_pos hw]; rw [z1]; exact clear_eq
            unfold endFlush at hx
            split at hx
            · exact hclr { w.loc i with box := Box.clear bs } rfl rfl rfl hop (Res.ok.inj hx).symm
            · rename_i m hpe
              rw [clear_eq (T := T)] at hx
              rcases put_cases hc (hop m hpe) hcl with ⟨h1, h2⟩ | h1
              · rw [h1] at hx
                have hx := Res.ok.inj hx
                subst hx
                refine ⟨?_, ?_, by simp only [if_pos hw]; simp, bl, [m], by simp [Option.toList, flushed, hF], hfit, ?_, .inr ⟨p', hp', .inl ⟨hid, h2, ?_⟩⟩⟩
                · simp only [if_pos hw]; exact hg
                · simp only [if_pos hw]
                  intro y hy
                  rcases List.mem_append.mp hy with hy | hy
                  · exact hos y hy
                  · rw [List.mem_singleton.mp hy]; exact hop m hpe
                · simp only [if_pos hw]; simp [hsent]
                · simp only [if_pos hw]; rfl
              · rw [h1] at hx
                refine hclr { w.loc i with box := Box.clear bs, pend := none } rfl rfl rfl (by simp) ?_
                rw [clear_eq (T := T)]
                exact (Res.ok.inj hx).symm
          · unfold after at hx
            rw [if_neg h6, if_neg hu] at hx
            have hx := Res.ok.inj hx
            subst hx
            refine ⟨?_, by simp only [if_pos hw]; exact hos, by simp only [if_pos hw]; exact hop, bl, [], by simp [Option.toList, flushed, hF], hfit, ?_, .inr ⟨p', hp', .inr (.inl ⟨m3 hF' h6, rfl⟩)⟩⟩
            · simp only [if_pos hw]; exact hg
            · simp only [if_pos hw]; exact hsent
        · simp [ShmQueue.step, ShmQueue.adv, hp, hd] at hq
  · obtain ⟨f1, f2, f3, f4⟩ := frame e hw
    refine ⟨?_, f4⟩
    unfold WInv
    rw [f1, f2, f3, List.append_nil]
    exact h

/-! ### a reader -/

/-- Nothing more is read from the box with the object `h0`. -/
def stuck (T : Class M) (lo : Nat) (h0 : M) (x : List UInt8 × List M) : Prop := ∃ pos, Reach T lo x.1 x.2 pos ∧ Box.get T ⟨x.1, pos⟩ h0 = .ok none

/-- `D` are the boxes that were delivered; with `dr`, boxes are read up with the object `h0` before the next one. -/
def RInv (dr : Prop) (h0 : Option M) (T : Class M) (lo bs : Nat) (w : World M) (j : Nat) (D : List (Nat × List UInt8)) : Prop :=
  (w.loc j).sent = [] ∧ (∀ p, w.q.procs[j]? = some p → p.mode = .idle ∨ inU p.mode = true ∨ p.mode = .dead) ∧
  ∃ P : List (List UInt8 × List M), ShmQueue.mine j D = P.map Prod.fst ∧ (w.loc j).got = P.flatMap Prod.snd ∧ (∀ x ∈ P, ∃ pos, Reach T lo x.1 x.2 pos) ∧
    ((P = [] ∧ (w.loc j).box = Box.clear bs) ∨
     ∃ P0 cb ts pos, P = P0 ++ [(cb, ts)] ∧ (w.loc j).box = ⟨cb, pos⟩ ∧ Reach T lo cb ts pos ∧
       (dr → ∀ h, h0 = some h → (∀ x ∈ P0, stuck T lo h x) ∧ ∀ p, w.q.procs[j]? = some p → inU p.mode = true → stuck T lo h (cb, ts)))

theorem rinv_step (hc : Contract T lo ok) {h0 : Option M} {writes : Nat → Bool} {w w' : World M} {a : Label M} {j : Nat} {D : List (Nat × List UInt8)} (hj : writes j = false)
    (hr : inRole T lo ok writes a) (hd : dr → ∀ h, h0 = some h → a = .unflush j → (w.loc j).box.get T h = .ok none) (h : RInv dr h0 T lo bs w j D)
    (e : step size bs T w a = .ok (some w')) :
    RInv dr h0 T lo bs w' j (D ++ delivered size bs w.q (proj bs T w a)) ∧ flushed j (proj bs T w a) = [] := by
  by_cases hw : j = a.who
  · obtain ⟨p, l, x, q, hp, ha, hq, hl, rfl⟩ := step_some e
    rw [hl]
    rw [← hw] at hp ha
    obtain ⟨hs, hm, P, h1, h2, h2', h3⟩ := h
    -- steps that change only the mode
    have hsame : ∀ lb : ShmQueue.Label, l = some lb → x = w.loc j → ShmQueue.step size bs w.q lb = some q → ShmQueue.deliveredBy w.q lb = [] →
        (∃ p', q.procs[j]? = some p' ∧ (p'.mode = .idle ∨ inU p'.mode = true ∨ p'.mode = .dead) ∧
          (inU p'.mode = true → inU p.mode = true ∨ (dr → ∀ h, h0 = some h → (w.loc j).box.get T h = .ok none))) →
        RInv dr h0 T lo bs ⟨q, fun k => if k = a.who then x else w.loc k⟩ j (D ++ delivered size bs w.q l.toList) := by
      intro lb hlb hx hq' hdl ⟨p', hp', hm', hu'⟩
      subst hlb hx
      refine ⟨?_, ?_, P, ?_, ?_, h2', ?_⟩
      · simp only [if_pos hw]; exact hs
      · intro y hy; rw [show y = p' from Option.some.inj (hy.symm.trans hp')]; exact hm'
      · rw [ShmQueue.mine_append, h1]; simp [Option.toList, delivered, hq', hdl, ShmQueue.mine]
      · simp only [if_pos hw]; exact h2
      · simp only [if_pos hw]
        rcases h3 with h3 | ⟨P0, cb, ts, pos, g1, g2, g3, g4⟩
        · exact .inl h3
        · refine .inr ⟨P0, cb, ts, pos, g1, g2, g3, fun hdr h hh => ⟨(g4 hdr h hh).1, fun y hy hu => ?_⟩⟩
          rw [show y = p' from Option.some.inj (hy.symm.trans hp')] at hu
          rcases hu' hu with hu | hu
          · exact (g4 hdr h hh).2 p hp hu
          · have := hu hdr h hh
            rw [g2] at this
            exact ⟨pos, g3, this⟩
    cases a with
    | put k m => have hw : j = k := hw; subst hw; simp [inRole, hj] at hr
    | flush k => have hw : j = k := hw; subst hw; simp [inRole, hj] at hr
    | unflush k =>
      have hw : j = k := hw
      subst hw
      simp only [act, Res.ok.injEq, Option.some.injEq, Prod.mk.injEq] at ha
      obtain ⟨rfl, rfl⟩ := ha
      have hq : ShmQueue.step size bs w.q (.unflush j) = some q := hq
      obtain ⟨p', hp', hm'⟩ := mode_unflush hq
      exact ⟨hsame _ rfl rfl hq rfl ⟨p', hp', .inr (.inl hm'), fun _ => .inr (fun hdr h hh => hd hdr h hh rfl)⟩, rfl⟩
    | timeout k =>
      have hw : j = k := hw
      subst hw
      simp only [act, Res.ok.injEq, Option.some.injEq, Prod.mk.injEq] at ha
      obtain ⟨rfl, rfl⟩ := ha
      have hq : ShmQueue.step size bs w.q (.timeout j) = some q := hq
      obtain ⟨p', hp', hm'⟩ := mode_timeout hq
      exact ⟨hsame _ rfl rfl hq rfl ⟨p', hp', .inl hm', fun hu => by rw [hm'] at hu; exact absurd hu (by simp [inU])⟩, rfl⟩
    | kill k =>
      have hw : j = k := hw
      subst hw
      simp only [act, Res.ok.injEq, Option.some.injEq, Prod.mk.injEq] at ha
      obtain ⟨rfl, rfl⟩ := ha
      have hq : ShmQueue.step size bs w.q (.kill j) = some q := hq
      obtain ⟨p', hp', hm'⟩ := mode_kill hq
      exact ⟨hsame _ rfl rfl hq rfl ⟨p', hp', .inr (.inr hm'), fun hu => by rw [hm'] at hu; exact absurd hu (by simp [inU])⟩, rfl⟩
    | get k h =>
      have hw : j = k := hw
      subst hw
      simp only [act] at ha
      split at ha
      · rename_i hidle
        unfold callGet at ha
        split at ha
        · simp at ha
        · rename_i m b hb
          simp only [Res.ok.injEq, Option.some.injEq, Prod.mk.injEq] at ha
          obtain ⟨rfl, rfl⟩ := ha
          have hq : w.q = q := Option.some.inj hq
          subst hq
          refine ⟨?_, rfl⟩
          rcases h3 with ⟨_, hcl⟩ | ⟨P0, cb, ts, pos, rfl, g2, g3, g4⟩
          · rw [hcl, get_clear hc hr.2] at hb; simp at hb
          · rw [g2] at hb
            obtain ⟨b1, b2, rfl⟩ := get_some hb
            have hR : Reach T lo cb (ts ++ [m]) (pos + T.size m) := .snoc g3 (Nat.le_trans (Nat.add_le_add_left hr.2 _) b1) b2
            refine ⟨?_, hm, P0 ++ [(cb, ts ++ [m])], ?_, ?_, ?_, .inr ⟨P0, cb, ts ++ [m], pos + T.size m, rfl, ?_, hR, fun hdr h' hh => ⟨(g4 hdr h' hh).1, fun y hy hu => ?_⟩⟩⟩
            · simp only [if_pos hw]; exact hs
            · simp only [Option.toList, delivered, List.append_nil]
              rw [h1]; simp
            · simp only [if_pos hw]; rw [h2]; simp
            · intro y hy
              rcases List.mem_append.mp hy with hy | hy
              · exact h2' y (List.mem_append_left _ hy)
              · rw [List.mem_singleton.mp hy]; exact ⟨_, hR⟩
            · simp only [if_pos hw]
            · rw [show y = p from Option.some.inj (hy.symm.trans hp), hidle] at hu
              exact absurd hu (by simp [inU])
        · simp only [Res.ok.injEq, Option.some.injEq, Prod.mk.injEq] at ha
          obtain ⟨rfl, rfl⟩ := ha
          have hq : w.q = q := Option.some.inj hq
          subst hq
          refine ⟨⟨?_, hm, P, ?_, ?_, h2', ?_⟩, rfl⟩
          · simp only [if_pos hw]; exact hs
          · simpa [Option.toList, delivered] using h1
          · simp only [if_pos hw]; exact h2
          · simp only [if_pos hw]; exact h3
      · simp at ha
    | adv k =>
      have hw : j = k := hw
      subst hw
      simp only [act] at ha
      cases hx : after bs T (w.loc j) p with
      | ub => rw [hx] at ha; simp [Res.map] at ha
      | ok y =>
        rw [hx] at ha
        simp only [Res.map, Res.ok.injEq, Option.some.injEq, Prod.mk.injEq] at ha
        obtain ⟨rfl, rfl⟩ := ha
        refine ⟨?_, rfl⟩
        have hq : ShmQueue.step size bs w.q (.adv j) = some q := hq
        obtain ⟨p', hp', m1, m2, m3, m4, m5⟩ := QueueMsg.adv_mode hp hq
        have hpm : inU p.mode = true := by
          rcases hm p hp with hid | hu | hdd
          · exact absurd hid m5
          · exact hu
          · simp [ShmQueue.step, ShmQueue.adv, hp, hdd] at hq
        have h6 : ¬ p.mode = .f6 := by intro hu; rw [hu] at hpm; exact absurd hpm (by simp [inU])
        unfold after at hx
        rw [if_neg h6] at hx
        by_cases hu : p.mode = .u6
        · rw [if_pos hu] at hx
          have hx := Res.ok.inj hx
          subst hx
          refine ⟨?_, ?_, P ++ [(p.cb, [])], ?_, ?_, ?_, .inr ⟨P, p.cb, [], 0, rfl, ?_, .nil, fun hdr h hh => ⟨?_, ?_⟩⟩⟩
          · simp only [if_pos hw]; exact hs
          · intro z hz
            rw [show z = p' from Option.some.inj (hz.symm.trans hp')]
            exact .inl (m2 hu)
          · rw [ShmQueue.mine_append, h1]; simp [Option.toList, delivered, hq, ShmQueue.deliveredBy, hp, hu, ShmQueue.mine]
          · simp only [if_pos hw]; rw [h2]; simp
          · intro z hz
            rcases List.mem_append.mp hz with hz | hz
            · exact h2' z hz
            · rw [List.mem_singleton.mp hz]; exact ⟨0, .nil⟩
          · simp only [if_pos hw]; rfl
          · rcases h3 with ⟨rfl, _⟩ | ⟨P0, cb, ts, pos, rfl, _, _, g4⟩
            · simp
            · intro z hz
              rcases List.mem_append.mp hz with hz | hz
              · exact (g4 hdr h hh).1 z hz
              · rw [List.mem_singleton.mp hz]
                exact (g4 hdr h hh).2 p hp hpm
          · intro z hz hzu
            rw [show z = p' from Option.some.inj (hz.symm.trans hp'), m2 hu] at hzu
            exact absurd hzu (by simp [inU])
        · rw [if_neg hu] at hx
          have hx := Res.ok.inj hx
          subst hx
          exact hsame _ rfl rfl hq (by simp [ShmQueue.deliveredBy, hp, hu]) ⟨p', hp', .inr (.inl (m4 hpm hu)), fun _ => .inl hpm⟩
  · obtain ⟨f1, f2, f3, f4⟩ := frame e hw
    refine ⟨?_, f3⟩
    unfold RInv
    rw [f1, f2, ShmQueue.mine_append, f4, List.append_nil]
    exact h

/-! ### runs -/

theorem winv_exec (hc : Contract T lo ok) {writes : Nat → Bool} {i : Nat} (hi : writes i = true) : ∀ (as : List (Label M)) (w w' : World M) (F : List (List UInt8)),
    (∀ a ∈ as, inRole T lo ok writes a) → WInv T ok bs w i F → exec size bs T w as = .ok (some w') →
      WInv T ok bs w' i (F ++ flushed i (projs size bs T w as)) ∧ ShmQueue.mine i (delivered size bs w.q (projs size bs T w as)) = []
  | [], w, w', F, _, h, e => by rw [← Option.some.inj (Res.ok.inj e)]; exact ⟨by simpa [projs, flushed] using h, rfl⟩
  | a :: as, w, w', F, hr, h, e => by
    simp only [exec] at e
    split at e
    · simp at e
    · simp at e
    · rename_i t hst
      simp only [projs, hst, QueueMsg.flushed_append]
      obtain ⟨s1, s2⟩ := winv_step hc hi (hr a List.mem_cons_self) h hst
      obtain ⟨r1, r2⟩ := winv_exec hc hi as t w' _ (fun b hb => hr b (List.mem_cons_of_mem _ hb)) s1 e
      rw [← List.append_assoc, (QueueMsg.accepted_append (proj bs T w a) _ w.q t.q (proj_step hst)).2, ShmQueue.mine_append, s2, List.nil_append]
      exact ⟨r1, r2⟩

theorem rinv_exec (hc : Contract T lo ok) {h0 : Option M} {writes : Nat → Bool} {j : Nat} (hj : writes j = false) :
    ∀ (as : List (Label M)) (w w' : World M) (D : List (Nat × List UInt8)), (∀ a ∈ as, inRole T lo ok writes a) → (dr → ∀ h, h0 = some h → readsUp size bs T h w as) →
      RInv dr h0 T lo bs w j D → exec size bs T w as = .ok (some w') →
        RInv dr h0 T lo bs w' j (D ++ delivered size bs w.q (projs size bs T w as)) ∧ flushed j (projs size bs T w as) = []
  | [], w, w', D, _, _, h, e => by rw [← Option.some.inj (Res.ok.inj e)]; exact ⟨by simpa [projs, delivered] using h, rfl⟩
  | a :: as, w, w', D, hr, hd, h, e => by
    simp only [exec] at e
    split at e
    · simp at e
    · simp at e
    · rename_i t hst
      simp only [projs, hst, QueueMsg.flushed_append]
      obtain ⟨s1, s2⟩ := rinv_step hc hj (hr a List.mem_cons_self) (fun x h hh => (hd x h hh).1 j) h hst
      obtain ⟨r1, r2⟩ := rinv_exec hc hj as t w' _ (fun b hb => hr b (List.mem_cons_of_mem _ hb)) (fun x h hh => (hd x h hh).2 t hst) s1 e
      rw [(QueueMsg.accepted_append (proj bs T w a) _ w.q t.q (proj_step hst)).2, ← List.append_assoc, s2, List.nil_append]
      exact ⟨r1, r2⟩

theorem init_mode {n i : Nat} {p : Proc} (h : (init (M := M) bs n).q.procs[i]? = some p) : p.mode = .idle := by
  rw [(List.mem_replicate.mp (List.mem_of_getElem? h)).2]

theorem winv_init (n i : Nat) : WInv T ok bs (init bs n) i [] := by
  refine ⟨rfl, by simp [init], by simp [init], [], [], rfl, by simp, rfl, ?_⟩
  cases hp : (init (M := M) bs n).q.procs[i]? with
  | none => exact .inl ⟨rfl, rfl⟩
  | some p => exact .inr ⟨p, rfl, .inl ⟨init_mode hp, by simp [flat], clear_eq⟩⟩

theorem rinv_init {h0 : Option M} (n j : Nat) : RInv dr h0 T lo bs (init bs n) j [] :=
  ⟨rfl, fun p hp => .inl (init_mode hp), [], rfl, rfl, by simp, .inl ⟨rfl, rfl⟩⟩

theorem readsUp_end {h : M} : ∀ (as : List (Label M)) (w w' : World M), readsUp size bs T h w as → exec size bs T w as = .ok (some w') → ∀ j, (w'.loc j).box.get T h = .ok none
  | [], w, w', hu, e => by rw [← Option.some.inj (Res.ok.inj e)]; exact hu
  | a :: as, w, w', hu, e => by
    simp only [exec] at e
    split at e
    · simp at e
    · simp at e
    · rename_i t hst
      exact readsUp_end as t w' (hu.2 t hst) e

theorem room_exec (i : Nat) : ∀ (as : List (Label M)) (w w' : World M), (∀ k, .kill k ∉ as) → roomy size bs T w as → exec size bs T w as = .ok (some w') →
    ShmQueue.mine i (accepted size bs w.q (projs size bs T w as)) ++ ShmQueue.pending w'.q i =
      ShmQueue.pending w.q i ++ flushed i (projs size bs T w as)
  | [], w, w', _, _, e => by rw [← Option.some.inj (Res.ok.inj e)]; simp [projs, accepted, flushed, ShmQueue.mine]
  | a :: as, w, w', hk, h, e => by
    simp only [exec] at e
    split at e
    · simp at e
    · simp at e
    · rename_i t hst
      have hstep : ShmQueue.mine i (accepted size bs w.q (proj bs T w a)) ++ ShmQueue.pending t.q i = ShmQueue.pending w.q i ++ flushed i (proj bs T w a) := by
        have hex := proj_step hst
        obtain ⟨p, l, x, q, hp, ha, hq, hl, rfl⟩ := step_some hst
        rw [hl] at hex ⊢
        cases l with
        | none =>
          have hq : w.q = q := Option.some.inj hq
          subst hq
          simp [Option.toList, accepted, flushed, ShmQueue.mine]
        | some l =>
          obtain ⟨_, a2, _, a4⟩ := act_label ha
          exact QueueMsg.room_one i (a2 (fun k hk' => hk k (by rw [hk']; exact List.mem_cons_self))) (fun j hj => h.1 j (a4 j hj)) hex
      simp only [projs, hst]
      rw [(QueueMsg.accepted_append (proj bs T w a) _ w.q t.q (proj_step hst)).1, ShmQueue.mine_append, QueueMsg.flushed_append, List.append_assoc,
        room_exec i as t w' (fun k hk' => hk k (List.mem_cons_of_mem _ hk')) (h.2 t hst) e, ← List.append_assoc, hstep, List.append_assoc]

/-! ### the ways of the messages -/

open QueueMsg.Spec (Way toProc fromProc)
open QueueMsg (ownS)

/-- The messages that readers took from the boxes of writers. -/
def ways : List (Nat × List M) → List (Nat × List UInt8 × List M) → List (Way M)
  | x :: xs, y :: ys => y.2.2.map (fun m => (⟨x.1, y.1, m⟩ : Way M)) ++ ways xs ys
  | _, _ => []

theorem ways_from (i : Nat) : ∀ (xs : List (Nat × List M)) (ys : List (Nat × List UInt8 × List M)), (∀ x y, (x, y) ∈ xs.zip ys → y.2.2 <+: x.2) →
    (fromProc (ways xs ys) i).Sublist (ownS xs i)
  | [], ys, _ => by simp [ways, fromProc]
  | x :: xs, [], _ => by simp [ways, fromProc]
  | x :: xs, y :: ys, h => by
    have h1 := h x y (by simp)
    have h2 := ways_from i xs ys (fun a b hab => h a b (by simp [hab]))
    simp only [ways]
    rw [QueueMsg.fromProc_append, QueueMsg.fromProc_map]
    unfold ownS at h2 ⊢
    by_cases hx : x.1 = i
    · rw [if_pos hx, List.filter_cons_of_pos (by simpa using hx)]
      simp only [List.map_cons, List.flatten_cons]
      exact h1.sublist.append h2
    · rw [if_neg hx, List.filter_cons_of_neg (by simpa using hx), List.nil_append]
      exact h2

theorem ways_all (i : Nat) : ∀ (xs : List (Nat × List M)) (ys : List (Nat × List UInt8 × List M)), xs.length = ys.length → (∀ x y, (x, y) ∈ xs.zip ys → y.2.2 = x.2) →
    fromProc (ways xs ys) i = ownS xs i
  | [], ys, _, _ => by simp [ways, fromProc, ownS]
  | x :: xs, [], hl, _ => by simp at hl
  | x :: xs, y :: ys, hl, h => by
    have h1 := h x y (by simp)
    have h2 := ways_all i xs ys (by simpa using hl) (fun a b hab => h a b (by simp [hab]))
    simp only [ways]
    rw [QueueMsg.fromProc_append, QueueMsg.fromProc_map, h2, h1]
    unfold ownS
    by_cases hx : x.1 = i
    · rw [if_pos hx, List.filter_cons_of_pos (by simpa using hx)]; simp
    · rw [if_neg hx, List.filter_cons_of_neg (by simpa using hx), List.nil_append]

theorem ways_to (j : Nat) : ∀ (xs : List (Nat × List M)) (ys : List (Nat × List UInt8 × List M)), ys.length ≤ xs.length →
    toProc (ways xs ys) j = ((ys.filter (fun y => y.1 = j)).map Prod.snd).flatMap Prod.snd
  | xs, [], _ => by cases xs <;> simp [ways, toProc]
  | [], y :: ys, h => by simp at h
  | x :: xs, y :: ys, h => by
    simp only [ways]
    rw [QueueMsg.toProc_append, QueueMsg.toProc_map, ways_to j xs ys (by simpa using h)]
    by_cases hy : y.1 = j
    · rw [if_pos hy, List.filter_cons_of_pos (by simpa using hy)]; simp
    · rw [if_neg hy, List.filter_cons_of_neg (by simpa using hy), List.nil_append]

theorem zip_box : ∀ (xs : List (Nat × List M)) (ys : List (Nat × List UInt8 × List M)), ys.map (fun y => y.2.1) = xs.map (fun x => boxOf T bs x.2) →
    ∀ x y, (x, y) ∈ xs.zip ys → y.2.1 = boxOf T bs x.2
  | xs, [], _, x, y, h => by simp at h
  | [], y :: ys, _, _, _, h => by simp at h
  | a :: xs, b :: ys, hp, x, y, h => by
    simp only [List.map_cons, List.cons.injEq] at hp
    simp only [List.zip_cons_cons, List.mem_cons, Prod.mk.injEq] at h
    rcases h with ⟨rfl, rfl⟩ | h
    · exact hp.1
    · exact zip_box xs ys hp.2 x y h

end Verif.QueueVar
