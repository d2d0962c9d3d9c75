/-
  Messages between processes: what goes in with `put` comes out with `get`.
-/
import Verif.QueueMsg.Lemmas
import Verif.ShmQueue.Props

set_option linter.unusedSimpArgs false
set_option linter.unusedVariables false

namespace Verif.QueueMsg

open ShmQueue (Box Proc Mode boxOf Codec accepted delivered flushed)
open Spec

variable {M : Type} {size bs K : Nat} {ser : M → List UInt8} {des : List UInt8 → Option M}

theorem pending_idle {s : ShmQueue.State} (h : ShmQueue.quiet s) (i : Nat) : ShmQueue.pending s i = [] := by
  unfold ShmQueue.pending
  split
  · rename_i p hp
    rcases h p (List.mem_of_getElem? hp) with e | e <;> rw [e]
  · rfl

theorem zip_box : ∀ (xs : List (Nat × List M)) (ys : List (Nat × List UInt8 × Nat)), ys.map (fun y => y.2.1) <+: xs.map (fun x => boxOf bs ser x.2) →
    ∀ x y, (x, y) ∈ xs.zip ys → y.2.1 = boxOf bs ser x.2
  | xs, [], _, x, y, h => by simp at h
  | [], y :: ys, _, _, _, h => by simp at h
  | a :: xs, b :: ys, hp, x, y, h => by
    simp only [List.map_cons, List.cons_prefix_cons] at hp
    simp only [List.zip_cons_cons, List.mem_cons, Prod.mk.injEq] at h
    rcases h with ⟨rfl, rfl⟩ | h
    · exact hp.1
    · exact zip_box xs ys hp.2 x y h

theorem sub_flatten {a b : List (List M)} (h : a.Sublist b) : a.flatten.Sublist b.flatten := by
  induction h with
  | slnil => exact List.Sublist.refl _
  | cons x _ ih => rw [List.flatten_cons]; exact ih.trans (List.sublist_append_right _ _)
  | cons_cons x _ ih => rw [List.flatten_cons, List.flatten_cons]; exact (List.Sublist.refl x).append ih

/-- Both theorems at once. -/
theorem core (dr : Prop) (hc : Codec K ser des) (hz : ∀ n, des (List.replicate n 0) = none) (h1 : 1 ≤ size) (h2 : size < 2 ^ 32) (h3 : size * bs < 2 ^ 32)
    {writes : Nat → Bool} {n : Nat} {as : List (Label M)} {w : World M} (hr : ∀ a ∈ as, inRole writes a = true) (hd : dr → readsUp size bs K ser des (init bs n) as)
    (he : exec size bs K ser des (init bs n) as = some w) :
    ∃ h : List (Way M), (∀ i, (fromProc h i).Sublist (w.sent i)) ∧ (∀ j, toProc h j = w.got j) ∧
      (dr → roomy size bs K ser des (init bs n) as → size ≤ 32768 → ShmQueue.quiet w.q → w.q.sem.w = 0 → (∀ i, writes i = true → (w.loc i).box.pos = 0) →
        ∀ i, fromProc h i = w.sent i) := by
  have hring := projs_exec as (init bs n) w he
  have hcalm := projs_calm (size := size) (bs := bs) (K := K) (ser := ser) (des := des) as (init bs n)
  have hI0 : (init (M := M) bs n).q = ShmQueue.init bs n := rfl
  rw [hI0] at hring
  generalize hls : projs size bs K ser des (init bs n) as = ls at hring hcalm
  have hfifo := ShmQueue.C54_fifo h1 h2 h3 hcalm hring
  -- what the writers flushed, and what was accepted of it
  have hW : ∀ i, ∃ x : List (List M) × List (List M), (writes i = true → ∃ cur, (x.1.flatten ++ cur = w.sent i) ∧
        (ShmQueue.quiet w.q → (w.loc i).box.pos = 0 → cur = [])) ∧ (writes i = false → x.1 = [] ∧ w.sent i = []) ∧
      (∀ ms ∈ x.1, ms.length * K ≤ bs) ∧ flushed i ls = x.1.map (boxOf bs ser) ∧ x.2.Sublist x.1 ∧
      ShmQueue.mine i (accepted size bs (ShmQueue.init bs n) ls) = x.2.map (boxOf bs ser) ∧
      (roomy size bs K ser des (init bs n) as → ShmQueue.quiet w.q → x.2 = x.1) := by
    intro i
    have hsub := ShmQueue.C54_writer_order hring i
    have hroom : roomy size bs K ser des (init bs n) as → ShmQueue.quiet w.q → ShmQueue.mine i (accepted size bs (ShmQueue.init bs n) ls) = flushed i ls := by
      intro hro hq
      have := room_exec i as (init bs n) w hro he
      rw [hls, hI0, pending_idle hq, pending_idle (s := ShmQueue.init bs n), List.append_nil, List.nil_append] at this
      · exact this
      · intro p hp
        rw [(List.mem_replicate.mp hp).2]
        exact .inl rfl
    cases hwi : writes i with
    | true =>
      have hw := winv_exec hc.len hwi as (init bs n) w [] hr (winv_init n i) he
      rw [hls, List.nil_append] at hw
      obtain ⟨_, bl, hF, hfit, hcase⟩ := hw
      have hcur : ∃ cur, bl.flatten ++ cur = w.sent i ∧ (ShmQueue.quiet w.q → (w.loc i).box.pos = 0 → cur = []) := by
        rcases hcase with ⟨p, hp, hm, hs⟩ | ⟨_, cur, hcf, hbox, hs⟩
        · exact ⟨[], by simp [hs], fun _ _ => rfl⟩
        · refine ⟨cur, hs.symm, fun _ hp0 => ?_⟩
          rw [hbox] at hp0
          cases cur with
          | nil => rfl
          | cons m ms =>
            have hp0 : (m :: ms).length * K = 0 := hp0
            have hK : K = 0 := by
              rcases Nat.mul_eq_zero.mp hp0 with h | h
              · simp at h
              · exact h
            have hm := hc.back m []
            have hse : ser m = [] := List.length_eq_zero_iff.mp (by rw [hc.len, hK])
            rw [hse] at hm
            have := hz 0
            simp only [List.replicate_zero] at this
            rw [List.nil_append, this] at hm
            exact absurd hm (by simp)
      by_cases hall : ShmQueue.mine i (accepted size bs (ShmQueue.init bs n) ls) = flushed i ls
      · exact ⟨(bl, bl), fun _ => hcur, by simp, hfit, hF, List.Sublist.refl _, by rw [hall, hF], fun _ _ => rfl⟩
      · rw [hF] at hsub
        obtain ⟨bl', hs', he'⟩ := List.sublist_map_iff.mp hsub
        exact ⟨(bl, bl'), fun _ => hcur, by simp, hfit, hF, hs', he', fun a b => absurd (hroom a b) hall⟩
    | false =>
      have hfl : flushed i ls = [] := by rw [← hls]; exact rflush_exec hwi as _ hr
      have hw := rinv_exec (dr := False) hz hwi as (init bs n) w [] hr (fun x => x.elim) (rinv_init n i) he
      rw [hfl] at hsub
      exact ⟨([], []), by simp, fun _ => ⟨rfl, hw.1⟩, by simp, by simp [hfl], List.Sublist.refl _, by simpa [ShmQueue.mine] using hsub, fun _ _ => rfl⟩
  obtain ⟨fw, hfw⟩ := choose_fam hW
  obtain ⟨BA, hBA, hBA2⟩ := join_tags (boxOf bs ser) (accepted size bs (ShmQueue.init bs n) ls) (fun i => (fw i).2) (fun i => (hfw i).2.2.2.2.2.1)
  -- what the readers were given
  have hR : ∀ j, ∃ P : List (List UInt8 × Nat), ShmQueue.mine j (delivered size bs (ShmQueue.init bs n) ls) = P.map Prod.fst ∧ w.got j = readAll K des P ∧
      (dr → ∀ x ∈ P, stuck K des x) := by
    intro j
    cases hwj : writes j with
    | true =>
      have hw := winv_exec hc.len hwj as (init bs n) w [] hr (winv_init n j) he
      have hdel := wdel_exec hc.len hwj as (init bs n) w [] hr (winv_init n j) he
      rw [hls, hI0] at hdel
      exact ⟨[], hdel, hw.1, by simp⟩
    | false =>
      have hw := rinv_exec (dr := dr) hz hwj as (init bs n) w [] hr hd (rinv_init n j) he
      rw [hls, hI0, List.nil_append] at hw
      obtain ⟨_, _, P, hP, hg, hcase⟩ := hw
      refine ⟨P, hP, hg, ?_⟩
      intro hdr x hx
      rcases hcase with ⟨rfl, _⟩ | ⟨P0, cb, n', rfl, hbox, _, hst⟩
      · simp at hx
      · rcases List.mem_append.mp hx with hx | hx
        · exact (hst hdr).1 x hx
        · rw [List.mem_singleton.mp hx]
          have := readsUp_end as _ _ (hd hdr) he j
          rw [hbox] at this
          exact this
  obtain ⟨fr, hfr⟩ := choose_fam hR
  obtain ⟨BD, hBD, hBD2⟩ := join_tags Prod.fst (delivered size bs (ShmQueue.init bs n) ls) fr (fun j => (hfr j).1)
  have hpre : BD.map (fun y => y.2.1) <+: BA.map (fun x => boxOf bs ser x.2) := by
    rw [← hBA, ← hBD, List.map_map, List.map_map] at hfifo
    exact hfifo
  have hfit : ∀ x ∈ BA, x.2.length * K ≤ bs := by
    intro x hx
    refine (hfw x.1).2.2.1 x.2 ((hfw x.1).2.2.2.2.1.subset ?_)
    rw [← hBA2 x.1]
    exact List.mem_map_of_mem (List.mem_filter.mpr ⟨hx, by simp⟩)
  refine ⟨ways BA BD, ?_, ?_, ?_⟩
  · intro i
    refine (ways_from i BA BD).trans ?_
    unfold ownS
    rw [hBA2 i]
    have hs : ((fw i).2.flatten).Sublist ((fw i).1.flatten) := sub_flatten (hfw i).2.2.2.2.1
    refine hs.trans ?_
    cases hwi : writes i with
    | true =>
      obtain ⟨cur, h, _⟩ := (hfw i).1 hwi
      rw [← h]
      exact List.sublist_append_left _ _
    | false =>
      rw [((hfw i).2.1 hwi).1]
      simp
  · intro j
    rw [ways_to hc hz j BA BD hpre hfit, hBD2 j, (hfr j).2.1]
  · intro hdr hro h32 hq hw0 hpos i
    obtain ⟨rest, hrest, hcount, _⟩ := ShmQueue.C54_no_loss h1 h32 h3 hcalm hring hq
    have hlen : BA.length = BD.length := by
      have hr0 : rest = [] := by
        rw [hw0] at hcount
        exact List.length_eq_zero_iff.mp (by omega)
      rw [hr0, List.append_nil, ← hBA, ← hBD] at hrest
      have := congrArg List.length hrest
      simpa using this
    rw [ways_all i BA BD hlen ?_]
    · unfold ownS
      rw [hBA2 i, (hfw i).2.2.2.2.2.2 hro hq]
      cases hwi : writes i with
      | true =>
        obtain ⟨cur, h, h0⟩ := (hfw i).1 hwi
        rw [h0 hq (hpos i hwi), List.append_nil] at h
        exact h
      | false =>
        obtain ⟨e1, e2⟩ := (hfw i).2.1 hwi
        rw [e1, e2]; rfl
    · intro x y hxy
      have hb := zip_box BA BD hpre x y hxy
      have hy : y ∈ BD := (List.of_mem_zip hxy).2
      have hst := (hfr y.1).2.2 hdr y.2 (by rw [← hBD2 y.1]; exact List.mem_map_of_mem (List.mem_filter.mpr ⟨hy, by simp⟩))
      obtain ⟨a, b, c⟩ := y
      simp only at hb hst
      rw [hb] at hst
      exact get_more hc (hfit x (List.of_mem_zip hxy).1) hst

/-- C145: processes that only write and processes that only read, any number of them, any schedule: there is a list of ways, each from one process to one process, such that what a
process got is exactly what the list says in this order, and what the list says of a sender is in the order in which it sent, nothing twice and nothing that it did not send. -/
theorem C145_ways (hc : Codec K ser des) (hz : ∀ n, des (List.replicate n 0) = none) (h1 : 1 ≤ size) (h2 : size < 2 ^ 32) (h3 : size * bs < 2 ^ 32)
    (writes : Nat → Bool) (n : Nat) (as : List (Label M)) (w : World M) (hr : ∀ a ∈ as, inRole writes a = true)
    (he : exec size bs K ser des (init bs n) as = some w) :
    ∃ h : List (Way M), (∀ j, toProc h j = w.got j) ∧ ∀ i, (fromProc h i).Sublist (w.sent i) := by
  obtain ⟨h, a, b, _⟩ := core False hc hz h1 h2 h3 hr (fun x => x.elim) he
  exact ⟨h, b, a⟩

/-- C145: and if no flush found the ring full (and the ring has at most 32768 boxes), the writers have flushed, no box is left in the ring and readers read each box up, the list has
every message that was sent. -/
theorem C145_all (hc : Codec K ser des) (hz : ∀ n, des (List.replicate n 0) = none) (h1 : 1 ≤ size) (h2 : size ≤ 32768) (h3 : size * bs < 2 ^ 32)
    (writes : Nat → Bool) (n : Nat) (as : List (Label M)) (w : World M) (hr : ∀ a ∈ as, inRole writes a = true)
    (he : exec size bs K ser des (init bs n) as = some w) (hroom : roomy size bs K ser des (init bs n) as) (hup : readsUp size bs K ser des (init bs n) as)
    (hq : ShmQueue.quiet w.q) (hnone : w.q.sem.w = 0) (hpos : ∀ i, writes i = true → (w.loc i).box.pos = 0) :
    ∃ h : List (Way M), (∀ j, toProc h j = w.got j) ∧ ∀ i, fromProc h i = w.sent i := by
  obtain ⟨h, a, b, c⟩ := core True hc hz h1 (by omega) h3 hr (fun _ => hup) he
  exact ⟨h, b, c trivial hroom h2 hq hnone hpos⟩

/-- A `put` of `m` is in progress in flush, or it has returned true. -/
def Putting (w : World M) (i : Nat) (S : List M) (m : M) : Prop :=
  (∃ p, w.q.procs[i]? = some p ∧ inF p.mode = true ∧ (w.loc i).pend = some m ∧ w.sent i = S) ∨
  ((∃ p, w.q.procs[i]? = some p ∧ p.mode = .idle) ∧ w.sent i = S ++ [m])

theorem put_clear (h : K ≤ bs) (m : M) : ∃ b, Box.put K ser (Box.clear bs) m = some b := by
  unfold Box.put Box.is_space_for Box.clear
  rw [if_pos (by simpa using h)]
  exact ⟨_, rfl⟩

theorem putting_step (hK : K ≤ bs) {w w' : World M} {a : Label M} {i : Nat} {S : List M} {m : M} (hn : noCall i a = true) (h : Putting w i S m)
    (e : step size bs K ser des w a = some w') : Putting w' i S m := by
  by_cases hw : i = a.who
  · cases a with
    | adv j =>
      have hw : i = j := hw
      subst hw
      simp only [step] at e
      split at e
      · rename_i p hp
        split at e
        · rename_i q hq
          rw [← Option.some.inj e]
          obtain ⟨p', hp', m1, m2, m3, m4, m5⟩ := adv_mode hp hq
          rcases h with ⟨x, hx, hxm, hpe, hsent⟩ | ⟨⟨x, hx, hxm⟩, _⟩
          · rw [hp] at hx
            rw [← Option.some.inj hx] at hxm
            unfold after
            by_cases h6 : p.mode = .f6
            · rw [if_pos h6]
              obtain ⟨b, hb⟩ := put_clear (ser := ser) hK m
              unfold endFlush
              simp only [hpe, hb]
              refine .inr ⟨⟨p', hp', m1 h6⟩, ?_⟩
              show upd w.sent i _ i = _
              rw [upd_same]
              show w.sent i ++ [m] = _
              rw [hsent]
            · have hu : ¬ p.mode = .u6 := by intro hu; rw [hu] at hxm; exact absurd hxm (by simp [inF])
              rw [if_neg h6, if_neg hu]
              exact .inl ⟨p', hp', m3 hxm h6, hpe, hsent⟩
          · rw [hp] at hx
            rw [← Option.some.inj hx] at hxm
            exact absurd hxm m5
        · exact absurd e (by simp)
      · exact absurd e (by simp)
    | _ => simp_all [noCall, Label.who]
  · obtain ⟨f1, f2, f3, _, _, _⟩ := frame e hw
    unfold Putting
    rw [f1, f2, f3]
    exact h

theorem putting_exec (hK : K ≤ bs) {i : Nat} {S : List M} {m : M} : ∀ (as : List (Label M)) (w w' : World M), (∀ a ∈ as, noCall i a = true) → Putting w i S m →
    exec size bs K ser des w as = some w' → Putting w' i S m
  | [], w, w', _, h, e => by rw [← Option.some.inj e]; exact h
  | a :: as, w, w', hn, h, e => by
    simp only [exec] at e
    cases hst : step size bs K ser des w a with
    | none => rw [hst] at e; exact absurd e (by simp)
    | some t =>
      rw [hst] at e
      exact putting_exec hK as t w' (fun b hb => hn b (List.mem_cons_of_mem _ hb)) (putting_step hK (hn a List.mem_cons_self) h hst) e

/-- C145: a message that fits into a box is never refused: when the call of put is over, whatever else happens meanwhile, it has returned true. -/
theorem C145_put (hK : K ≤ bs) {w w' : World M} {i : Nat} {m : M} {as : List (Label M)} (hn : ∀ a ∈ as, noCall i a = true)
    (he : exec size bs K ser des w (.put i m :: as) = some w') (hd : ∃ p, w'.q.procs[i]? = some p ∧ p.mode = .idle) : w'.sent i = w.sent i ++ [m] := by
  simp only [exec] at he
  cases hst : step size bs K ser des w (.put i m) with
  | none => rw [hst] at he; exact absurd he (by simp)
  | some t =>
    rw [hst] at he
    have h0 : Putting t i (w.sent i) m := by
      simp only [step, callPut] at hst
      split at hst
      · split at hst
        · rename_i hid
          rw [← Option.some.inj hst]
          exact .inr ⟨idle_proc hid, upd_same _ _ _⟩
        · exact absurd hst (by simp)
      · obtain ⟨q, hq, rfl⟩ := callFlush_some hst
        obtain ⟨_, p', hp', hm'⟩ := flush_mode hq
        exact .inl ⟨p', hp', hm', by simp [upd_same], rfl⟩
    rcases putting_exec hK as t w' hn h0 he with ⟨x, hx, hxm, _⟩ | ⟨_, h⟩
    · obtain ⟨p, hp, hm⟩ := hd
      rw [hp] at hx
      rw [← Option.some.inj hx, hm] at hxm
      exact absurd hxm (by simp [inF])
    · exact h

example : ∃ w w' : World (Fin 255), exec 3 2 1 ShmQueue.ser1 ShmQueue.des1 (init 2 2) [.put 0 5, .put 0 6] = some w ∧
    exec 3 2 1 ShmQueue.ser1 ShmQueue.des1 w (.put 0 7 :: List.replicate 8 (.adv 0)) = some w' ∧ (∃ p, w'.q.procs[0]? = some p ∧ p.mode = .idle) ∧ w'.sent 0 = [5, 6, 7] :=
  ⟨_, _, rfl, rfl, ⟨_, rfl, rfl⟩, rfl⟩

/-! ### a run that meets the hypotheses -/

def advs (i k : Nat) : List (Label M) := List.replicate k (.adv i)

/-- Process 0 sends 5, 6, 7 and flushes, process 1 reads two boxes up. -/
def run1 : List (Label (Fin 255)) :=
  [.put 0 5, .put 0 6, .put 0 7] ++ advs 0 8 ++ [.flush 0] ++ advs 0 8 ++ [.unflush 1] ++ advs 1 10 ++ [.get 1, .get 1, .get 1, .unflush 1] ++ advs 1 10 ++ [.get 1, .get 1]

def roomyB (size bs K : Nat) (ser : M → List UInt8) (des : List UInt8 → Option M) (w : World M) : List (Label M) → Bool
  | [] => true
  | a :: as =>
    (match a with
      | .adv i => (match w.q.procs[i]? with
        | some p => decide (¬ (p.mode = .f1 ∧ ((w.q.end_ + 1) % 2 ^ 32) % size = w.q.start))
        | none => true)
      | _ => true) &&
    (match step size bs K ser des w a with
      | some w' => roomyB size bs K ser des w' as
      | none => true)

theorem roomyB_ok : ∀ (as : List (Label M)) (w : World M), roomyB size bs K ser des w as = true → roomy size bs K ser des w as
  | [], _, _ => trivial
  | a :: as, w, h => by
    simp only [roomyB, Bool.and_eq_true] at h
    refine ⟨?_, ?_⟩
    · rintro i rfl ⟨p, hp, hm⟩
      have h0 := h.1
      simp only [hp, decide_eq_true_eq] at h0
      exact h0 hm
    · intro w' e
      have h0 := h.2
      simp only [e] at h0
      exact roomyB_ok as w' h0

def readsUpB (size bs K : Nat) (ser : M → List UInt8) (des : List UInt8 → Option M) (n : Nat) (w : World M) : List (Label M) → Bool
  | [] => (List.range n).all (fun j => ((w.loc j).box.get K des).isNone)
  | a :: as =>
    (match a with
      | .unflush j => ((w.loc j).box.get K des).isNone
      | _ => true) && decide (a.who < n) &&
    (match step size bs K ser des w a with
      | some w' => readsUpB size bs K ser des n w' as
      | none => true)

theorem readsUpB_ok (n : Nat) : ∀ (as : List (Label M)) (w : World M), (∀ j, n ≤ j → (w.loc j).box.get K des = none) → readsUpB size bs K ser des n w as = true →
    readsUp size bs K ser des w as
  | [], w, hn, h => by
    simp only [readsUpB, List.all_eq_true, List.mem_range, Option.isNone_iff_eq_none] at h
    intro j
    by_cases hj : j < n
    · exact h j hj
    · exact hn j (by omega)
  | a :: as, w, hn, h => by
    simp only [readsUpB, Bool.and_eq_true, decide_eq_true_eq] at h
    refine ⟨?_, ?_⟩
    · rintro j rfl
      simpa using h.1.1
    · intro w' e
      have h0 := h.2
      simp only [e] at h0
      refine readsUpB_ok n as w' (fun j hj => ?_) h0
      rw [(frame e (show j ≠ a.who by omega)).2.1]
      exact hn j hj

def quietB (s : ShmQueue.State) : Bool := s.procs.all (fun p => decide (p.mode = .idle ∨ p.mode = .dead))
theorem quietB_ok {s : ShmQueue.State} (h : quietB s = true) : ShmQueue.quiet s := fun p hp => of_decide_eq_true (List.all_eq_true.mp h p hp)

example : ∃ w, exec 3 2 1 ShmQueue.ser1 ShmQueue.des1 (init 2 2) run1 = some w ∧ w.sent 0 = [5, 6, 7] ∧ w.got 1 = [5, 6, 7] ∧ ShmQueue.quiet w.q ∧ w.q.sem.w = 0 ∧
    (∀ i, decide (i = 0) = true → (w.loc i).box.pos = 0) ∧ (∀ a ∈ run1, inRole (fun i => decide (i = 0)) a = true) ∧
    roomy 3 2 1 ShmQueue.ser1 ShmQueue.des1 (init 2 2) run1 ∧ readsUp 3 2 1 ShmQueue.ser1 ShmQueue.des1 (init 2 2) run1 := by
  refine ⟨_, rfl, by decide +kernel, by decide +kernel, quietB_ok (by decide +kernel), by decide +kernel, ?_, by decide +kernel, roomyB_ok _ _ (by decide +kernel), readsUpB_ok 2 _ _ ?_ (by decide +kernel)⟩
  · intro i hi
    have : i = 0 := by simpa using hi
    subst this
    decide +kernel
  · intro j _
    exact get_clear ShmQueue.zeros1
example : Codec 1 ShmQueue.ser1 ShmQueue.des1 := ShmQueue.codec1
example (n : Nat) : ShmQueue.des1 (List.replicate n 0) = none := ShmQueue.zeros1 n

/-! ### one handle for both -/

theorem count_two {α : Type} (p q r : α → Bool) : ∀ (l : List α), (∀ x ∈ l, p x = true → r x = true ∧ q x = false) → (∀ x ∈ l, q x = true → r x = true) →
    l.countP p + l.countP q ≤ l.countP r
  | [], _, _ => by simp
  | a :: l, h1, h2 => by
    have ih := count_two p q r l (fun x hx => h1 x (List.mem_cons_of_mem _ hx)) (fun x hx => h2 x (List.mem_cons_of_mem _ hx))
    have a1 := h1 a List.mem_cons_self
    have a2 := h2 a List.mem_cons_self
    simp only [List.countP_cons]
    cases hp : p a <;> cases hq : q a <;> cases hr : r a <;> simp_all <;> omega

/-- Process 0 sends 5, 6; process 1 reads 5 and then sends 7 with the same handle; process 2 reads what process 1 sent. -/
def run2 : List (Label (Fin 255)) :=
  [.put 0 5, .put 0 6, .flush 0] ++ advs 0 8 ++ [.unflush 1] ++ advs 1 10 ++ [.get 1, .put 1 7, .flush 1] ++ advs 1 8 ++ [.unflush 2] ++ advs 2 10 ++ [.get 2, .get 2, .get 2]

theorem exec_frame (n : Nat) : ∀ (as : List (Label M)) (w w' : World M), as.all (fun a => decide (a.who < n)) = true → exec size bs K ser des w as = some w' →
    ∀ j, n ≤ j → w'.sent j = w.sent j ∧ w'.got j = w.got j
  | [], w, w', _, e, j, _ => by rw [← Option.some.inj e]; exact ⟨rfl, rfl⟩
  | a :: as, w, w', h, e, j, hj => by
    simp only [List.all_cons, Bool.and_eq_true, decide_eq_true_eq] at h
    simp only [exec] at e
    cases hst : step size bs K ser des w a with
    | none => rw [hst] at e; exact absurd e (by simp)
    | some t =>
      rw [hst] at e
      obtain ⟨h1, h2⟩ := exec_frame n as t w' h.2 e j hj
      have hf := frame hst (show j ≠ a.who by omega)
      exact ⟨h1.trans hf.2.2.1, h2.trans hf.2.2.2.1⟩

/-- If a message was sent once, and two processes have got it, no list of ways explains it. -/
theorem no_ways {w : World (Fin 255)} {m : Fin 255} {i j k : Nat} (hi : (w.sent i).count m ≤ 1) (hn : ∀ x, x ≠ i → m ∉ w.sent x) (hjk : j ≠ k) (hj : m ∈ w.got j) (hk : m ∈ w.got k) :
    ¬ ∃ h : List (Way (Fin 255)), (∀ j, toProc h j = w.got j) ∧ ∀ i, (fromProc h i).Sublist (w.sent i) := by
  rintro ⟨h, ht, hf⟩
  have hsrc : ∀ x ∈ h, x.msg = m → x.src = i := by
    intro x hx hm
    refine Decidable.byContradiction (fun hne => hn x.src hne ((hf x.src).subset ?_))
    rw [← hm]
    exact List.mem_map_of_mem (f := fun x : Way (Fin 255) => x.msg) (List.mem_filter.mpr ⟨hx, by simp⟩)
  have hto : ∀ y, m ∈ w.got y → 1 ≤ h.countP (fun x => x.dst = y && x.msg = m) := by
    intro y hy
    rw [← ht y] at hy
    obtain ⟨x, hx, hxm⟩ := List.mem_map.mp hy
    obtain ⟨h1, h2⟩ := List.mem_filter.mp hx
    exact List.countP_pos_iff.mpr ⟨x, h1, by simp_all⟩
  have hfr : h.countP (fun x => x.src = i && x.msg = m) = (fromProc h i).count m := by
    unfold fromProc
    rw [List.count, List.countP_map, List.countP_filter]
    congr 1
    funext x
    simp only [Function.comp, Bool.and_comm]
    cases x; simp only []; congr 1
  have h2 := count_two (fun x : Way (Fin 255) => x.dst = j && x.msg = m) (fun x => x.dst = k && x.msg = m) (fun x => x.src = i && x.msg = m) h
    (by
      intro x hx hp
      simp only [Bool.and_eq_true, decide_eq_true_eq] at hp ⊢
      refine ⟨⟨hsrc x hx hp.2, hp.2⟩, ?_⟩
      have : ¬ x.dst = k := by rw [hp.1]; exact hjk
      simp [this])
    (by
      intro x hx hp
      simp only [Bool.and_eq_true, decide_eq_true_eq] at hp ⊢
      exact ⟨hsrc x hx hp.2, hp.2⟩)
  have h3 : (fromProc h i).count m ≤ (w.sent i).count m := (hf i).count_le m
  have := hto j hj
  have := hto k hk
  omega

/-- C146 fails: a handle that reads and writes: process 2 gets a message of process 0 that process 1 has got too, and another message of process 0 gets to nobody, although the ring
was never full and nothing is left in it.  No list of ways explains what was got. -/
theorem C146_refuted : ∃ w, exec 3 2 1 ShmQueue.ser1 ShmQueue.des1 (init 2 3) run2 = some w ∧ roomy 3 2 1 ShmQueue.ser1 ShmQueue.des1 (init 2 3) run2 ∧
    w.q.sem.w = 0 ∧ w.sent 0 = [5, 6] ∧ w.sent 1 = [7] ∧ w.got 1 = [5] ∧ w.got 2 = [5, 7] ∧
    ¬ ∃ h : List (Way (Fin 255)), (∀ j, toProc h j = w.got j) ∧ ∀ i, (fromProc h i).Sublist (w.sent i) := by
  refine ⟨_, rfl, roomyB_ok _ _ (by decide +kernel), by decide +kernel, by decide +kernel, by decide +kernel, by decide +kernel, by decide +kernel, ?_⟩
  refine no_ways (m := 5) (i := 0) (j := 1) (k := 2) (by decide +kernel) ?_ (by decide) (by decide +kernel) (by decide +kernel)
  intro x hx
  by_cases h3 : 3 ≤ x
  · rw [(exec_frame (size := 3) (bs := 2) (K := 1) (ser := ShmQueue.ser1) (des := ShmQueue.des1) 3 run2 (init 2 3) _ (by decide +kernel) rfl x h3).1]
    simp [init]
  · have : x = 1 ∨ x = 2 := by omega
    rcases this with rfl | rfl <;> decide +kernel

/-! ### a class that reads zero bytes -/

/-- A message is one byte, and every byte is a message: an integer, say. -/
def serB (m : Fin 256) : List UInt8 := [UInt8.ofNat m.val]
def desB : List UInt8 → Option (Fin 256)
  | [] => none
  | c :: _ => some ⟨c.toNat, c.toNat_lt⟩

theorem codecB : Codec 1 serB desB := by
  refine ⟨fun _ => rfl, fun m rest => ?_⟩
  simp only [serB, List.singleton_append, desB]
  congr 1
  apply Fin.ext
  show (UInt8.ofNat m.val).toNat = m.val
  rw [UInt8.toNat_ofNat']
  exact Nat.mod_eq_of_lt m.isLt

def run3 : List (Label (Fin 256)) := [.put 0 5, .flush 0] ++ advs 0 8 ++ [.unflush 1] ++ advs 1 10 ++ [.get 1, .get 1, .get 1]

/-- C146: if deserialize accepts zero bytes, a reader gets messages that nobody sent: the rest of a box that was flushed before it was full. -/
theorem C146_zeros_refuted : ∃ w, Codec 1 serB desB ∧ exec 3 2 1 serB desB (init 2 2) run3 = some w ∧ (∀ a ∈ run3, inRole (fun i => decide (i = 0)) a = true) ∧
    w.sent 0 = [5] ∧ w.got 1 = [5, 0] :=
  ⟨_, codecB, rfl, by decide +kernel, by decide +kernel, by decide +kernel⟩

/-- Process 0 sends 5, 6 while the ring, that has room for no box, is full: size 1. -/
def run4 : List (Label (Fin 255)) := [.put 0 5, .put 0 6, .put 0 7] ++ advs 0 3

/-- C145 without the condition that the ring is never full: `put` has returned true for messages that are in no box and in no ring. -/
theorem C145_full_refuted : ∃ w, exec 1 2 1 ShmQueue.ser1 ShmQueue.des1 (init 2 2) run4 = some w ∧ (∀ a ∈ run4, inRole (fun i => decide (i = 0)) a = true) ∧
    w.sent 0 = [5, 6, 7] ∧ ShmQueue.quiet w.q ∧ w.q.sem.w = 0 ∧ (w.loc 0).box = ⟨[8, 0], 1⟩ :=
  ⟨_, rfl, by decide +kernel, by decide +kernel, quietB_ok (by decide +kernel), by decide +kernel, by decide +kernel⟩

end Verif.QueueMsg
