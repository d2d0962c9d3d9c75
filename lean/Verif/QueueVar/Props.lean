/-
  C155: messages of different sizes between processes.
-/
import Verif.QueueVar.Lemmas

set_option linter.unusedVariables false

namespace Verif.QueueVar

open ShmQueue (Proc Mode accepted delivered flushed)
open VarBox (Box Class flat boxOf)
open QueueMsg.Spec (Way toProc fromProc)
open Spec

variable {M : Type} {size bs lo : Nat} {T : Class M} {ok : M → Prop}

/-- What is known of each process: what it flushed and what it took from the boxes that it received. -/
theorem views (hc : Contract T lo ok) (dr : Prop) (h0 : Option M) {writes : Nat → Bool} {n : Nat} {as : List (Label M)} {w : World M} (hr : ∀ a ∈ as, inRole T lo ok writes a)
    (hd : dr → ∀ h, h0 = some h → readsUp size bs T h (init bs n) as) (he : exec size bs T (init bs n) as = .ok (some w)) (i : Nat) :
    (writes i = true ∧ WInv T ok bs w i (flushed i (projs size bs T (init bs n) as)) ∧ ShmQueue.mine i (delivered size bs (ShmQueue.init bs n) (projs size bs T (init bs n) as)) = []) ∨
    (writes i = false ∧ RInv dr h0 T lo bs w i (delivered size bs (ShmQueue.init bs n) (projs size bs T (init bs n) as)) ∧ flushed i (projs size bs T (init bs n) as) = []) := by
  have hI0 : (init (M := M) bs n).q = ShmQueue.init bs n := rfl
  rw [← hI0]
  cases hwi : writes i with
  | true => left; simpa using winv_exec hc hwi as (init bs n) w [] hr (winv_init n i) he
  | false => right; simpa using rinv_exec hc hwi as (init bs n) w [] hr hd (rinv_init n i) he

/-- The boxes that were delivered are boxes that writers filled, in the order in which the ring accepted them. -/
theorem history (hc : Contract T lo ok) (h1 : 1 ≤ size) (h2 : size < 2 ^ 32) (h3 : size * bs < 2 ^ 32) (dr : Prop) (h0 : Option M) {writes : Nat → Bool} {n : Nat} {as : List (Label M)} {w : World M}
    (hr : ∀ a ∈ as, inRole T lo ok writes a) (hk : harmlessKills size bs T (init bs n) as) (hd : dr → ∀ h, h0 = some h → readsUp size bs T h (init bs n) as)
    (he : exec size bs T (init bs n) as = .ok (some w)) :
    ∃ (BA : List (Nat × List M)) (BD : List (Nat × List UInt8 × List M)), BD.map (fun y => y.2.1) = BA.map (fun x => boxOf T bs x.2) ∧ (∀ x ∈ BA, (flat T x.2).length ≤ bs ∧ ∀ m ∈ x.2, ok m) ∧
      (∀ y ∈ BD, ∃ pos, Reach T lo y.2.1 y.2.2 pos) ∧ (∀ i, (QueueMsg.ownS BA i).Sublist (w.loc i).sent) ∧
      (∀ j, ((BD.filter (fun y => y.1 = j)).map Prod.snd).flatMap Prod.snd = (w.loc j).got) ∧
      (∀ j, ShmQueue.mine j (delivered size bs (ShmQueue.init bs n) (projs size bs T (init bs n) as)) = ((BD.filter (fun y => y.1 = j)).map Prod.snd).map Prod.fst) ∧
      (dr → ∀ h, h0 = some h → ∀ y ∈ BD, stuck T lo h y.2) ∧
      ((∀ k, .kill k ∉ as) → roomy size bs T (init bs n) as → size ≤ 32768 → (∀ p ∈ w.q.procs, p.mode = .idle) → w.q.sem.w = 0 → (∀ i, writes i = true → (w.loc i).box.pos = 0) →
        ∀ i, QueueMsg.ownS BA i = (w.loc i).sent) := by
  have hring := projs_exec as (init bs n) w he
  have hsafe := projs_safe as (init bs n) hk
  have hI0 : (init (M := M) bs n).q = ShmQueue.init bs n := rfl
  rw [hI0] at hring hsafe
  have hV := views hc dr h0 hr hd he
  have hcalm : (∀ k, .kill k ∉ as) → ∀ l ∈ projs size bs T (init bs n) as, l.calm = true := fun hk => projs_calm as (init bs n) hk
  have hroom : ∀ i, (∀ k, .kill k ∉ as) → roomy size bs T (init bs n) as → (∀ p ∈ w.q.procs, p.mode = .idle) →
      ShmQueue.mine i (accepted size bs (ShmQueue.init bs n) (projs size bs T (init bs n) as)) = flushed i (projs size bs T (init bs n) as) := by
    intro i hnk hro hq
    have := room_exec i as (init bs n) w hnk hro he
    rw [hI0, QueueMsg.pending_idle (fun p hp => .inl (hq p hp)), QueueMsg.pending_idle (s := ShmQueue.init bs n), List.append_nil, List.nil_append] at this
    · exact this
    · intro p hp
      rw [(List.mem_replicate.mp hp).2]
      exact .inl rfl
  generalize projs size bs T (init bs n) as = ls at hring hsafe hV hcalm hroom ⊢
  have hsub := (ShmQueue.C83_killed_partial h1 h2 h3 hsafe hring).2.2
  -- what was accepted of each writer
  have hW : ∀ i, ∃ bl : List (List M), ShmQueue.mine i (accepted size bs (ShmQueue.init bs n) ls) = bl.map (boxOf T bs) ∧ (∀ ms ∈ bl, (flat T ms).length ≤ bs ∧ ∀ m ∈ ms, ok m) ∧
      bl.flatten.Sublist (w.loc i).sent ∧
      ((∀ k, .kill k ∉ as) → roomy size bs T (init bs n) as → (∀ p ∈ w.q.procs, p.mode = .idle) → (∀ i, writes i = true → (w.loc i).box.pos = 0) → bl.flatten = (w.loc i).sent) := by
    intro i
    have hs := ShmQueue.C54_writer_order hring i
    rcases hV i with ⟨hwi, ⟨_, hos, _, bl, rest, hF, hf0, hsent, hcase⟩, _⟩ | ⟨_, hR, hfl⟩
    · have hf : ∀ ms ∈ bl, (flat T ms).length ≤ bs ∧ ∀ m ∈ ms, ok m := fun ms hms =>
        ⟨hf0 ms hms, fun m hm => hos m (by rw [hsent]; exact List.mem_append_left _ (List.mem_flatten.mpr ⟨ms, hms, hm⟩))⟩
      have hrest : (∀ p ∈ w.q.procs, p.mode = .idle) → (∀ i, writes i = true → (w.loc i).box.pos = 0) → rest = [] := by
        intro hq hpos
        rcases hcase with ⟨_, h⟩ | ⟨p, hp, hcase⟩
        · exact h
        · rcases hcase with ⟨_, _, hb⟩ | ⟨_, h⟩ | hdd
          · have := hpos i hwi
            rw [hb] at this
            have hl := flat_count hc rest (fun m hm => hos m (by rw [hsent]; exact List.mem_append_right _ hm))
            have : (flat T rest).length = 0 := this
            exact List.length_eq_zero_iff.mp (by omega)
          · exact h
          · rw [hq p (List.mem_of_getElem? hp)] at hdd; exact absurd hdd (by simp)
      by_cases hall : ShmQueue.mine i (accepted size bs (ShmQueue.init bs n) ls) = flushed i ls
      · refine ⟨bl, by rw [hall, hF], hf, by rw [hsent]; exact List.sublist_append_left _ _, fun _ _ hq hpos => ?_⟩
        rw [hsent, hrest hq hpos, List.append_nil]
      · rw [hF] at hs
        obtain ⟨bl', hs', he'⟩ := List.sublist_map_iff.mp hs
        refine ⟨bl', he', fun ms hms => hf ms (hs'.subset hms), ?_, fun a b c => absurd (hroom i a b c) hall⟩
        rw [hsent]
        exact (QueueMsg.sub_flatten hs').trans (List.sublist_append_left _ _)
    · rw [hfl] at hs
      exact ⟨[], List.sublist_nil.mp hs, by simp, by simp, fun _ _ _ _ => hR.1.symm⟩
  obtain ⟨fw, hfw⟩ := QueueMsg.choose_fam hW
  obtain ⟨BA, hBA, hBA2⟩ := QueueMsg.join_tags (boxOf T bs) (accepted size bs (ShmQueue.init bs n) ls) fw (fun i => (hfw i).1)
  -- what readers took
  have hR : ∀ j, ∃ P : List (List UInt8 × List M), ShmQueue.mine j (delivered size bs (ShmQueue.init bs n) ls) = P.map Prod.fst ∧ (w.loc j).got = P.flatMap Prod.snd ∧
      (∀ x ∈ P, ∃ pos, Reach T lo x.1 x.2 pos) ∧ (dr → ∀ h, h0 = some h → ∀ x ∈ P, stuck T lo h x) := by
    intro j
    rcases hV j with ⟨_, hWI, hdel⟩ | ⟨_, ⟨_, _, P, g1, g2, g3, g4⟩, _⟩
    · exact ⟨[], hdel, hWI.1, by simp, by simp⟩
    · refine ⟨P, g1, g2, g3, fun hdr h hh x hx => ?_⟩
      rcases g4 with ⟨rfl, _⟩ | ⟨P0, cb, ts, pos, rfl, hbox, hre, hst⟩
      · simp at hx
      · rcases List.mem_append.mp hx with hx | hx
        · exact (hst hdr h hh).1 x hx
        · rw [List.mem_singleton.mp hx]
          have := readsUp_end as _ _ (hd hdr h hh) he j
          rw [hbox] at this
          exact ⟨pos, hre, this⟩
  obtain ⟨fr, hfr⟩ := QueueMsg.choose_fam hR
  obtain ⟨BD, hBD, hBD2⟩ := QueueMsg.join_tags Prod.fst (delivered size bs (ShmQueue.init bs n) ls) fr (fun j => (hfr j).1)
  have hsub' : (BD.map (fun y => y.2.1)).Sublist (BA.map (fun x => boxOf T bs x.2)) := by
    rw [← hBA, ← hBD, List.map_map, List.map_map] at hsub
    exact hsub
  obtain ⟨BA', hBs, hBe⟩ := List.sublist_map_iff.mp hsub'
  have hmem : ∀ y ∈ BD, y.2 ∈ fr y.1 := fun y hy => by
    rw [← hBD2 y.1]; exact List.mem_map_of_mem (List.mem_filter.mpr ⟨hy, by simp⟩)
  refine ⟨BA', BD, hBe, ?_, fun y hy => (hfr y.1).2.2.1 y.2 (hmem y hy), ?_, fun j => by rw [hBD2 j, (hfr j).2.1], fun j => by rw [hBD2 j]; exact (hfr j).1,
    fun hdr h hh y hy => (hfr y.1).2.2.2 hdr h hh y.2 (hmem y hy), ?_⟩
  · intro x hx
    refine (hfw x.1).2.1 x.2 ?_
    rw [← hBA2 x.1]
    exact List.mem_map_of_mem (List.mem_filter.mpr ⟨hBs.subset hx, by simp⟩)
  · intro i
    refine (QueueKill.ownS_sub hBs i).trans ?_
    unfold QueueMsg.ownS
    rw [hBA2 i]
    exact (hfw i).2.2.1
  · intro hnk hro h32 hq hw0 hpos i
    obtain ⟨rest, hrest, hcount, _⟩ := ShmQueue.C54_no_loss h1 h32 h3 (hcalm hnk) hring (fun p hp => .inl (hq p hp))
    have hlen : BA.length = BA'.length := by
      have hr0 : rest = [] := by
        rw [hw0] at hcount
        exact List.length_eq_zero_iff.mp (by omega)
      rw [hr0, List.append_nil, ← hBA, ← hBD] at hrest
      have e1 := congrArg List.length hrest
      have e2 := congrArg List.length hBe
      simp only [List.length_map] at e1 e2
      omega
    have : BA' = BA := hBs.eq_of_length hlen.symm
    rw [this]
    unfold QueueMsg.ownS
    rw [hBA2 i]
    exact (hfw i).2.2.2 hnk hro hq hpos

theorem took_prefix (hc : Contract T lo ok) {BA : List (Nat × List M)} {BD : List (Nat × List UInt8 × List M)} (e : BD.map (fun y => y.2.1) = BA.map (fun x => boxOf T bs x.2))
    (hf : ∀ x ∈ BA, (flat T x.2).length ≤ bs ∧ ∀ m ∈ x.2, ok m) (hR : ∀ y ∈ BD, ∃ pos, Reach T lo y.2.1 y.2.2 pos) : ∀ x y, (x, y) ∈ BA.zip BD → y.2.2 <+: x.2 := by
  intro x y hxy
  obtain ⟨pos, hp⟩ := hR y (List.of_mem_zip hxy).2
  rw [zip_box BA BD e x y hxy] at hp
  exact (reach_box hc (hf x (List.of_mem_zip hxy).1).2 (hf x (List.of_mem_zip hxy).1).1 hp).1

/-- **C155, killed processes**: any number of writers and readers, messages of any sizes, any schedule, kills anywhere except at the three places of `harmless`, and readers that call `get` with any
objects that are not smaller than the least message: every message that was got, was sent by somebody, nothing is got twice, and the messages of one sender are got in the order in which they were
sent.  Missing: the three places (C152_refuted). -/
theorem C155_ways_partial (hc : Contract T lo ok) (h1 : 1 ≤ size) (h2 : size < 2 ^ 32) (h3 : size * bs < 2 ^ 32) (writes : Nat → Bool) (n : Nat) (as : List (Label M)) (w : World M)
    (hr : ∀ a ∈ as, inRole T lo ok writes a) (hk : harmlessKills size bs T (init bs n) as) (he : exec size bs T (init bs n) as = .ok (some w)) :
    ∃ h : List (Way M), (∀ j, toProc h j = (w.loc j).got) ∧ ∀ i, (fromProc h i).Sublist (w.loc i).sent := by
  obtain ⟨BA, BD, e, hf, hR, hs, hg, _⟩ := history hc h1 h2 h3 False none hr hk (fun x => x.elim) he
  have hl : BD.length = BA.length := by simpa using congrArg List.length e
  refine ⟨ways BA BD, fun j => ?_, fun i => (ways_from i BA BD (took_prefix hc e hf hR)).trans (hs i)⟩
  rw [ways_to j BA BD (by omega), hg j]

theorem harmless_of_calm : ∀ (as : List (Label M)) (w : World M), (∀ k, .kill k ∉ as) → harmlessKills size bs T w as
  | [], _, _ => trivial
  | a :: as, w, h => ⟨fun i hi => absurd (by rw [hi]; exact List.mem_cons_self) (h i), fun w' _ => harmless_of_calm as w' (fun k hk => h k (List.mem_cons_of_mem _ hk))⟩

/-- **C155**: the same without kills, for all runs. -/
theorem C155_ways (hc : Contract T lo ok) (h1 : 1 ≤ size) (h2 : size < 2 ^ 32) (h3 : size * bs < 2 ^ 32) (writes : Nat → Bool) (n : Nat) (as : List (Label M)) (w : World M)
    (hr : ∀ a ∈ as, inRole T lo ok writes a) (hk : ∀ k, .kill k ∉ as) (he : exec size bs T (init bs n) as = .ok (some w)) :
    ∃ h : List (Way M), (∀ j, toProc h j = (w.loc j).got) ∧ ∀ i, (fromProc h i).Sublist (w.loc i).sent :=
  C155_ways_partial hc h1 h2 h3 writes n as w hr (harmless_of_calm as _ hk) he

/-- **C155**: and if no flush found the ring full (and the ring has at most 32768 boxes), the writers have flushed, no box is left in the ring and readers read each box up, with an object of the
least size, the list has every message that was sent. -/
theorem C155_all (hc : Contract T lo ok) (h1 : 1 ≤ size) (h2 : size ≤ 32768) (h3 : size * bs < 2 ^ 32) (writes : Nat → Bool) (n : Nat) (as : List (Label M)) (w : World M)
    (hr : ∀ a ∈ as, inRole T lo ok writes a) (hk : ∀ k, .kill k ∉ as) (he : exec size bs T (init bs n) as = .ok (some w)) (hroom : roomy size bs T (init bs n) as)
    (h : M) (hh : T.size h = lo) (hup : readsUp size bs T h (init bs n) as)
    (hq : ∀ p ∈ w.q.procs, p.mode = .idle) (hnone : w.q.sem.w = 0) (hpos : ∀ i, writes i = true → (w.loc i).box.pos = 0) :
    ∃ h : List (Way M), (∀ j, toProc h j = (w.loc j).got) ∧ ∀ i, fromProc h i = (w.loc i).sent := by
  obtain ⟨BA, BD, e, hf, hR, hs, hg, _, hst, hall⟩ := history hc h1 (by omega) h3 True (some h) hr (harmless_of_calm as _ hk) (fun _ h' hh' => by rw [← Option.some.inj hh']; exact hup) he
  have hl : BD.length = BA.length := by simpa using congrArg List.length e
  refine ⟨ways BA BD, fun j => ?_, fun i => ?_⟩
  · rw [ways_to j BA BD (by omega), hg j]
  · rw [ways_all i BA BD hl.symm ?_, hall hk hroom h2 hq hnone hpos i]
    intro x y hxy
    obtain ⟨pos, hre, hget⟩ := hst trivial h rfl y (List.of_mem_zip hxy).2
    have hfx := hf x (List.of_mem_zip hxy).1
    rw [zip_box BA BD e x y hxy] at hre hget
    obtain ⟨⟨rest, hrest⟩, rfl⟩ := reach_box hc hfx.2 hfx.1 hre
    have := (get_box hc h (by omega) hfx.2 hfx.1 hrest.symm).2 hh hget
    rw [this, List.append_nil] at hrest
    exact hrest

/-! ### nothing is read or written outside of a box -/

theorem exec_snoc (a : Label M) : ∀ (as : List (Label M)) (w : World M), exec size bs T w (as ++ [a]) =
    match exec size bs T w as with
    | .ub => .ub
    | .ok none => .ok none
    | .ok (some w') => step size bs T w' a
  | [], w => by
    simp only [List.nil_append, exec]
    split <;> simp_all
  | b :: as, w => by
    simp only [List.cons_append, exec]
    split
    · rfl
    · rfl
    · exact exec_snoc a as _

theorem harmless_take (a : Label M) : ∀ (as : List (Label M)) (w : World M), harmlessKills size bs T w (as ++ [a]) → harmlessKills size bs T w as
  | [], _, _ => trivial
  | b :: as, w, h => ⟨h.1, fun w' hw => harmless_take a as w' (h.2 w' hw)⟩

/-- **C155**: no call of put or get reads or writes outside of its box; with kills as in C155_ways_partial. -/
theorem C155_bounds (hc : Contract T lo ok) (h1 : 1 ≤ size) (h2 : size < 2 ^ 32) (h3 : size * bs < 2 ^ 32) (writes : Nat → Bool) (n : Nat) (as : List (Label M))
    (hr : ∀ a ∈ as, inRole T lo ok writes a) (hk : harmlessKills size bs T (init bs n) as) : exec size bs T (init bs n) as ≠ .ub := by
  induction hn : as.length generalizing as with
  | zero => rw [List.length_eq_zero_iff.mp hn]; simp [exec]
  | succ n' ih =>
    obtain ⟨as, a, rfl⟩ : ∃ xs x, as = xs ++ [x] := by
      rcases List.eq_nil_or_concat as with rfl | ⟨xs, x, h⟩
      · simp at hn
      · exact ⟨xs, x, by simpa using h⟩
    have hr' : ∀ b ∈ as, inRole T lo ok writes b := fun b hb => hr b (List.mem_append_left _ hb)
    have hra := hr a (by simp)
    have hk' := harmless_take a as _ hk
    have ih := ih as hr' hk' (by simpa using hn)
    rw [exec_snoc]
    split
    · rename_i e; exact absurd e ih
    · simp
    · rename_i w e
      have hV := views hc False none hr' (fun x => x.elim) e a.who
      obtain ⟨BA, BD, eB, hf, hR, hs, hg, hD, _⟩ := history hc h1 h2 h3 False none hr' hk' (fun x => x.elim) e
      unfold step
      split
      · simp
      · rename_i p hp
        have hact : act bs T p (w.loc a.who) a ≠ .ub := by
          have hcl : (flat T ([] : List M)).length ≤ bs := by simp [flat]
          cases a with
          | put i m =>
            simp only [act, Label.who] at hV hp ⊢
            split
            · rename_i hid
              rcases hV with ⟨_, ⟨_, _, _, bl, rest, _, _, _, hcase⟩, _⟩ | ⟨hf, _⟩
              · rcases hcase with ⟨h0, _⟩ | ⟨p', hp', hcase⟩
                · rw [h0] at hp; simp at hp
                · rw [hp] at hp'
                  rw [← Option.some.inj hp', hid] at hcase
                  rcases hcase with ⟨_, hfr, hb⟩ | ⟨h, _⟩ | h
                  · unfold callPut
                    rw [hb]
                    rcases put_cases hc hra.2 hfr with ⟨e1, _⟩ | e1 <;> rw [e1] <;> simp
                  · simp [QueueMsg.inF] at h
                  · simp at h
              · have : writes i = true := hra.1
                rw [hf] at this; simp at this
            · simp
          | get j h =>
            simp only [act, Label.who] at hV hp hD ⊢
            split
            · rcases hV with ⟨hf, _⟩ | ⟨_, ⟨_, _, P, g1, g2, g3, g4⟩, _⟩
              · rw [hra.1] at hf; simp at hf
              · have hget : Box.get T (w.loc j).box h ≠ .ub := by
                  rcases g4 with ⟨_, hb⟩ | ⟨P0, cb, ts, pos, rfl, hb, hre, _⟩
                  · rw [hb, get_clear hc hra.2]; simp
                  · have hcb : cb ∈ BD.map (fun y => y.2.1) := by
                      have h1 := hD j
                      rw [g1] at h1
                      have h2 : cb ∈ (P0 ++ [(cb, ts)]).map Prod.fst := by simp
                      rw [h1, List.map_map] at h2
                      obtain ⟨y, hy, hyc⟩ := List.mem_map.mp h2
                      exact List.mem_map.mpr ⟨y, (List.mem_filter.mp hy).1, hyc⟩
                    rw [eB] at hcb
                    obtain ⟨x, hx, rfl⟩ := List.mem_map.mp hcb
                    obtain ⟨⟨rest, hrest⟩, rfl⟩ := reach_box hc (hf x hx).2 (hf x hx).1 hre
                    rw [hb]
                    exact (get_box hc h hra.2 (hf x hx).2 (hf x hx).1 hrest.symm).1
                unfold callGet
                split
                · rename_i hu; exact absurd hu hget
                · simp
                · simp
            · simp
          | adv i =>
            simp only [act]
            have : after bs T (w.loc (Label.adv i : Label M).who) p ≠ .ub := by
              unfold after
              split
              · rename_i h6
                unfold endFlush
                split
                · simp
                · rename_i m hpe
                  have hm : ok m := by
                    rcases hV with ⟨_, ⟨_, _, hop, _⟩, _⟩ | ⟨_, ⟨_, hmode, _⟩, _⟩
                    · exact hop m hpe
                    · have := hmode p hp
                      rw [h6] at this
                      simp [QueueMsg.inU] at this
                  rw [clear_eq (T := T)]
                  rcases put_cases hc hm hcl with ⟨e1, _⟩ | e1 <;> rw [e1] <;> simp
              · split <;> simp
            cases ha : after bs T (w.loc (Label.adv i : Label M).who) p with
            | ub => exact absurd ha this
            | ok x => simp [Res.map]
          | flush i => simp [act]
          | unflush i => simp [act]
          | timeout i => simp [act]
          | kill i => simp [act]
        cases ha : act bs T p (w.loc a.who) a with
        | ub => exact absurd ha hact
        | ok x => simp [Res.map]

/-! ### which messages are refused -/

/-- A `put` of `m` is in progress in flush, or it is over. -/
def Putting (T : Class M) (bs : Nat) (w : World M) (i : Nat) (S : List M) (m : M) : Prop :=
  ∃ p, w.q.procs[i]? = some p ∧ ((QueueMsg.inF p.mode = true ∧ (w.loc i).pend = some m ∧ (w.loc i).sent = S) ∨
    (p.mode = .idle ∧ (w.loc i).sent = if T.size m ≤ bs then S ++ [m] else S) ∨ p.mode = .dead)

theorem put_clear (m : M) (hl : (T.ser m).length = T.size m) :
    (T.size m ≤ bs → ∃ b, Box.put T (Box.clear bs) m = .ok (some b)) ∧ (¬ T.size m ≤ bs → Box.put T (Box.clear bs) m = .ok none) := by
  unfold Box.put Box.is_space_for Box.clear
  simp only [List.length_replicate, Nat.zero_add]
  constructor
  · intro h
    rw [if_pos (decide_eq_true h), if_pos (by omega)]
    exact ⟨_, rfl⟩
  · intro h
    rw [if_neg (by simpa using h)]

theorem putting_step {w w' : World M} {a : Label M} {i : Nat} {S : List M} {m : M} (hl : (T.ser m).length = T.size m) (hn : noCall i a = true) (h : Putting T bs w i S m)
    (e : step size bs T w a = .ok (some w')) : Putting T bs w' i S m := by
  by_cases hw : i = a.who
  · obtain ⟨p, l, x, q, hp, ha, hq, _, rfl⟩ := step_some e
    rw [← hw] at hp ha
    obtain ⟨p0, hp0, hcase⟩ := h
    rw [hp] at hp0
    have := Option.some.inj hp0
    subst this
    cases a with
    | adv j =>
      have hw : i = j := hw
      subst hw
      simp only [act] at ha
      cases hx : after bs T (w.loc i) p with
      | ub => rw [hx] at ha; simp [Res.map] at ha
      | ok y =>
        rw [hx] at ha
        simp only [Res.map, Res.ok.injEq, Option.some.injEq, Prod.mk.injEq] at ha
        obtain ⟨rfl, rfl⟩ := ha
        have hq : ShmQueue.step size bs w.q (.adv i) = some q := hq
        obtain ⟨p', hp', m1, m2, m3, m4, m5⟩ := QueueMsg.adv_mode hp hq
        refine ⟨p', hp', ?_⟩
        simp only [if_pos hw]
        rcases hcase with ⟨hF, hpe, hsent⟩ | ⟨hid, _⟩ | hd
        · unfold after at hx
          by_cases h6 : p.mode = .f6
          · rw [if_pos h6] at hx
            right; left
            refine ⟨m1 h6, ?_⟩
            unfold endFlush at hx
            rw [hpe] at hx
            by_cases hs : T.size m ≤ bs
            · obtain ⟨b, hb⟩ := (put_clear (bs := bs) m hl).1 hs
              simp only [hb, Res.ok.injEq] at hx
              rw [← hx, if_pos hs, hsent]
            · simp only [(put_clear (bs := bs) m hl).2 hs, Res.ok.injEq] at hx
              rw [← hx, if_neg hs, hsent]
          · have hu : ¬ p.mode = .u6 := by intro hu; rw [hu] at hF; exact absurd hF (by simp [QueueMsg.inF])
            rw [if_neg h6, if_neg hu] at hx
            have hx := Res.ok.inj hx
            subst hx
            exact .inl ⟨m3 hF h6, hpe, hsent⟩
        · exact absurd hid m5
        · simp [ShmQueue.step, ShmQueue.adv, hp, hd] at hq
    | kill j =>
      have hw : i = j := hw
      subst hw
      simp only [act, Res.ok.injEq, Option.some.injEq, Prod.mk.injEq] at ha
      obtain ⟨rfl, rfl⟩ := ha
      have hq : ShmQueue.step size bs w.q (.kill i) = some q := hq
      obtain ⟨p', hp', hm'⟩ := mode_kill hq
      exact ⟨p', hp', .inr (.inr hm')⟩
    | _ => simp_all [noCall, Label.who]
  · obtain ⟨f1, f2, _, _⟩ := frame e hw
    unfold Putting
    rw [f1, f2]
    exact h

theorem putting_exec {i : Nat} {S : List M} {m : M} (hl : (T.ser m).length = T.size m) : ∀ (as : List (Label M)) (w w' : World M), (∀ a ∈ as, noCall i a = true) → Putting T bs w i S m →
    exec size bs T w as = .ok (some w') → Putting T bs w' i S m
  | [], w, w', _, h, e => by rw [← Option.some.inj (Res.ok.inj e)]; exact h
  | a :: as, w, w', hn, h, e => by
    simp only [exec] at e
    split at e
    · simp at e
    · simp at e
    · rename_i t hst
      exact putting_exec hl as t w' (fun b hb => hn b (List.mem_cons_of_mem _ hb)) (putting_step hl (hn a List.mem_cons_self) h hst) e

/-- **C155**: when a call of put is over, whatever else happened meanwhile, it has returned true if and only if the message is no larger than a box. -/
theorem C155_put (m : M) (hl : (T.ser m).length = T.size m) {w w' : World M} {i : Nat} {as : List (Label M)} (hn : ∀ a ∈ as, noCall i a = true) (hb : (w.loc i).box.buf.length ≤ bs)
    (he : exec size bs T w (.put i m :: as) = .ok (some w')) (hd : ∃ p, w'.q.procs[i]? = some p ∧ p.mode = .idle) :
    (w'.loc i).sent = if T.size m ≤ bs then (w.loc i).sent ++ [m] else (w.loc i).sent := by
  simp only [exec] at he
  split at he
  · simp at he
  · simp at he
  · rename_i t hst
    have h0 : Putting T bs t i (w.loc i).sent m := by
      obtain ⟨p, l, x, q, hp, ha, hq, _, rfl⟩ := step_some hst
      have hp : w.q.procs[i]? = some p := hp
      have ha : act bs T p (w.loc i) (.put i m) = .ok (some (l, x)) := ha
      simp only [act] at ha
      split at ha
      · rename_i hid
        unfold callPut at ha
        split at ha
        · simp at ha
        · rename_i b hbp
          simp only [Res.ok.injEq, Option.some.injEq, Prod.mk.injEq] at ha
          obtain ⟨rfl, rfl⟩ := ha
          have hq : w.q = q := Option.some.inj hq
          subst hq
          have hs : T.size m ≤ bs := by
            unfold Box.put Box.is_space_for at hbp
            split at hbp
            · rename_i h; have := of_decide_eq_true h; omega
            · simp at hbp
          refine ⟨p, hp, .inr (.inl ⟨hid, ?_⟩)⟩
          simp only [Label.who, if_pos, if_pos hs]
        · simp only [Res.ok.injEq, Option.some.injEq, Prod.mk.injEq] at ha
          obtain ⟨rfl, rfl⟩ := ha
          have hq : ShmQueue.step size bs w.q (.flush i (w.loc i).box.buf) = some q := hq
          obtain ⟨_, p', hp', hm'⟩ := mode_flush hq
          refine ⟨p', hp', .inl ⟨by rw [hm']; rfl, ?_, ?_⟩⟩ <;> simp only [Label.who, if_pos]
      · simp at ha
    obtain ⟨p', hp', hcase⟩ := putting_exec hl as t w' hn h0 he
    obtain ⟨p, hp, hm⟩ := hd
    rw [hp] at hp'
    rw [← Option.some.inj hp', hm] at hcase
    rcases hcase with ⟨hF, _⟩ | ⟨_, h⟩ | h
    · exact absurd hF (by simp [QueueMsg.inF])
    · exact h
    · exact absurd h (by simp)

/-! ### examples, and what the conditions are for -/

def advs (i k : Nat) : List (Label M) := List.replicate k (.adv i)

/-- `harmlessKills`, `roomy` and `readsUp`, decided. -/
def harmlessB (size bs : Nat) (T : Class M) (w : World M) : List (Label M) → Bool
  | [] => true
  | a :: as =>
    (match a with
      | .kill i => ((w.q.procs[i]?.map (ShmQueue.harmless size w.q)).getD true)
      | _ => true) &&
    (match step size bs T w a with
      | .ok (some w') => harmlessB size bs T w' as
      | _ => true)

theorem harmlessB_ok : ∀ (as : List (Label M)) (w : World M), harmlessB size bs T w as = true → harmlessKills size bs T w as
  | [], _, _ => trivial
  | a :: as, w, h => by
    simp only [harmlessB, Bool.and_eq_true] at h
    refine ⟨?_, ?_⟩
    · intro i ha p hp
      have h1 := h.1
      rw [ha] at h1
      simp only [hp, Option.map_some, Option.getD_some, ShmQueue.harmless] at h1
      refine ⟨fun hm => ?_, fun hm => ?_, fun k hm => ?_⟩
      · rw [hm] at h1; exact of_decide_eq_true h1
      · rw [hm] at h1; exact of_decide_eq_true h1
      · rw [hm] at h1; exact of_decide_eq_true h1
    · intro w' hw
      have h2 := h.2
      rw [hw] at h2
      exact harmlessB_ok as w' h2

def roomyB (size bs : Nat) (T : Class M) (w : World M) : List (Label M) → Bool
  | [] => true
  | a :: as =>
    (match a with
      | .adv i => (match w.q.procs[i]? with
        | some p => decide (¬ (p.mode = .f1 ∧ ((w.q.end_ + 1) % 2 ^ 32) % size = w.q.start))
        | none => true)
      | _ => true) &&
    (match step size bs T w a with
      | .ok (some w') => roomyB size bs T w' as
      | _ => true)

theorem roomyB_ok : ∀ (as : List (Label M)) (w : World M), roomyB size bs T w as = true → roomy size bs T w as
  | [], _, _ => trivial
  | a :: as, w, h => by
    simp only [roomyB, Bool.and_eq_true] at h
    refine ⟨?_, ?_⟩
    · rintro i rfl ⟨p, hp, hm⟩
      have h0 := h.1
      simp only [hp, decide_eq_true_eq] at h0
      exact h0 hm
    · intro w' e
      have h0 := h.2
      simp only [e] at h0
      exact roomyB_ok as w' h0

def falseB (T : Class M) (h : M) (b : Box) : Bool :=
  match b.get T h with
  | .ok none => true
  | _ => false

theorem falseB_ok {h : M} {b : Box} (e : falseB T h b = true) : b.get T h = .ok none := by
  unfold falseB at e
  split at e
  · assumption
  · simp at e

def readsUpB (size bs : Nat) (T : Class M) (h : M) (n : Nat) (w : World M) : List (Label M) → Bool
  | [] => (List.range n).all (fun j => falseB T h (w.loc j).box)
  | a :: as =>
    (match a with
      | .unflush j => falseB T h (w.loc j).box
      | _ => true) && decide (a.who < n) &&
    (match step size bs T w a with
      | .ok (some w') => readsUpB size bs T h n w' as
      | _ => true)

theorem readsUpB_ok {h : M} (n : Nat) : ∀ (as : List (Label M)) (w : World M), (∀ j, n ≤ j → (w.loc j).box.get T h = .ok none) → readsUpB size bs T h n w as = true →
    readsUp size bs T h w as
  | [], w, hn, e => by
    simp only [readsUpB, List.all_eq_true, List.mem_range] at e
    intro j
    by_cases hj : j < n
    · exact falseB_ok (e j hj)
    · exact hn j (by omega)
  | a :: as, w, hn, e => by
    simp only [readsUpB, Bool.and_eq_true, decide_eq_true_eq] at e
    refine ⟨?_, ?_⟩
    · rintro j rfl
      exact falseB_ok e.1.1
    · intro w' e'
      have h0 := e.2
      simp only [e'] at h0
      refine readsUpB_ok n as w' (fun j hj => ?_) h0
      rw [(frame e' (show j ≠ a.who by omega)).2.1]
      exact hn j hj

/-- Texts that are not empty are sent; the empty one has the size 0 (`VarBox.text0`). -/
def sendable (t : List UInt8) : Prop := 1 ≤ t.length ∧ t.length ≤ 255

instance (t : List UInt8) : Decidable (sendable t) := inferInstanceAs (Decidable (_ ∧ _))

theorem text0_contract : Contract VarBox.text0 2 sendable where
  len t h := by
    have : ¬ t = [] := by intro e; subst e; simp [sendable] at h
    simp [VarBox.text0, this]
  pos := by decide
  low t h := by
    have : ¬ t = [] := by intro e; subst e; simp [sendable] at h
    have := h.1
    simp only [VarBox.text0]
    rw [if_neg ‹_›]
    omega
  back t rest h := by
    obtain ⟨h1, h2⟩ := h
    have hc : (UInt8.ofNat t.length).toNat = t.length := by
      rw [UInt8.toNat_ofNat']
      exact Nat.mod_eq_of_lt (by omega)
    have h0 : ¬ UInt8.ofNat t.length = 0 := by
      intro e
      rw [e] at hc
      simp at hc
      omega
    simp only [VarBox.text0, List.cons_append]
    rw [if_neg h0, if_pos (by rw [hc, List.length_append]; omega), hc, List.take_left]
  zeros j hj := by
    obtain ⟨j, rfl⟩ : ∃ i, j = i + 1 := ⟨j - 1, by omega⟩
    rfl

def decRole (writes : Nat → Bool) : Label (List UInt8) → Bool
  | .put i m => writes i && decide (sendable m)
  | .flush i => writes i
  | .unflush i => !writes i
  | .timeout i => !writes i
  | .get i h => !writes i && decide (2 ≤ VarBox.text0.size h)
  | .adv _ => true
  | .kill _ => true

theorem decRole_ok {writes : Nat → Bool} {as : List (Label (List UInt8))} (h : as.all (decRole writes) = true) : ∀ a ∈ as, inRole VarBox.text0 2 sendable writes a := by
  intro a ha
  have := List.all_eq_true.mp h a ha
  cases a <;> simpa [decRole, inRole] using this

/-- Process 0 sends texts of 1, 3, 2 and 1 bytes in boxes of 6 bytes, process 1 reads three boxes up. -/
def run1 : List (Label (List UInt8)) :=
  [.put 0 [97], .put 0 [98, 99, 100], .put 0 [101, 102]] ++ advs 0 12 ++ [.put 0 [103], .flush 0] ++ advs 0 12 ++
  [.unflush 1] ++ advs 1 18 ++ [.get 1 [0], .get 1 [0], .get 1 [0], .unflush 1] ++ advs 1 18 ++ [.get 1 [0], .get 1 [0], .get 1 [0]]

example : ∃ w, exec 3 6 VarBox.text0 (init 6 2) run1 = .ok (some w) ∧ (w.loc 0).sent = [[97], [98, 99, 100], [101, 102], [103]] ∧ (w.loc 1).got = [[97], [98, 99, 100], [101, 102], [103]] ∧
    (∀ p ∈ w.q.procs, p.mode = .idle) ∧ w.q.sem.w = 0 ∧ (w.loc 0).box.pos = 0 ∧ (∀ a ∈ run1, inRole VarBox.text0 2 sendable (fun i => decide (i = 0)) a) ∧
    roomy 3 6 VarBox.text0 (init 6 2) run1 ∧ readsUp 3 6 VarBox.text0 [0] (init 6 2) run1 ∧ VarBox.text0.size [0] = 2 ∧ ∀ k, Label.kill k ∉ run1 := by
  refine ⟨_, rfl, by decide +kernel, by decide +kernel, by decide +kernel, by decide +kernel, by decide +kernel, decRole_ok (by decide +kernel), roomyB_ok _ _ (by decide +kernel),
    readsUpB_ok 2 _ _ (fun j _ => get_clear text0_contract (by decide)) (by decide +kernel), rfl, ?_⟩
  intro k hk
  simp [run1, advs] at hk

/-- Calls of put whose message fits, and whose message does not. -/
example : ∃ w w' : World (List UInt8), exec 3 6 VarBox.text0 (init 6 1) [.put 0 [97], .put 0 [98, 99, 100]] = .ok (some w) ∧ (w.loc 0).box.buf.length ≤ 6 ∧
    exec 3 6 VarBox.text0 w (.put 0 [101] :: advs 0 12) = .ok (some w') ∧ (∃ p, w'.q.procs[0]? = some p ∧ p.mode = .idle) ∧ (w'.loc 0).sent = [[97], [98, 99, 100], [101]] :=
  ⟨_, _, rfl, by decide, rfl, ⟨_, rfl, rfl⟩, rfl⟩
example : ∃ w w' : World (List UInt8), exec 3 6 VarBox.text0 (init 6 1) [.put 0 [97]] = .ok (some w) ∧
    exec 3 6 VarBox.text0 w (.put 0 [1, 2, 3, 4, 5, 6] :: advs 0 12) = .ok (some w') ∧ (∃ p, w'.q.procs[0]? = some p ∧ p.mode = .idle) ∧ (w'.loc 0).sent = [[97]] :=
  ⟨_, _, rfl, rfl, ⟨_, rfl, rfl⟩, rfl⟩

/-- Process 0 sends two texts; process 1 is killed when it has given its box to the ring but not counted it; process 2 is killed before it has counted a box as received; process 3 reads with
objects of different sizes. -/
def run2 : List (Label (List UInt8)) :=
  [.put 0 [97], .put 0 [98, 99, 100], .flush 0] ++ advs 0 12 ++ [.put 1 [101], .flush 1] ++ advs 1 10 ++ [.kill 1, .put 0 [102], .flush 0] ++ advs 0 12 ++
  [.unflush 2] ++ advs 2 9 ++ [.kill 2, .unflush 3] ++ advs 3 18 ++ [.get 3 [1, 2, 3], .get 3 [1, 2, 3], .put 0 [103], .flush 0] ++ advs 0 12 ++ [.unflush 3] ++ advs 3 18 ++ [.get 3 [1, 2]]

example : harmlessKills 4 6 VarBox.text0 (init 6 4) run2 := harmlessB_ok _ _ (by decide +kernel)
example : ∀ a ∈ run2, inRole VarBox.text0 2 sendable (fun i => decide (i < 2)) a := decRole_ok (by decide +kernel)
example : ∃ w, exec 4 6 VarBox.text0 (init 6 4) run2 = .ok (some w) ∧ (w.loc 0).sent = [[97], [98, 99, 100], [102], [103]] ∧ (w.loc 1).sent = [[101]] ∧ (w.loc 3).got = [[97], [98, 99, 100], [101]] :=
  ⟨_, rfl, by decide +kernel, by decide +kernel, by decide +kernel⟩

/-- Process 0 sends texts of 3 and 1 bytes that fill a box; process 1 reads with the object that it got. -/
def run3 : List (Label (List UInt8)) :=
  [.put 0 [98, 99, 100], .put 0 [97], .flush 0] ++ advs 0 12 ++ [.unflush 1] ++ advs 1 18 ++ [.get 1 [0], .get 1 [98, 99, 100]]

/-- **C155_all is false if the reader goes on with the object that it got**: nobody is killed, the ring is never full, the writer has flushed, no box is left, `get` with this object returns
false, and a message that put has accepted has got to nobody. -/
theorem C155_refuted_lost : ∃ w, Contract VarBox.text0 2 sendable ∧ exec 3 6 VarBox.text0 (init 6 2) run3 = .ok (some w) ∧ (∀ a ∈ run3, inRole VarBox.text0 2 sendable (fun i => decide (i = 0)) a) ∧
    (∀ k, Label.kill k ∉ run3) ∧ roomy 3 6 VarBox.text0 (init 6 2) run3 ∧ readsUp 3 6 VarBox.text0 [98, 99, 100] (init 6 2) run3 ∧
    (∀ p ∈ w.q.procs, p.mode = .idle) ∧ w.q.sem.w = 0 ∧ (w.loc 0).box.pos = 0 ∧ (w.loc 0).sent = [[98, 99, 100], [97]] ∧ (w.loc 1).got = [[98, 99, 100]] := by
  refine ⟨_, text0_contract, rfl, decRole_ok (by decide +kernel), ?_, roomyB_ok _ _ (by decide +kernel), readsUpB_ok 2 _ _ (fun j _ => get_clear text0_contract (by decide)) (by decide +kernel),
    by decide +kernel, by decide +kernel, by decide +kernel, by decide +kernel, by decide +kernel⟩
  intro k hk
  simp [run3, advs] at hk

/-- Process 0 sends a text that fills a box; process 1 reads with new, empty objects. -/
def run4 : List (Label (List UInt8)) := [.put 0 [1, 2, 3, 4, 5], .flush 0] ++ advs 0 12 ++ [.unflush 1] ++ advs 1 18 ++ [.get 1 [], .get 1 []]

/-- **C155_bounds is false for objects that are smaller than every message**, the new, empty ones of this class for instance: the second get reads behind the end of the box. -/
theorem C155_refuted_bounds : Contract VarBox.text0 2 sendable ∧ (∀ a ∈ run4.dropLast, ∀ i h, a = .get i h → VarBox.text0.size h = 0) ∧ exec 3 6 VarBox.text0 (init 6 2) run4 = .ub := by
  refine ⟨text0_contract, ?_, rfl⟩
  intro a ha i h e
  subst e
  simp [run4, advs, List.dropLast] at ha
  rw [ha.2]
  rfl

end Verif.QueueVar
