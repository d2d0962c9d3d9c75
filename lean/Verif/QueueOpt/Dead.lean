/-
  A queue whose ring looks full and whose number of boxes is zero stays so for ever.
-/
import Verif.QueueOpt.Lemmas

namespace Verif.QueueOpt
open Verif.QueueApi Verif.QueueApi.Spec

/-- The ring looks full. -/
def Full (g : Seg) : Prop := ((g.info.fin + 1) % 2 ^ 32) % g.info.size = g.info.start

def HOk (H : Handle) : Prop := (H.boxes = false ∧ H.info = none) ∨ (H.boxes = true ∧ ∃ k, H.info = some k ∧ H.sem = some k)

structure Dead (w : World) (k : Nat) : Prop where
  seg : ∃ g, w.segs k = some g ∧ Full g
  sem : ∃ t, w.sems k = some t ∧ t.w = 0
  hs : ∀ h, HOk (w.hs h)

theorem Dead.setH {w : World} {k : Nat} (D : Dead w k) (h : Nat) {H : Handle} (hH : HOk H) : Dead (w.setH h H) k := by
  refine ⟨D.seg, D.sem, fun i => ?_⟩
  simp only [World.setH, QueueApi.set]
  split
  · exact hH
  · exact D.hs i

theorem Dead.setSem {w : World} {k : Nat} (D : Dead w k) (j : Nat) (t t' : Sem) (h1 : w.sems j = some t) (h2 : t'.w = t.w ∨ j ≠ k) : Dead (w.setSem j t') k := by
  refine ⟨D.seg, ?_, D.hs⟩
  obtain ⟨u, hu, hw⟩ := D.sem
  by_cases hj : k = j
  · subst hj
    rw [h1] at hu
    cases hu
    refine ⟨t', by simp [World.setSem, QueueApi.set], ?_⟩
    rcases h2 with h2 | h2
    · rw [h2, hw]
    · exact absurd rfl h2
  · exact ⟨u, by simp only [World.setSem, QueueApi.set, if_neg hj]; exact hu, hw⟩

theorem Dead.setSeg {w : World} {k : Nat} (D : Dead w k) (j : Nat) (g : Seg) (h1 : j = k → Full g) : Dead (w.setSeg j g) k := by
  refine ⟨?_, D.sem, D.hs⟩
  by_cases hj : k = j
  · subst hj
    exact ⟨g, by simp [World.setSeg, QueueApi.set], h1 rfl⟩
  · obtain ⟨u, hu, hw⟩ := D.seg
    exact ⟨u, by simp only [World.setSeg, QueueApi.set, if_neg hj]; exact hu, hw⟩

theorem Dead.lock {w w' : World} {k : Nat} {H : Handle} (D : Dead w k) (h : lock_queue w H = some w') : Dead w' k ∧ w'.segs = w.segs ∧ w'.hs = w.hs := by
  unfold lock_queue at h
  split at h
  · cases h; exact ⟨D, rfl, rfl⟩
  · split at h
    · cases h; exact ⟨D, rfl, rfl⟩
    · rename_i t ht
      split at h
      · cases h
      · cases h
        exact ⟨D.setSem _ t _ ht (.inl rfl), rfl, rfl⟩

theorem Dead.unlock {w : World} {k : Nat} (D : Dead w k) (H : Handle) : Dead (unlock_queue w H) k := by
  unfold unlock_queue
  split
  · exact D
  · split
    · exact D
    · rename_i t ht
      exact D.setSem _ t _ ht (.inl rfl)

theorem unlock_hs (w : World) (H : Handle) : (unlock_queue w H).hs = w.hs := by
  unfold unlock_queue
  split
  · rfl
  · split <;> rfl

theorem countUp_hs (w : World) (H : Handle) : (countUp w H).hs = w.hs := by
  unfold countUp
  split
  · rfl
  · split
    · rfl
    · split <;> rfl

theorem Dead.countUp {w : World} {k : Nat} (D : Dead w k) (H : Handle) (h : H.sem ≠ some k) : Dead (countUp w H) k := by
  unfold QueueApi.countUp
  split
  · exact D
  · rename_i j hj
    split
    · exact D
    · rename_i t ht
      split
      · exact D.setSem _ t _ ht (.inr (fun e => h (by rw [hj, e])))
      · exact D

theorem full_flush {g : Seg} (F : Full g) (b : List UInt8) (r : Option Seg) (h : flushSeg g b = .ok r) : r = none := by
  unfold flushSeg at h
  split at h
  · cases h
  · rw [if_neg (by simpa [Full] using F)] at h
    cases h
    rfl

theorem Dead.flushBoxes {w w' : World} {k h : Nat} (D : Dead w k) (hf : flushBoxes w (w.hs h) = .ok (some w')) : Dead w' k ∧ w'.hs = w.hs := by
  unfold QueueApi.flushBoxes at hf
  cases hl : lock_queue w (w.hs h) with
  | none => rw [hl] at hf; cases hf
  | some w1 =>
    obtain ⟨D1, e1, e2⟩ := D.lock hl
    rw [hl] at hf
    simp only at hf
    cases hi : (w.hs h).info with
    | none => rw [hi] at hf; cases hf
    | some j =>
      rw [hi] at hf
      simp only at hf
      cases hg : w1.segs j with
      | none => rw [hg] at hf; cases hf
      | some g =>
        rw [hg] at hf
        simp only at hf
        cases hr : flushSeg g (w.hs h).buf with
        | ub => rw [hr] at hf; simp only [Res.ub_bind] at hf; cases hf
        | ok r =>
          rw [hr] at hf
          simp only [Res.ok_bind] at hf
          cases r with
          | none =>
            cases hf
            exact ⟨D1.unlock _, by rw [unlock_hs, e2]⟩
          | some g' =>
            cases hf
            have hj : j ≠ k := by
              intro e
              subst e
              obtain ⟨g0, hg0, F⟩ := D1.seg
              rw [hg] at hg0
              cases hg0
              exact absurd (full_flush F _ _ hr) (by simp)
            have hs : (w.hs h).sem ≠ some k := by
              rcases D.hs h with ⟨-, a⟩ | ⟨-, i, a, b⟩
              · rw [hi] at a; cases a
              · rw [hi] at a
                cases a
                rw [b]
                simpa using hj
            exact ⟨((D1.setSeg j g' (fun e => absurd e hj)).countUp _ hs).unlock _, by rw [unlock_hs, countUp_hs]; exact e2⟩

theorem HOk.clear {H : Handle} (h : HOk H) : HOk (clearBox H) := h

theorem Dead.flushCall {w w' : World} {k h : Nat} (D : Dead w k) (hf : flushCall w h = .ok (some w')) : Dead w' k := by
  unfold QueueApi.flushCall at hf
  split at hf
  · cases hr : QueueApi.flushBoxes w (w.hs h) with
    | ub => rw [hr] at hf; simp only [Res.ub_bind] at hf; cases hf
    | ok r =>
      rw [hr] at hf
      simp only [Res.ok_bind] at hf
      cases r with
      | none => cases hf
      | some w1 =>
        cases hf
        obtain ⟨D1, -⟩ := D.flushBoxes hr
        exact D1.setH h (D1.hs h).clear
  · cases hf
    exact D.setH h (D.hs h).clear

theorem Dead.flush {w w' : World} {k h : Nat} {r : Reply} (D : Dead w k) (hf : flush w h = .ok (w', r)) : Dead w' k := by
  unfold QueueApi.flush at hf
  cases hr : QueueApi.flushCall w h with
  | ub => rw [hr] at hf; simp only [Res.ub_bind] at hf; cases hf
  | ok o =>
    rw [hr] at hf
    simp only [Res.ok_bind] at hf
    cases o with
    | none => cases hf; exact D
    | some w1 => cases hf; exact D.flushCall hr

theorem boxPut_hok {H H' : Handle} {m : List UInt8} (h : HOk H) (hp : boxPut H m = some H') : HOk H' := by
  unfold boxPut at hp
  split at hp
  · cases hp; exact h
  · cases hp

theorem Dead.put {w w' : World} {k h : Nat} {m : List UInt8} {r : Reply} (D : Dead w k) (hf : put w h m = .ok (w', r)) : Dead w' k := by
  unfold QueueApi.put at hf
  cases hp : boxPut (w.hs h) m with
  | some H => rw [hp] at hf; cases hf; exact D.setH h (boxPut_hok (D.hs h) hp)
  | none =>
    rw [hp] at hf
    simp only at hf
    cases hr : QueueApi.flushCall w h with
    | ub => rw [hr] at hf; simp only [Res.ub_bind] at hf; cases hf
    | ok o =>
      rw [hr] at hf
      simp only [Res.ok_bind] at hf
      cases o with
      | none => cases hf; exact D
      | some w1 =>
        have D1 := D.flushCall hr
        simp only at hf
        cases hp1 : boxPut (w1.hs h) m with
        | some H => rw [hp1] at hf; cases hf; exact D1.setH h (boxPut_hok (D1.hs h) hp1)
        | none => rw [hp1] at hf; cases hf; exact D1

theorem Dead.sem_none {w : World} {k : Nat} (D : Dead w k) {H : Handle} (hs : H.sem = some k) : countDown w H = none := by
  obtain ⟨t, h1, h2⟩ := D.sem
  simp [countDown, hs, h1, h2]

theorem Dead.unflush {w w' : World} {k h : Nat} {r : Reply} (D : Dead w k) (hf : QueueApi.unflush w h = .ok (w', r)) : Dead w' k := by
  unfold QueueApi.unflush at hf
  simp only at hf
  split at hf
  · rename_i hb
    rcases D.hs h with ⟨a, -⟩ | ⟨-, j, hi, hs⟩
    · rw [a] at hb; cases hb
    · by_cases hj : j = k
      · subst hj
        rw [D.sem_none hs] at hf
        cases hf
        exact D
      · cases hc : countDown w (w.hs h) with
        | none => rw [hc] at hf; cases hf; exact D
        | some w1 =>
          have D1 : Dead w1 k ∧ w1.hs = w.hs := by
            unfold countDown at hc
            rw [hs] at hc
            simp only at hc
            cases ht : w.sems j with
            | none => rw [ht] at hc; cases hc
            | some t =>
              rw [ht] at hc
              simp only at hc
              split at hc
              · cases hc
              · cases hc
                exact ⟨D.setSem j t _ ht (.inr hj), rfl⟩
          rw [hc] at hf
          simp only at hf
          cases hl : lock_queue w1 (w.hs h) with
          | none => rw [hl] at hf; cases hf; exact D1.1
          | some w2 =>
            obtain ⟨D2, e1, e2⟩ := D1.1.lock hl
            rw [hl, hi] at hf
            simp only at hf
            cases hg : w2.segs j with
            | none => rw [hg] at hf; cases hf
            | some g =>
              rw [hg] at hf
              simp only at hf
              cases hu : unflushSeg g (w.hs h).buf.length with
              | ub => rw [hu] at hf; simp only [Res.ub_bind] at hf; cases hf
              | ok p =>
                rw [hu] at hf
                simp only [Res.ok_bind] at hf
                cases hf
                exact ((D2.setSeg j p.2 (fun e => absurd e hj)).unlock _).setH h (.inr ⟨hb, j, rfl, hs⟩)
  · cases hf; exact D

theorem Dead.connect_shm {w w' : World} {k : Nat} {H : Handle} {key : Nat} {env : Env} {o : Option Handle} (D : Dead w k) (hs : H.sem = some key)
    (hf : connect_shm w H key env = .ok (w', o)) : Dead w' k ∧ ∀ H', o = some H' → HOk H' := by
  have at_ok : ∀ (g : Seg), (key = k → Full g) → ∀ p, attach w H key g = .ok p → Dead p.1 k ∧ HOk p.2 := by
    intro g hg p hp
    unfold attach at hp
    split at hp
    · cases hp
    · cases hp
      exact ⟨D.setSeg key _ hg, .inr ⟨rfl, key, rfl, hs⟩⟩
  unfold QueueApi.connect_shm at hf
  split at hf
  · cases hf; exact ⟨D, by simp⟩
  · split at hf
    · cases hf; exact ⟨D, by simp⟩
    · cases hg : w.segs key with
      | some g =>
        rw [hg] at hf
        simp only at hf
        split at hf
        · split at hf
          · cases hf; exact ⟨D, by simp⟩
          · cases ha : attach w H key g with
            | ub => rw [ha] at hf; simp only [Res.ub_bind] at hf; cases hf
            | ok p =>
              rw [ha] at hf
              simp only [Res.ok_bind] at hf
              cases hf
              obtain ⟨a, b⟩ := at_ok g (fun e => by
                subst e
                obtain ⟨g0, h1, h2⟩ := D.seg
                rw [hg] at h1
                cases h1
                exact h2) p ha
              exact ⟨a, fun H' e => by cases e; exact b⟩
        · cases hf; exact ⟨D, by simp⟩
      | none =>
        have hk : key ≠ k := by
          intro e
          subst e
          obtain ⟨g0, h1, -⟩ := D.seg
          rw [hg] at h1
          cases h1
        rw [hg] at hf
        simp only at hf
        split at hf
        · cases hf; exact ⟨D, by simp⟩
        · split at hf
          · cases hf; exact ⟨D.setSeg key _ (fun e => absurd e hk), by simp⟩
          · cases ha : attach w H key (freshSeg H.bs H.max) with
            | ub => rw [ha] at hf; simp only [Res.ub_bind] at hf; cases hf
            | ok p =>
              rw [ha] at hf
              simp only [Res.ok_bind] at hf
              cases hf
              obtain ⟨a, b⟩ := at_ok _ (fun e => absurd e hk) p ha
              exact ⟨a, fun H' e => by cases e; exact b⟩

theorem Dead.connect {w w' : World} {k h key bs max : Nat} {env : Env} {r : Reply} (D : Dead w k) (hf : connect w h key bs max env = .ok (w', r)) : Dead w' k := by
  unfold QueueApi.connect at hf
  have h0 : HOk { w.hs h with bs := bs, max := max } := D.hs h
  generalize ({ w.hs h with bs := bs, max := max } : Handle) = H at hf h0
  simp only at hf
  cases hc : connect_sem w H key env with
  | none => rw [hc] at hf; cases hf; exact D.setH h h0
  | some p =>
    obtain ⟨w1, H1⟩ := p
    rw [hc] at hf
    simp only at hf
    have : Dead w1 k ∧ HOk H1 ∧ H1.sem = some key := by
      unfold connect_sem at hc
      split at hc
      · cases hc
      · rename_i hn
        have hb : H.boxes = false ∧ H.info = none := by
          rcases h0 with a | ⟨-, j, -, a⟩
          · exact a
          · rw [a] at hn; simp at hn
        split at hc
        · cases hc
        · cases ht : w.sems key with
          | some t =>
            rw [ht] at hc
            cases hc
            exact ⟨D, .inl hb, rfl⟩
          | none =>
            rw [ht] at hc
            simp only at hc
            split at hc
            · cases hc
            · cases hc
              refine ⟨⟨D.seg, ?_, D.hs⟩, .inl hb, rfl⟩
              obtain ⟨t, h1, h2⟩ := D.sem
              have hk : k ≠ key := by
                intro e
                subst e
                rw [ht] at h1
                cases h1
              exact ⟨t, by simp only [World.setSem, QueueApi.set, if_neg hk]; exact h1, h2⟩
    obtain ⟨D1, o1, s1⟩ := this
    cases hl : lock_queue w1 H1 with
    | none => rw [hl] at hf; cases hf; exact D1.setH h o1
    | some w2 =>
      obtain ⟨D2, -, -⟩ := D1.lock hl
      rw [hl] at hf
      simp only at hf
      cases hm : QueueApi.connect_shm w2 H1 key env with
      | ub => rw [hm] at hf; simp only [Res.ub_bind] at hf; cases hf
      | ok p =>
        rw [hm] at hf
        simp only [Res.ok_bind] at hf
        obtain ⟨w3, o⟩ := p
        obtain ⟨D3, o3⟩ := D2.connect_shm s1 hm
        cases o with
        | none => cases hf; exact D3.setH h o1
        | some H' => cases hf; exact (D3.unlock _).setH h (o3 _ rfl)

theorem Dead.disconnect {w w' : World} {k h : Nat} {r : Reply} (D : Dead w k) (hf : disconnect w h = .ok (w', r)) : Dead w' k := by
  unfold QueueApi.disconnect at hf
  split at hf
  · cases hf; exact D
  · rename_i j hj
    cases hg : w.segs j with
    | none => rw [hg] at hf; cases hf
    | some g =>
      rw [hg] at hf
      cases hf
      refine (D.setSeg j _ (fun e => ?_)).setH h (.inl ⟨rfl, rfl⟩)
      subst e
      obtain ⟨g0, h1, h2⟩ := D.seg
      rw [hg] at h1
      cases h1
      exact h2

theorem Dead.step {w w' : World} {k : Nat} {op : Op} {r : Reply} (D : Dead w k) (hf : QueueApi.step w op = .ok (w', r)) : Dead w' k := by
  cases op with
  | connect h key bs max env => exact D.connect hf
  | disconnect h => exact D.disconnect hf
  | flush h => exact D.flush hf
  | unflush h => exact D.unflush hf
  | put h m => exact D.put hf
  | get h n =>
    simp only [QueueApi.step, QueueApi.get] at hf
    split at hf
    · cases hf; exact D.setH h (D.hs h)
    · cases hf; exact D
  | count h =>
    simp only [QueueApi.step, QueueApi.count] at hf
    split at hf
    · cases hf; exact D
    · split at hf <;> (cases hf; exact D)
  | setReg h off v =>
    simp only [QueueApi.step, set_register] at hf
    split at hf
    · cases hl : lock_queue w (w.hs h) with
      | none => rw [hl] at hf; cases hf; exact D
      | some w1 =>
        obtain ⟨D1, e1, e2⟩ := D.lock hl
        rw [hl] at hf
        simp only at hf
        cases hi : (w.hs h).info with
        | none => rw [hi] at hf; cases hf
        | some j =>
          rw [hi] at hf
          simp only at hf
          cases hg : w1.segs j with
          | none => rw [hg] at hf; cases hf
          | some g =>
            rw [hg] at hf
            cases hf
            refine (D1.setSeg j _ (fun e => ?_)).unlock _
            subst e
            obtain ⟨g0, h1, h2⟩ := D1.seg
            rw [hg] at h1
            cases h1
            exact h2
    · cases hf; exact D
  | getReg h off =>
    simp only [QueueApi.step, get_register] at hf
    split at hf
    · cases hl : lock_queue w (w.hs h) with
      | none => rw [hl] at hf; cases hf; exact D
      | some w1 =>
        obtain ⟨D1, e1, e2⟩ := D.lock hl
        rw [hl] at hf
        simp only at hf
        cases hi : (w.hs h).info with
        | none => rw [hi] at hf; cases hf
        | some j =>
          rw [hi] at hf
          simp only at hf
          cases hg : w1.segs j with
          | none => rw [hg] at hf; cases hf
          | some g => rw [hg] at hf; cases hf; exact D1.unlock _
    · cases hf; exact D

/-! ### With flags and exits -/

structure XDead (x : XWorld) (k : Nat) : Prop where
  w : Dead x.w k
  adj : ∀ h, x.adj h k = 0

theorem XDead.count {x : XWorld} {k : Nat} (D : XDead x k) {H : Handle} (hs : H.sem = some k) : boxCount x.w H = some 0 := by
  obtain ⟨t, h1, h2⟩ := D.w.sem
  simp [boxCount, hs, h1, h2]

theorem XDead.record {x : XWorld} {k h : Nat} (D : XDead x k) (f : Flags) (hs : (x.w.hs h).sem ≠ some k) : ∀ i, (record x h f).adj i k = 0 := by
  intro i
  unfold QueueOpt.record
  split
  · exact D.adj i
  · rename_i j hj
    split
    · simp only
      rw [if_neg]
      · exact D.adj i
      · rintro ⟨-, e⟩
        exact hs (by rw [hj, e])
    · exact D.adj i

theorem XDead.take {x x' : XWorld} {k h : Nat} {f : Flags} {r : Reply} (D : XDead x k) (hs : (x.w.hs h).sem ≠ some k) (hf : take x h f = .ok (x', r)) : XDead x' k := by
  unfold QueueOpt.take at hf
  cases hu : QueueApi.unflush x.w h with
  | ub => rw [hu] at hf; simp only [Res.ub_bind] at hf; cases hf
  | ok p =>
    rw [hu] at hf
    simp only [Res.ok_bind] at hf
    cases hf
    exact ⟨D.w.unflush hu, D.record f hs⟩

theorem XDead.unflush {x x' : XWorld} {k h : Nat} {f : Flags} {u : Int} {a : Answer} (D : XDead x k) (hf : unflush x h f u = .ok (x', a)) : XDead x' k := by
  unfold QueueOpt.unflush at hf
  split at hf
  · split at hf
    · rename_i hd
      have hs : (x.w.hs h).sem ≠ some k := by
        intro e
        unfold semtimedop at hd
        split at hd
        · rw [D.count e] at hd
          simp only at hd
          split at hd <;> cases hd
        · cases hd
      cases ht : QueueOpt.take x h f with
      | ub => rw [ht] at hf; simp only [Res.ub_bind] at hf; cases hf
      | ok p =>
        rw [ht] at hf
        simp only [Res.ok_bind] at hf
        cases hf
        exact D.take hs ht
    · cases hf; exact D
    · cases hf; exact D
  · cases hf; exact D

theorem XDead.flushBy {x x' : XWorld} {k g : Nat} {a : Answer} (D : XDead x k) (hf : flushBy x g = .ok (x', a)) : XDead x' k := by
  unfold QueueOpt.flushBy at hf
  cases ht : QueueApi.flush x.w g with
  | ub => rw [ht] at hf; simp only [Res.ub_bind] at hf; cases hf
  | ok p =>
    rw [ht] at hf
    simp only [Res.ok_bind] at hf
    cases hf
    exact ⟨D.w.flush ht, D.adj⟩

theorem XDead.oneByOne {x x' : XWorld} {k h g : Nat} {f : Flags} {u : Int} {as : List Answer} (D : XDead x k) (hf : oneByOne x h f u g = .ok (x', as)) : XDead x' k := by
  unfold QueueOpt.oneByOne at hf
  cases h1 : QueueOpt.unflush x h f u with
  | ub => rw [h1] at hf; simp only [Res.ub_bind] at hf; cases hf
  | ok p =>
    rw [h1] at hf
    simp only [Res.ok_bind] at hf
    have D1 := D.unflush h1
    cases h2 : QueueOpt.flushBy p.1 g with
    | ub => rw [h2] at hf; simp only [Res.ub_bind] at hf; cases hf
    | ok p2 =>
      rw [h2] at hf
      simp only [Res.ok_bind] at hf
      cases hf
      exact D1.flushBy h2

theorem XDead.meanwhile {x x' : XWorld} {k h g t : Nat} {f : Flags} {u : Int} {as : List Answer} (D : XDead x k) (hf : meanwhile x h f u t g = .ok (x', as)) : XDead x' k := by
  unfold QueueOpt.meanwhile at hf
  cases h2 : QueueOpt.flushBy x g with
  | ub => rw [h2] at hf; simp only [Res.ub_bind] at hf; cases hf
  | ok p =>
    rw [h2] at hf
    simp only [Res.ok_bind] at hf
    have D1 := D.flushBy h2
    split at hf
    · rename_i n hn
      have hs : (p.1.w.hs h).sem ≠ some k := by
        intro e
        rw [D1.count e] at hn
        cases hn
      cases ht : QueueOpt.take p.1 h f with
      | ub => rw [ht] at hf; simp only [Res.ub_bind] at hf; cases hf
      | ok p2 =>
        rw [ht] at hf
        simp only [Res.ok_bind] at hf
        cases hf
        exact D1.take hs ht
    · cases hf; exact D1

theorem XDead.step {x x' : XWorld} {k : Nat} {op : XOp} {as : List Answer} (D : XDead x k) (hf : xstep x op = .ok (x', as)) : XDead x' k := by
  cases op with
  | call op =>
    simp only [xstep, call, one] at hf
    cases ht : QueueApi.step x.w op with
    | ub => rw [ht] at hf; simp only [Res.ub_bind] at hf; cases hf
    | ok p =>
      rw [ht] at hf
      simp only [Res.ok_bind] at hf
      cases hf
      exact ⟨D.w.step ht, D.adj⟩
  | unflush h f u =>
    simp only [xstep, one] at hf
    cases ht : QueueOpt.unflush x h f u with
    | ub => rw [ht] at hf; simp only [Res.ub_bind] at hf; cases hf
    | ok p =>
      rw [ht] at hf
      simp only [Res.ok_bind] at hf
      cases hf
      exact D.unflush ht
  | race h f u t g =>
    simp only [xstep, race] at hf
    split at hf
    · split at hf
      · split at hf
        · exact D.meanwhile hf
        · exact D.oneByOne hf
      · exact D.oneByOne hf
    · exact D.oneByOne hf
  | exit h =>
    simp only [xstep, exit, one] at hf
    cases ht : QueueApi.disconnect x.w h with
    | ub => rw [ht] at hf; simp only [Res.ub_bind] at hf; cases hf
    | ok p =>
      rw [ht] at hf
      simp only [Res.ok_bind] at hf
      cases hf
      have D1 := D.w.disconnect ht
      refine ⟨⟨D1.seg, ?_, D1.hs⟩, fun i => ?_⟩
      · obtain ⟨t, h1, h2⟩ := D1.sem
        exact ⟨_, by simp only [undo, h1, Option.map_some]; rfl, by simp [h2, D.adj]⟩
      · simp only [undo]
        split
        · rfl
        · exact D.adj i

theorem XDead.run {k : Nat} (ops : List XOp) : ∀ {x x' : XWorld} {as : List Answer}, XDead x k → xrun x ops = .ok (x', as) → XDead x' k := by
  induction ops with
  | nil => intro x x' as D h; cases h; exact D
  | cons op ops ih =>
    intro x x' as D h
    simp only [xrun] at h
    cases h1 : xstep x op with
    | ub => rw [h1] at h; simp only [Res.ub_bind] at h; cases h
    | ok p =>
      rw [h1] at h
      simp only [Res.ok_bind] at h
      cases h2 : xrun p.1 ops with
      | ub => rw [h2] at h; simp only [Res.ub_bind] at h; cases h
      | ok p2 =>
        rw [h2] at h
        simp only [Res.ok_bind] at h
        cases h
        exact ih (D.step h1) h2

/-- Nobody who is connected receives anything. -/
theorem XDead.nothing {x : XWorld} {k h : Nat} (D : XDead x k) (hi : (x.w.hs h).info = some k) (f : Flags) (u : Int) : ∃ t, QueueOpt.unflush x h f u = .ok (x, ⟨.bool false, t⟩) := by
  rcases D.w.hs h with ⟨-, a⟩ | ⟨hb, j, a, hs⟩
  · rw [hi] at a; cases a
  · rw [hi] at a
    cases a
    unfold QueueOpt.unflush
    rw [if_pos hb]
    have := D.count hs
    unfold semtimedop
    rw [this]
    by_cases hv : (toTs u).valid = true
    · rw [if_pos hv]
      cases f.nowait
      · exact ⟨_, rfl⟩
      · exact ⟨_, rfl⟩
    · rw [if_neg hv]
      exact ⟨_, rfl⟩

/-- A process that received the only box with SEM_UNDO exits; another process receives something, and the queue is dead. -/
theorem undo_phantom {x : XWorld} {s : State} (R : XRel x s) {h g k : Nat} (hh : (s.us h).key = some k) (hg : (s.us g).key = some k) (hgh : g ≠ h) {b : List UInt8}
    (hb : Spec.boxes s h = some [b]) (n : Bool) (f : Flags) (hf : f.undo = false) (u v : Int) (hu : 0 ≤ u) (hv : 0 ≤ v) :
    ∃ x', xrun x [.unflush h ⟨n, true⟩ u, .exit h, .unflush g f v] = .ok (x', [⟨.bool true, 0⟩, ⟨.unit, 0⟩, ⟨.bool true, 0⟩]) ∧ XDead x' k := by
  obtain ⟨seg, q, e1, e2, e3, S, hl, i1, i2, i3⟩ := R.rel.conn hh
  obtain ⟨-, -, -, -, -, -, -, j1, j2, j3⟩ := R.rel.conn hg
  have hi : q.items = [b] := by simpa [Spec.boxes, hh, e3] using hb
  obtain ⟨seg', u1, u2, -, u4⟩ := unflushSeg_spec S b [] hi
  have hbl : (x.w.hs h).buf.length = q.bs := by rw [(R.rel.h h).buf, hl]
  have hgl : (x.w.hs g).buf.length = q.bs := by
    obtain ⟨q', hq', hl'⟩ := (R.rel.h g).some k hg
    rw [e3] at hq'
    cases hq'
    rw [(R.rel.h g).buf, hl']
  have vu := (toTs_valid u).2 hu
  have vv := (toTs_valid v).2 hv
  have F := (fit_iff _ _).1 S.fit
  have inb := inBox q.max q.bs seg'.info.start u2.start
  have off : (seg'.info.start * q.bs) % 2 ^ 32 = seg'.info.start * q.bs := Nat.mod_eq_of_lt (by omega)
  have last : ∃ d seg2, unflushSeg { seg' with nattch := seg'.nattch - 1 } q.bs = .ok (d, seg2) ∧ Full seg2 := by
    have m1 := u2.mem
    have m2 := u2.size
    have m3 := u2.bs
    simp only at m1 m2 m3
    simp only [unflushSeg, m3, off, m1, m2]
    rw [if_pos ⟨by omega, by omega, by omega⟩]
    refine ⟨_, _, rfl, ?_⟩
    have m4 := u2.fin
    have m5 := u2.start
    simp only [List.length_nil, Nat.add_zero] at m4 m5
    rw [Nat.mod_eq_of_lt m5] at m4
    simp only [Full, m4]
  obtain ⟨d, seg2, hd, hF⟩ := last
  have s1 : xstep x (.unflush h ⟨n, true⟩ u) = .ok (⟨World.setH ⟨set x.w.segs k (some seg'), set x.w.sems k (some ⟨1, 0⟩), x.w.hs⟩ h { x.w.hs h with buf := b, pos := 0 },
      fun i j => if i = h ∧ j = k then x.adj i j + 1 else x.adj i j⟩, [⟨.bool true, 0⟩]) := by
    simp [xstep, one, unflush, i2, semtimedop, vu, boxCount, i3, e2, hi, take, QueueApi.unflush, countDown, lock_queue, i1, World.setSem, e1, hbl, u1, unlock_queue,
      World.setSeg, World.setH, record, QueueApi.set_set]
  have s2 : xstep ⟨World.setH ⟨set x.w.segs k (some seg'), set x.w.sems k (some ⟨1, 0⟩), x.w.hs⟩ h { x.w.hs h with buf := b, pos := 0 },
      fun i j => if i = h ∧ j = k then x.adj i j + 1 else x.adj i j⟩ (.exit h) =
      .ok (⟨World.setH ⟨set x.w.segs k (some { seg' with nattch := seg'.nattch - 1 }), fun i => (set x.w.sems k (some ⟨1, 0⟩) i).map fun t =>
        { t with w := min SEMVMX (t.w + if i = k then 1 else 0) }, x.w.hs⟩ h .new, fun _ _ => 0⟩, [⟨.unit, 0⟩]) := by
    simp [xstep, one, exit, disconnect, World.setH, i1, World.setSeg, undo, R.adj]
    funext i j
    split
    · rfl
    · rename_i hn
      rw [if_neg (fun e => hn e.1)]
  have s3 : ∃ x', xstep ⟨World.setH ⟨set x.w.segs k (some { seg' with nattch := seg'.nattch - 1 }), fun i => (set x.w.sems k (some ⟨1, 0⟩) i).map fun t =>
        { t with w := min SEMVMX (t.w + if i = k then 1 else 0) }, x.w.hs⟩ h .new, fun _ _ => 0⟩ (.unflush g f v) = .ok (x', [⟨.bool true, 0⟩]) ∧ XDead x' k := by
    simp [xstep, one, unflush, World.setH, QueueApi.set, hgh, j2, semtimedop, vv, boxCount, j3, SEMVMX, take, QueueApi.unflush, countDown, lock_queue, World.setSem, j1, hgl, hd, unlock_queue,
      World.setSeg, record, hf]
    refine ⟨⟨⟨seg2, by simp, hF⟩, ⟨⟨1, 0⟩, by simp, rfl⟩, fun i => ?_⟩, fun i => rfl⟩
    have H := R.rel.h i
    simp only [QueueApi.set]
    split
    · exact .inr ⟨rfl, k, rfl, rfl⟩
    · split
      · exact .inl ⟨rfl, rfl⟩
      · cases hk : (s.us i).key with
        | none => exact .inl ⟨by rw [H.boxes, hk]; rfl, by rw [H.info, hk]⟩
        | some j => exact .inr ⟨by rw [H.boxes, hk]; rfl, j, by rw [H.info, hk], by rw [H.sem, hk]⟩
  obtain ⟨x', s3, D⟩ := s3
  exact ⟨x', by simp only [xrun, s1, s2, s3, Res.ok_bind]; rfl, D⟩

end Verif.QueueOpt
