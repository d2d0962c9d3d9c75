import Verif.MapIter.Grow
/-
  The system while processes only read and insert, and an iteration without the lock.
-/
set_option linter.unusedVariables false
set_option linter.unusedSimpArgs false

namespace Verif.MapIter

open Verif.ShmPool Verif.ShmMap Verif.MapSys

variable {V : Type} {N H : Nat}

/-- An operation that takes nothing out of the map, and what it inserts is allowed by `P`. -/
def Adds (P : UInt64 → V → Prop) : Op V → Prop
  | .read _ => True
  | .size => True
  | .insert k v => P k v
  | .erase _ => False
  | .clear => False

/-- A call that takes nothing out of the map. -/
def Only (P : UInt64 → V → Prop) (c : Call V) : Prop := ∀ o ∈ MapSys.Spec.meaning c, Adds P o

theorem grow_congr {P : UInt64 → V → Prop} {m m' : Map V} {f g f' : Nat → List Nat} (h : Grow N H P m m' f f') (e : ∀ b, b < H → f b = g b) : Grow N H P m m' g f' := by
  have hn := nodes_eq e
  refine ⟨h.shape, ?_, ?_, ?_⟩
  · intro b hb; rw [← e b hb]; exact h.ext b hb
  · rw [← hn]; exact h.key
  · rw [← hn]; exact h.val

/-- What operations that take nothing out do to the atomic map: the keys stay, and every new pair is inserted by one of them. -/
def More (os : List (Op V)) (l l' : ShmMap.Spec.Bindings V) : Prop :=
  (∃ pre, l'.map (·.1) = pre ++ l.map (·.1)) ∧ ∀ k v, (k, v) ∈ l' → (k, v) ∈ l ∨ Op.insert k v ∈ os

theorem more_refl (os : List (Op V)) (l : ShmMap.Spec.Bindings V) : More os l l := ⟨⟨[], by simp⟩, fun _ _ h => Or.inl h⟩

theorem more_step {P : UInt64 → V → Prop} {o : Op V} (ho : Adds P o) (N lk : Nat) (l : ShmMap.Spec.Bindings V) : More [o] l (ShmMap.Spec.stepL N lk l o).1 := by
  cases o with
  | read k => exact more_refl _ l
  | size => exact more_refl _ l
  | erase k => exact ho.elim
  | clear => exact ho.elim
  | insert k v =>
    simp only [ShmMap.Spec.stepL, ShmMap.Spec.step]
    split
    · unfold ShmMap.Spec.bind
      split
      · refine ⟨⟨[], ?_⟩, ?_⟩
        · rw [List.map_map, List.nil_append]
          refine List.map_congr_left ?_
          intro p _
          simp only [Function.comp]
          split
          · rename_i e; exact e.symm
          · rfl
        · intro k' v' h
          obtain ⟨p, hp, e⟩ := List.mem_map.mp h
          split at e
          · cases e; exact Or.inr (by simp)
          · rw [e] at hp; exact Or.inl hp
      · refine ⟨⟨[k], rfl⟩, ?_⟩
        intro k' v' h
        rcases List.mem_cons.mp h with h | h
        · cases h; exact Or.inr (by simp)
        · exact Or.inl h
    · exact more_refl _ l

theorem more_trans {os os' : List (Op V)} {l l' l'' : ShmMap.Spec.Bindings V} (h : More os l l') (h' : More os' l' l'') : More (os ++ os') l l'' := by
  obtain ⟨⟨p, e⟩, h1⟩ := h
  obtain ⟨⟨p', e'⟩, h2⟩ := h'
  refine ⟨⟨p' ++ p, by rw [e', e]; simp⟩, ?_⟩
  intro k v hk
  rcases h2 k v hk with hk | hk
  · rcases h1 k v hk with hk | hk
    · exact Or.inl hk
    · exact Or.inr (List.mem_append_left _ hk)
  · exact Or.inr (List.mem_append_right _ hk)

theorem more_steps {P : UInt64 → V → Prop} (N : Nat) : ∀ (os : List (Op V)), (∀ o ∈ os, Adds P o) → ∀ (lk : Nat) (l : ShmMap.Spec.Bindings V), More os l (MapSys.Spec.stepsL N lk l os).1 := by
  intro os
  induction os with
  | nil => intro _ lk l; exact more_refl _ l
  | cons o os ih =>
    intro h lk l
    simp only [MapSys.Spec.stepsL]
    exact more_trans (os := [o]) (more_step (h o (by simp)) N lk l) (ih (fun x hx => h x (by simp [hx])) _ _)

theorem more_mono {os os' : List (Op V)} {l l' : ShmMap.Spec.Bindings V} (h : More os l l') (hs : ∀ o ∈ os, o ∈ os') : More os' l l' :=
  ⟨h.1, fun k v hk => (h.2 k v hk).imp id (hs _)⟩

theorem during_rep (hN : N < NONE) (hH : 0 < H) {P : UInt64 → V → Prop} {n : Nat} {a : MapSys.Spec.State V} {c : Call V} {m m0 m1 : Map V} {l : Loc V} {pre : List (Op V)} {o : Op V} {ws0 ws : List (Wr V)}
    (d : During N H n a c m l pre o m0 m1 ws0 ws) (hc : Only P c) : ∃ f fr lk l, Rep N H m f fr lk l ∧ More (MapSys.Spec.meaning c) a.map l := by
  have ho : Adds P o := hc o (by rw [d.ops]; simp)
  obtain ⟨f, fr, h0⟩ := d.rep0
  obtain ⟨m', f', fr', lk', l', e, h', hl, _⟩ := kill_spec hN hH h0 o ws0.length (by rintro k rfl; exact ho.elim) (by rintro rfl; exact ho.elim)
  have hm : m' = m := by
    have hd := d.done
    simp only [kill, d.writes, Res.ok_bind, List.take_left'] at e
    rw [hd] at e
    cases e; rfl
  subst hm
  have h1 := more_steps (P := P) N pre (fun x hx => hc x (by rw [d.ops]; simp [hx])) a.lost a.map
  refine ⟨f', fr', lk', l', h', ?_⟩
  rcases hl with rfl | rfl
  · exact more_mono h1 (by intro x hx; rw [d.ops]; simp [hx])
  · exact more_mono (more_trans h1 (more_step ho N _ _)) (by intro x hx; rw [d.ops]; simp at hx ⊢; rcases hx with g | g <;> simp [g])

/-- While nobody takes anything out, the memory is a map after every store: that of the atomic map and some of the pairs that are being inserted. -/
theorem mid_rep (hN : N < NONE) (hH : 0 < H) {P : UInt64 → V → Prop} {s : Sys V} {a : MapSys.Spec.State V} (h : Sim N H s a) (ho : ∀ j c, s.pend j = .called c → Only P c) :
    ∃ f fr lk l, Rep N H s.rw.mem f fr lk l ∧ (∃ pre, l.map (·.1) = pre ++ a.map.map (·.1)) ∧
      ∀ k v, (k, v) ∈ l → (k, v) ∈ a.map ∨ ∃ j c, s.pend j = .called c ∧ Op.insert k v ∈ MapSys.Spec.meaning c := by
  by_cases hw : ∃ (i : Nat) (p : RwLock.Proc (Loc V)), s.rw.procs[i]? = some p ∧ p.mode = .writing
  · obtain ⟨i, p, hp, hm⟩ := hw
    have hi := h.ok i
    cases hx : s.pend i with
    | idle => rw [hx] at hi; exact absurd (Or.inl hm) (hi.2 p hp)
    | returning r =>
      rw [hx] at hi
      obtain ⟨_, q, hq, hmq⟩ := hi
      rw [hp] at hq; cases hq
      rw [hm] at hmq; cases hmq
    | called c =>
      rw [hx] at hi
      obtain ⟨_, q, hq, hmq⟩ := hi
      rw [hp] at hq; cases hq
      have hin : Within N H a c s.rw.mem p.loc := by
        rcases hmq with h1 | ⟨_, _, h1⟩ | ⟨_, _, h1⟩
        · rw [hm] at h1; cases h1
        · exact h1
        · exact h1
      have fin : ∀ l, More (MapSys.Spec.meaning c) a.map l → (∃ pre, l.map (·.1) = pre ++ a.map.map (·.1)) ∧
          ∀ k v, (k, v) ∈ l → (k, v) ∈ a.map ∨ ∃ j c, s.pend j = .called c ∧ Op.insert k v ∈ MapSys.Spec.meaning c :=
        fun l hl => ⟨hl.1, fun k v hk => (hl.2 k v hk).imp id (fun g => ⟨i, c, hx, g⟩)⟩
      obtain ⟨k, hin⟩ := hin
      cases hin with
      | between _ b _ =>
        obtain ⟨f, fr, hr⟩ := b.rep
        exact ⟨f, fr, _, _, hr, fin _ (more_mono (more_steps (P := P) N _ (fun x hxx => ho i c hx x (by rw [b.ops]; simp [hxx])) a.lost a.map) (by intro x hxx; rw [b.ops]; simp [hxx]))⟩
      | during d _ =>
        obtain ⟨f, fr, lk, l, g1, g2⟩ := during_rep hN hH d (ho i c hx)
        exact ⟨f, fr, lk, l, g1, fin _ g2⟩
  · obtain ⟨f, fr, hr⟩ := h.rep (fun i p hp hm => hw ⟨i, p, hp, hm⟩)
    exact ⟨f, fr, _, _, hr, ⟨[], by simp⟩, fun _ _ h => Or.inl h⟩

/-- One step of a writer. -/
theorem write_grow (hN : N < NONE) (hH : 0 < H) {P : UInt64 → V → Prop} {a : MapSys.Spec.State V} {c : Call V} {m : Map V} {l : Loc V} {f : Nat → List Nat}
    (h : Within N H a c m l) (ho : Only P c) (hs : Shape N H m f) : ∃ f', Grow N H P m (wbody N H m l).1 f f' := by
  obtain ⟨k, h⟩ := h
  cases h with
  | @between _ _ _ _ pre hp b hb =>
    refine ⟨f, ?_⟩
    have : (wbody N H m l).1 = m := by
      unfold wbody
      rw [hp]
      cases l.todo <;> rfl
    rw [this]
    exact grow_refl hs
  | @during n _ _ _ _ pre o m0 m1 ws0 ws d hb =>
    have hp := d.path
    generalize (ShmMap.Spec.stepL N (MapSys.Spec.stepsL N a.lost a.map pre).2.1 (MapSys.Spec.stepsL N a.lost a.map pre).1 o).2.2 = r at hp
    generalize hpc : l.pc = pc at hp
    generalize hws : ws = ws1 at hp
    cases hp with
    | ret =>
      have hw : (wbody N H m l).1 = m := by unfold wbody; rw [hpc]
      rw [hw]; exact ⟨f, grow_refl hs⟩
    | rd hl hst hp' =>
      have hw : (wbody N H m l).1 = m := by rw [wbody_live (by rw [hpc]; exact hl), hpc, hst]
      rw [hw]; exact ⟨f, grow_refl hs⟩
    | @wr n' _ m' _ pc' w ws2 _ hl hst ha hp' =>
      have hw : (wbody N H m l).1 = m' := by
        rw [wbody_live (by rw [hpc]; exact hl), hpc, hst]
        simp only [ha]
      rw [hw]
      have hwr := d.writes
      rw [hws] at hwr
      have hadd := ho o (by rw [d.ops]; simp)
      obtain ⟨f0, fr, h0⟩ := d.rep0
      cases o with
      | read k => simp [ShmMap.writes] at hwr
      | size => simp [ShmMap.writes] at hwr
      | erase k => exact hadd.elim
      | clear => exact hadd.elim
      | insert k v =>
        obtain ⟨g1, f', g2⟩ := insert_grow hN hH (P := P) h0 hadd hwr d.done ha
        exact ⟨f', grow_congr g2 (fun b hb => shape_unique hN g1 hs b hb)⟩

/-- A kill is harmless when nobody takes anything out. -/
theorem safe_only {P : UInt64 → V → Prop} {s : Sys V} {a : MapSys.Spec.State V} (h : Sim N H s a) (ho : ∀ j c, s.pend j = .called c → Only P c) (x : Act V) : SafeKill H s x := by
  cases x with
  | kill i =>
    intro p hp hm hfr
    have hi := h.ok i
    cases hx : s.pend i with
    | idle => rw [hx] at hi; exact absurd (Or.inl hm) (hi.2 p hp)
    | returning r =>
      rw [hx] at hi
      obtain ⟨_, q, hq, hmq⟩ := hi
      rw [hp] at hq; cases hq
      rw [hm] at hmq; cases hmq
    | called c =>
      rw [hx] at hi
      obtain ⟨_, q, hq, hmq⟩ := hi
      rw [hp] at hq; cases hq
      have hin : Within N H a c s.rw.mem p.loc := by
        rcases hmq with h1 | ⟨_, _, h1⟩ | ⟨_, _, h1⟩
        · rw [hm] at h1; cases h1
        · exact h1
        · exact h1
      obtain ⟨k, hin⟩ := hin
      cases hin with
      | between he _ _ => rw [he] at hfr; exact hfr
      | @during _ _ _ _ _ _ o _ _ _ _ d _ =>
        have hadd := ho i c hx o (by rw [d.ops]; simp)
        have hcut : p.loc.pc.cuts = false := by
          have := d.track
          cases o with
          | erase k => exact hadd.elim
          | clear => exact hadd.elim
          | read k => exact this
          | size => exact this
          | insert k v => exact this
        cases hpc : p.loc.pc <;> rw [hpc] at hfr hcut <;> first | exact hfr | cases hcut
  | _ => trivial

/-- One step of the system. -/
theorem sys_grow (hN : N < NONE) (hH : 0 < H) {P : UInt64 → V → Prop} {s s' : Sys V} {a : MapSys.Spec.State V} {x : Act V} {es : List (Event V)} {f : Nat → List Nat}
    (h : Sim N H s a) (ho : ∀ j c, s.pend j = .called c → Only P c) (hs : MapSys.step N H s x = some (s', es)) (hsh : Shape N H s.rw.mem f) :
    ∃ f', Grow N H P s.rw.mem s'.rw.mem f f' := by
  have same : s'.rw.mem = s.rw.mem → ∃ f', Grow N H P s.rw.mem s'.rw.mem f f' := fun e => by rw [e]; exact ⟨f, grow_refl hsh⟩
  cases x with
  | connect i =>
    obtain ⟨s1, h1, h2⟩ := map_some' hs; cases h2
    obtain ⟨rw', e, rfl⟩ := low_some h1
    obtain ⟨p, hp, hm, rfl⟩ := get_some e
    exact same rfl
  | call i c =>
    simp only [MapSys.step] at hs
    split at hs
    · split at hs
      · cases hs; exact same rfl
      · cases hs
    · cases hs
  | lock i =>
    simp only [MapSys.step] at hs
    split at hs
    · obtain ⟨s1, h1, h2⟩ := map_some' hs; cases h2
      obtain ⟨rw', e, rfl⟩ := low_some h1
      split at e
      · obtain ⟨p, v, adj, hp, hm, rfl⟩ := lockR_some e; exact same rfl
      · obtain ⟨p, v, adj, hp, hm, rfl⟩ := lockW_some e; exact same rfl
    · cases hs
  | body i =>
    obtain ⟨s1, h1, h2⟩ := map_some' hs; cases h2
    obtain ⟨rw', e, rfl⟩ := low_some h1
    obtain ⟨p, hp, hcase⟩ := body_some e
    rcases hcase with ⟨hm, rfl⟩ | ⟨hm, rfl⟩
    · have hi := h.ok i
      cases hx : s.pend i with
      | idle => rw [hx] at hi; exact absurd (Or.inl hm) (hi.2 p hp)
      | returning r =>
        rw [hx] at hi
        obtain ⟨_, q, hq, hmq⟩ := hi
        rw [hp] at hq; cases hq
        rw [hm] at hmq; cases hmq
      | called c =>
        rw [hx] at hi
        obtain ⟨_, q, hq, hmq⟩ := hi
        rw [hp] at hq; cases hq
        have hin : Within N H a c s.rw.mem p.loc := by
          rcases hmq with h1 | ⟨_, _, h1⟩ | ⟨_, _, h1⟩
          · rw [hm] at h1; cases h1
          · exact h1
          · exact h1
        exact write_grow hN hH hin (ho i c hx) hsh
    · exact same rfl
  | unlock i =>
    simp only [MapSys.step] at hs
    split at hs
    · split at hs
      · obtain ⟨s1, h1, h2⟩ := map_some' hs; cases h2
        obtain ⟨rw', e, rfl⟩ := low_some h1
        obtain ⟨p, v, adj, hp, hm, rfl⟩ := unlock_some e
        exact same rfl
      · cases hs
    · cases hs
  | ret i =>
    simp only [MapSys.step] at hs
    split at hs
    · cases hs; exact same rfl
    · cases hs
  | kill i =>
    obtain ⟨s1, h1, h2⟩ := map_some' hs; cases h2
    obtain ⟨rw', e, rfl⟩ := low_some h1
    obtain ⟨p, v, hp, rfl⟩ := kill_some e
    exact same rfl
  | spawn i =>
    obtain ⟨s1, h1, h2⟩ := map_some' hs; cases h2
    obtain ⟨rw', e, rfl⟩ := low_some h1
    obtain ⟨p, hp, hm, rfl⟩ := spawn_some e
    exact same rfl

/-- The calls in progress after a step. -/
theorem pend_step {s s' : Sys V} {x : Act V} {es : List (Event V)} (hs : MapSys.step N H s x = some (s', es)) {j : Nat} {c : Call V} (hj : s'.pend j = .called c) :
    s.pend j = .called c ∨ x = .call j c := by
  cases x with
  | connect i =>
    obtain ⟨s1, h1, h2⟩ := map_some' hs; cases h2
    obtain ⟨rw', e, rfl⟩ := low_some h1
    exact Or.inl hj
  | call i c' =>
    simp only [MapSys.step] at hs
    split at hs
    · split at hs
      · cases hs
        simp only [Sys.setPend] at hj
        by_cases hji : j = i
        · rw [if_pos hji] at hj; cases hj; rw [hji]; exact Or.inr rfl
        · rw [if_neg hji] at hj; exact Or.inl hj
      · cases hs
    · cases hs
  | lock i =>
    simp only [MapSys.step] at hs
    split at hs
    · obtain ⟨s1, h1, h2⟩ := map_some' hs; cases h2
      obtain ⟨rw', e, rfl⟩ := low_some h1
      exact Or.inl hj
    · cases hs
  | body i =>
    obtain ⟨s1, h1, h2⟩ := map_some' hs; cases h2
    obtain ⟨rw', e, rfl⟩ := low_some h1
    exact Or.inl hj
  | unlock i =>
    simp only [MapSys.step] at hs
    split at hs
    · split at hs
      · obtain ⟨s1, h1, h2⟩ := map_some' hs; cases h2
        obtain ⟨rw', e, rfl⟩ := low_some h1
        simp only [Sys.setPend] at hj
        by_cases hji : j = i
        · rw [if_pos hji] at hj; cases hj
        · rw [if_neg hji] at hj; exact Or.inl hj
      · cases hs
    · cases hs
  | ret i =>
    simp only [MapSys.step] at hs
    split at hs
    · cases hs
      simp only [Sys.setPend] at hj
      by_cases hji : j = i
      · rw [if_pos hji] at hj; cases hj
      · rw [if_neg hji] at hj; exact Or.inl hj
    · cases hs
  | kill i =>
    obtain ⟨s1, h1, h2⟩ := map_some' hs; cases h2
    obtain ⟨rw', e, rfl⟩ := low_some h1
    simp only [Sys.setPend] at hj
    by_cases hji : j = i
    · rw [if_pos hji] at hj; cases hj
    · rw [if_neg hji] at hj; exact Or.inl hj
  | spawn i =>
    obtain ⟨s1, h1, h2⟩ := map_some' hs; cases h2
    obtain ⟨rw', e, rfl⟩ := low_some h1
    exact Or.inl hj

end Verif.MapIter
