import Verif.MapPeek.Props
/-
  Property C182: `unprotected_read` without the lock never leaves the segment, whatever the others do; and what can go wrong when they erase.
-/
set_option linter.unusedVariables false
set_option linter.unusedSimpArgs false

namespace Verif.MapPeek

open Verif.ShmPool Verif.ShmMap Verif.MapSys Verif.MapIter

variable {V : Type} {N H : Nat}

/-- An index of a node, or none. -/
def Ix (N x : Nat) : Prop := x = NONE ∨ x < N

/-- Every index in the segment is one of a node, or none. -/
structure Tidy (N H : Nat) (m : Map V) : Prop where
  hash : ∀ b, b < H → Ix N (m.hash b)
  next : ∀ e, Ix N (m.next e)
  data : ∀ t, Ix N (m.pool.free.data t)

/-- The indices that a call is about to store. -/
def Has (N : Nat) : Pc V → Prop
  | .alCurW _ _ _ c => c < N
  | .alTopW _ _ _ _ x => Ix N x
  | .new _ _ _ x => Ix N x
  | .nKey _ _ _ x => Ix N x
  | .nVal _ _ x => Ix N x
  | .nNext _ x => Ix N x
  | .nLink _ x => Ix N x
  | .erHead _ e => Ix N e
  | .erHeadW _ e n => Ix N e ∧ Ix N n
  | .erMid _ e => Ix N e
  | .erMidW _ e n => Ix N e ∧ Ix N n
  | .erClr e => Ix N e
  | .frTop e => Ix N e
  | .frTopW e _ => Ix N e
  | .frData e _ => Ix N e
  | _ => True

/-- The index that a store puts into the segment. -/
def WrOk (N : Nat) : Wr V → Prop
  | .next _ n => Ix N n
  | .hash _ n => Ix N n
  | .pool (.stk (.data _ x)) => Ix N x
  | _ => True

theorem tidy_apply {m m' : Map V} {w : Wr V} (h : Tidy N H m) (hw : WrOk N w) (he : w.apply N H m = .ok m') : Tidy N H m' := by
  have hput : ∀ (a : Nat → Nat) (i x : Nat) (P : Nat → Prop), (∀ j, P j → Ix N (a j)) → Ix N x → ∀ j, P j → Ix N (put a i x j) := by
    intro a i x P ha hx j hj
    unfold put
    split
    · exact hx
    · exact ha j hj
  cases w with
  | pool w =>
    cases w with
    | cur c => cases he; exact ⟨h.hash, h.next, h.data⟩
    | stk w =>
      cases w with
      | top t => cases he; exact ⟨h.hash, h.next, h.data⟩
      | data t x =>
        simp only [Wr.apply, PWr.apply, SWr.apply] at he
        by_cases ht : t < N
        · rw [if_pos ht] at he
          cases he
          refine ⟨h.hash, h.next, ?_⟩
          intro j
          simp only
          split
          · exact hw
          · exact h.data j
        · rw [if_neg ht] at he; cases he
  | key i k =>
    simp only [Wr.apply] at he
    split at he
    · cases he; exact ⟨h.hash, h.next, h.data⟩
    · cases he
  | val i k =>
    simp only [Wr.apply] at he
    split at he
    · cases he; exact ⟨h.hash, h.next, h.data⟩
    · cases he
  | next i n =>
    simp only [Wr.apply] at he
    split at he
    · cases he; exact ⟨h.hash, fun e => hput m.next i n (fun _ => True) (fun j _ => h.next j) hw e trivial, h.data⟩
    · cases he
  | hash b n =>
    simp only [Wr.apply] at he
    split at he
    · cases he; exact ⟨hput m.hash b n (· < H) h.hash hw, h.next, h.data⟩
    · cases he

theorem has_step {m : Map V} {pc : Pc V} (h : Tidy N H m) (hp : Has N pc) : (∀ w, (pc.step N H m).1 = some w → WrOk N w) ∧ Has N (pc.step N H m).2 := by
  have hnone : Ix N NONE := Or.inl rfl
  cases pc with
  | nLink p x => cases p <;> exact ⟨fun w e => (by cases e; exact hp), trivial⟩
  | clHash i =>
    simp only [Pc.step]
    split
    · exact ⟨fun w e => (by cases e; exact hnone), trivial⟩
    · exact ⟨fun w e => (by cases e), trivial⟩
  | nNext p x => exact ⟨fun w e => (by cases e; exact hnone), hp⟩
  | erHeadW b e n => exact ⟨fun w he => (by cases he; exact hp.2), hp.1⟩
  | erMidW b e n => exact ⟨fun w he => (by cases he; exact hp.2), hp.1⟩
  | erClr e => exact ⟨fun w he => (by cases he; exact hnone), hp⟩
  | frData e t => exact ⟨fun w he => (by cases he; exact hp), trivial⟩
  | erHead b e => exact ⟨fun w he => (by cases he), hp, h.next e⟩
  | erMid b e => exact ⟨fun w he => (by cases he), hp, h.next e⟩
  | alCurW k v p c => exact ⟨fun w he => (by cases he; trivial), Or.inr hp⟩
  | alCur k v p =>
    refine ⟨fun w he => (by cases he), ?_⟩
    simp only [Pc.step]
    split
    · exact hnone
    · show _ < N; omega
  | alData k v p t =>
    refine ⟨fun w he => (by cases he), ?_⟩
    simp only [Pc.step]
    split
    · exact h.data t
    · trivial
  | erKey k b e =>
    refine ⟨fun w he => (by cases he), ?_⟩
    simp only [Pc.step]
    repeat' split
    · exact Or.inr (by assumption)
    · trivial
    · trivial
  | erLoop k p e =>
    refine ⟨fun w he => (by cases he), ?_⟩
    simp only [Pc.step]
    repeat' split
    · trivial
    · exact Or.inr (by assumption)
    · trivial
    · trivial
  | new k v p x =>
    refine ⟨fun w he => (by cases he), ?_⟩
    simp only [Pc.step]
    split
    · trivial
    · exact hp
  | frTop e =>
    refine ⟨fun w he => (by cases he), ?_⟩
    simp only [Pc.step]
    split
    · trivial
    · exact hp
  | nKey k v p x => exact ⟨fun w he => (by cases he; trivial), hp⟩
  | nVal v p x => exact ⟨fun w he => (by cases he; trivial), hp⟩
  | alTopW k v p t x => exact ⟨fun w he => (by cases he; trivial), hp⟩
  | frTopW e t => exact ⟨fun w he => (by cases he; trivial), hp⟩
  | inVal v e => exact ⟨fun w he => (by cases he; trivial), trivial⟩
  | clCur => exact ⟨fun w he => (by cases he; trivial), trivial⟩
  | clTop => exact ⟨fun w he => (by cases he; trivial), trivial⟩
  | _ =>
    refine ⟨fun w he => (by cases he), ?_⟩
    simp only [Pc.step]
    repeat' split
    all_goals trivial

theorem start_has (o : Op V) : Has N (start o) := by cases o <;> trivial

theorem tidy_wbody {m : Map V} {l : Loc V} (h : Tidy N H m) (hp : Has N l.pc) : Tidy N H (wbody N H m l).1 ∧ Has N (wbody N H m l).2.pc := by
  obtain ⟨h1, h2⟩ := has_step h hp
  unfold wbody
  split
  · exact ⟨h, hp⟩
  · exact ⟨h, start_has _⟩
  · exact ⟨h, trivial⟩
  · split
    · rename_i e
      rw [e] at h2
      exact ⟨h, h2⟩
    · rename_i e
      rw [e] at h1 h2
      split
      · rename_i e'
        exact ⟨tidy_apply h (h1 _ rfl) e', h2⟩
      · exact ⟨h, trivial⟩

/-- What holds in every reachable state. -/
structure BInv (N H : Nat) (s : Sys V) : Prop where
  tidy : Tidy N H s.rw.mem
  has : ∀ (j : Nat) (p : RwLock.Proc (Loc V)), s.rw.procs[j]? = some p → p.mode = .writing → Has N p.loc.pc

theorem binv_step {s s' : Sys V} {x : Act V} {es : List (Event V)} (h : BInv N H s) (hs : MapSys.step N H s x = some (s', es)) : BInv N H s' := by
  have upd : ∀ (rw' : RwLock.State (Map V) (Loc V)) (i : Nat) (q : RwLock.Proc (Loc V)), rw'.procs = s.rw.procs → (q.mode = .writing → Has N q.loc.pc) →
      ∀ (j : Nat) (p : RwLock.Proc (Loc V)), (rw'.upd i q).procs[j]? = some p → p.mode = .writing → Has N p.loc.pc := by
    intro rw' i q e hq j p hp hm
    by_cases hj : j = i
    · subst hj
      simp only [RwLock.State.upd] at hp
      have hlt := (List.getElem?_eq_some_iff.mp hp).1
      rw [List.getElem?_set_self (by simpa using hlt)] at hp
      cases hp
      exact hq hm
    · rw [upd_other hj, e] at hp
      exact h.has j p hp hm
  cases x with
  | connect i =>
    obtain ⟨s1, h1, h2⟩ := map_some' hs; cases h2
    obtain ⟨rw', e, rfl⟩ := low_some h1
    obtain ⟨p, hp, hm, rfl⟩ := get_some e
    exact ⟨h.tidy, upd _ _ _ rfl (by intro g; cases g)⟩
  | call i c =>
    simp only [MapSys.step] at hs
    split at hs
    · split at hs
      · cases hs; exact ⟨h.tidy, h.has⟩
      · cases hs
    · cases hs
  | lock i =>
    simp only [MapSys.step] at hs
    split at hs
    · obtain ⟨s1, h1, h2⟩ := map_some' hs; cases h2
      obtain ⟨rw', e, rfl⟩ := low_some h1
      split at e
      · obtain ⟨p, v, adj, hp, hm, rfl⟩ := lockR_some e
        exact ⟨h.tidy, upd _ _ _ rfl (by intro g; cases g)⟩
      · obtain ⟨p, v, adj, hp, hm, rfl⟩ := lockW_some e
        exact ⟨h.tidy, upd _ _ _ rfl (fun _ => trivial)⟩
    · cases hs
  | body i =>
    obtain ⟨s1, h1, h2⟩ := map_some' hs; cases h2
    obtain ⟨rw', e, rfl⟩ := low_some h1
    obtain ⟨p, hp, hcase⟩ := body_some e
    rcases hcase with ⟨hm, rfl⟩ | ⟨hm, rfl⟩
    · obtain ⟨g1, g2⟩ := tidy_wbody h.tidy (h.has i p hp hm)
      exact ⟨g1, upd _ _ _ rfl (fun _ => g2)⟩
    · exact ⟨h.tidy, upd _ _ _ rfl (by intro g; rw [hm] at g; cases g)⟩
  | unlock i =>
    simp only [MapSys.step] at hs
    split at hs
    · split at hs
      · obtain ⟨s1, h1, h2⟩ := map_some' hs; cases h2
        obtain ⟨rw', e, rfl⟩ := low_some h1
        obtain ⟨p, v, adj, hp, hm, rfl⟩ := unlock_some e
        exact ⟨h.tidy, upd _ _ _ rfl (by intro g; cases g)⟩
      · cases hs
    · cases hs
  | ret i =>
    simp only [MapSys.step] at hs
    split at hs
    · cases hs; exact ⟨h.tidy, h.has⟩
    · cases hs
  | kill i =>
    obtain ⟨s1, h1, h2⟩ := map_some' hs; cases h2
    obtain ⟨rw', e, rfl⟩ := low_some h1
    obtain ⟨p, v, hp, rfl⟩ := kill_some e
    exact ⟨h.tidy, upd _ _ _ rfl (by intro g; cases g)⟩
  | spawn i =>
    obtain ⟨s1, h1, h2⟩ := map_some' hs; cases h2
    obtain ⟨rw', e, rfl⟩ := low_some h1
    obtain ⟨p, hp, hm, rfl⟩ := spawn_some e
    exact ⟨h.tidy, upd _ _ _ rfl (by intro g; cases g)⟩

/-- The places of a read without the lock. -/
def Reading (N : Nat) : Pc V → Prop
  | .rdHash _ => True
  | .rdLoop _ e => Ix N e
  | .rdVal e => e < N
  | .rdNext _ e => e < N
  | .ret (.val _) => True
  | _ => False

theorem reading_step (hH : 0 < H) {m : Map V} {pc : Pc V} (h : Tidy N H m) (hp : Reading N pc) : Reading N (pc.step N H m).2 := by
  cases pc with
  | rdHash k =>
    simp only [Pc.step]
    rw [if_neg (by omega)]
    exact h.hash _ (Nat.mod_lt _ hH)
  | rdLoop k e =>
    simp only [Pc.step]
    by_cases he : e = NONE
    · rw [if_pos he]; trivial
    · have hlt : e < N := hp.resolve_left he
      rw [if_neg he, if_pos hlt]
      split
      · exact hlt
      · exact hlt
  | rdVal e => trivial
  | rdNext k e => exact h.next e
  | ret r => exact hp
  | _ => exact hp.elim

/-- The segment is new: the system has filled it with zeros before `attach` has made the map empty. -/
def Zeroed (m : Map V) : Prop := (∀ e, m.next e = 0) ∧ ∀ t, m.pool.free.data t = 0

/-- **C182, no access outside the segment.** Whatever the others do - insert, erase, clear, get killed anywhere - `unprotected_read` without the lock never accesses memory outside
of the segment, and returns true or false if it returns. -/
theorem C182_bounds_partial (hN : 0 < N) (hH : 0 < H) (s s' : PSys V) (h : Start H s) (hz : Zeroed s.sys.rw.mem) (xs : List (PAct V)) (es : List (PEvent V)) (he : exec N H s xs = some (s', es)) :
    (∀ i, s'.peek i ≠ some .ub) ∧ ∀ i r, .looked i r ∈ es → ∃ v, r = .val v := by
  have gen : ∀ (xs : List (PAct V)) (s s' : PSys V) (es : List (PEvent V)), BInv N H s.sys → (∀ i pc, s.peek i = some pc → Reading N pc) → exec N H s xs = some (s', es) →
      (∀ i pc, s'.peek i = some pc → Reading N pc) ∧ ∀ i r, .looked i r ∈ es → ∃ v, r = .val v := by
    intro xs
    induction xs with
    | nil => intro s s' es hb hr he; cases he; exact ⟨hr, by intro i r hm; cases hm⟩
    | cons x xs ih =>
      intro s s' es hb hr he
      simp only [exec] at he
      cases hs : step N H s x with
      | none => rw [hs] at he; cases he
      | some q =>
        obtain ⟨s1, es1⟩ := q
        rw [hs] at he
        simp only at he
        cases hx : exec N H s1 xs with
        | none => rw [hx] at he; cases he
        | some q =>
          obtain ⟨s2, es2⟩ := q
          rw [hx] at he
          cases he
          have hone : BInv N H s1.sys ∧ (∀ i pc, s1.peek i = some pc → Reading N pc) ∧ ∀ i r, .looked i r ∈ es1 → ∃ v, r = .val v := by
            cases x with
            | sys y =>
              obtain ⟨sy, es', hq, rfl, rfl, hpk⟩ := sys_step hs
              refine ⟨binv_step hb hq, fun i pc hpc => hr i pc (hpk i pc hpc), ?_⟩
              intro i r hm
              obtain ⟨e, _, g⟩ := List.mem_map.mp hm
              cases g
            | peek j k =>
              obtain ⟨rfl, e, _, rfl⟩ := peek_step hs
              refine ⟨hb, ?_, by intro i r hm; cases hm⟩
              intro i pc hpc
              simp only [PSys.set] at hpc
              split at hpc
              · cases hpc; trivial
              · exact hr i pc hpc
            | look j =>
              obtain ⟨pc, hpc, e, ⟨r, rfl, rfl, rfl⟩ | ⟨_, rfl, rfl⟩⟩ := look_step hs
              · refine ⟨hb, ?_, ?_⟩
                · intro i pc' hpc'
                  simp only [PSys.set] at hpc'
                  split at hpc'
                  · cases hpc'
                  · exact hr i pc' hpc'
                · intro i r' hm
                  simp only [List.mem_singleton, PEvent.looked.injEq] at hm
                  obtain ⟨rfl, rfl⟩ := hm
                  have := hr i _ hpc
                  cases r' with
                  | val v => exact ⟨v, rfl⟩
                  | _ => exact this.elim
              · refine ⟨hb, ?_, by intro i r hm; cases hm⟩
                intro i pc' hpc'
                simp only [PSys.set] at hpc'
                split at hpc'
                · cases hpc'; exact reading_step hH hb.tidy (hr j pc hpc)
                · exact hr i pc' hpc'
          obtain ⟨g1, g2, g3⟩ := hone
          obtain ⟨k1, k2⟩ := ih s1 _ es2 g1 g2 hx
          refine ⟨k1, ?_⟩
          intro i r hm
          rcases List.mem_append.mp hm with hm | hm
          · exact g3 i r hm
          · exact k2 i r hm
  have hb : BInv N H s.sys := by
    refine ⟨⟨?_, ?_, ?_⟩, ?_⟩
    · intro b hb; exact Or.inl (h.1.2.1.2.2 b hb)
    · intro e; exact Or.inr (by rw [hz.1]; exact hN)
    · intro e; exact Or.inr (by rw [hz.2]; exact hN)
    · intro j p hp hm
      have := (h.1.1.2.2 p (List.mem_of_getElem? hp)).1
      rw [hm] at this
      rcases this with g | g <;> cases g
  obtain ⟨g1, g2⟩ := gen xs s s' es hb (by intro i pc hpc; rw [h.2 i] at hpc; cases hpc) he
  exact ⟨fun i hub => (g1 i _ hub).elim, g2⟩

/-! ## examples -/

/-- A map in a new segment: two connected processes, and one that is not. -/
def p0 : PSys Nat := ⟨{ s0 with rw := { s0.rw with mem := ⟨⟨0, ⟨NONE, fun _ => 0⟩⟩, fun _ => 0, fun _ => 0, fun _ => 0, fun _ => NONE⟩ } }, fun _ => none⟩

theorem p0_start (H : Nat) : Start H p0 := ⟨⟨(s0_start H).1, ⟨rfl, rfl, fun _ _ => rfl⟩, fun _ => rfl⟩, fun _ => rfl⟩

theorem p0_zeroed : Zeroed p0.sys.rw.mem := ⟨fun _ => rfl, fun _ => rfl⟩

def lift (xs : List (Act Nat)) : List (PAct Nat) := xs.map .sys

/-- Process 0 has inserted keys 4 and 6, which go to the same bucket. -/
def two : List (PAct Nat) := lift (whole 0 (.op (.insert 4 40)) ++ whole 0 (.op (.insert 6 60)))

/-- Process 1 reads key 6 without the lock and has seen that the first entry has another key; then process 0 erases key 4. -/
def hide : List (PAct Nat) := two ++ [.peek 1 6, .look 1, .look 1] ++ lift (whole 0 (.op (.erase 4))) ++ List.replicate 3 (.look 1)

/-- Process 1 reads key 4 without the lock and has found the entry; then process 0 erases key 4 and inserts key 9. -/
def swap : List (PAct Nat) := two ++ [.peek 1 4, .look 1, .look 1] ++ lift (whole 0 (.op (.erase 4)) ++ whole 0 (.op (.insert 9 90))) ++ List.replicate 2 (.look 1)

def seen : List (PEvent V) → List (Nat × Ret V)
  | [] => []
  | .sys _ :: es => seen es
  | .looked i r :: es => (i, r) :: seen es

/-- **C182 is false when others erase: a key is not found.** Key 6 is inserted before the call of process 1 begins and nobody ever erases it; process 0 erases key 4 during the call,
and the call returns false. -/
theorem C182_refuted : (exec 4 2 p0 hide).map (fun q => seen q.2) = some [(1, .val none)] := by decide +kernel

/-- **C182 is false when others erase: a value of another key.** Process 1 reads key 4 and gets the value 90, which nobody ever inserts under this key. -/
theorem C182_refuted_value : (exec 4 2 p0 swap).map (fun q => seen q.2) = some [(1, .val (some 90))] := by decide +kernel

/-- `C182_bounds_partial` is about these two executions, among others. -/
example : ∃ s' es, exec 4 2 p0 swap = some (s', es) ∧ .looked 1 (.val (some 90)) ∈ es ∧ Start 2 p0 ∧ Zeroed p0.sys.rw.mem := by
  have hy : (exec 4 2 p0 swap).map (fun q => decide (seen q.2 = [(1, .val (some 90))])) = some true := by decide +kernel
  obtain ⟨⟨s', es⟩, e, hm⟩ := map_some' hy
  refine ⟨s', es, e, ?_, p0_start 2, p0_zeroed⟩
  have hm := of_decide_eq_true hm.symm
  have : ∀ (es : List (PEvent Nat)) (i : Nat) (r : Ret Nat), (i, r) ∈ seen es → .looked i r ∈ es := by
    intro es
    induction es with
    | nil => intro i r h; cases h
    | cons x es ih =>
      intro i r h
      cases x with
      | sys x => exact List.mem_cons_of_mem _ (ih i r h)
      | looked j q =>
        rcases List.mem_cons.mp h with h | h
        · cases h; exact List.mem_cons_self ..
        · exact List.mem_cons_of_mem _ (ih i r h)
  exact this _ _ _ (by rw [show seen es = _ from hm]; simp)

/-- Process 1 reads key 8 without the lock while process 0 inserts it, behind key 4. -/
def early : List (PAct Nat) := lift (whole 0 (.op (.insert 4 40)) ++ [.call 0 (.op (.insert 8 80)), .lock 0, .body 0, .body 0])

def meanwhile (n k : Nat) : List (PAct Nat) := [.look 1, .look 1] ++ lift (List.replicate n (.body 0)) ++ List.replicate k (.look 1)

theorem early_safe : Safe 4 2 p0 early := by
  have gen : ∀ (xs : List (PAct Nat)) (s : PSys Nat), (∀ x ∈ xs, ∀ j, x ≠ .sys (.kill j)) → Safe 4 2 s xs := by
    intro xs
    induction xs with
    | nil => intro s _; trivial
    | cons x xs ih =>
      intro s h
      refine ⟨?_, fun s' es _ => ih s' (fun y hy => h y (by simp [hy]))⟩
      rintro a rfl
      cases a with
      | kill j => exact absurd rfl (h _ (by simp) j)
      | _ => trivial
  refine gen _ _ ?_
  intro x hx j
  simp only [early, lift, whole, List.mem_map, List.mem_append, List.mem_cons, List.mem_replicate] at hx
  obtain ⟨y, hy, rfl⟩ := hx
  intro e
  cases e
  simp at hy

theorem keeps_insert (k : UInt64) (v : V) : Keeps (.op (.insert k v)) := by
  intro o ho
  simp only [MapSys.Spec.meaning, List.mem_singleton] at ho
  subst ho
  simp

theorem pend_exec : ∀ (xs : List (PAct V)) {s s' : PSys V} {es : List (PEvent V)}, exec N H s xs = some (s', es) → ∀ j c, s'.sys.pend j = .called c →
    s.sys.pend j = .called c ∨ .sys (.call j c) ∈ xs := by
  intro xs
  induction xs with
  | nil => intro s s' es he j c hj; cases he; exact Or.inl hj
  | cons x xs ih =>
    intro s s' es he j c hj
    simp only [exec] at he
    cases hs : step N H s x with
    | none => rw [hs] at he; cases he
    | some q =>
      obtain ⟨s1, es1⟩ := q
      rw [hs] at he
      simp only at he
      cases hx : exec N H s1 xs with
      | none => rw [hx] at he; cases he
      | some q =>
        obtain ⟨s2, es2⟩ := q
        rw [hx] at he
        cases he
        rcases ih hx j c hj with g | g
        · cases x with
          | sys y =>
            obtain ⟨sy, es', hq, rfl, _⟩ := sys_step hs
            rcases pend_step hq g with g | rfl
            · exact Or.inl g
            · exact Or.inr (by simp)
          | peek i k => rw [(peek_step hs).2.1] at g; exact Or.inl g
          | look i =>
            obtain ⟨_, _, e, _⟩ := look_step hs
            rw [e] at g; exact Or.inl g
        · exact Or.inr (List.mem_cons_of_mem _ g)

/-- The premises of `C182_peek_partial` are met while an insert is in progress; after ten steps of this insert key 8 is found, after nine it is not. -/
example : ∃ s s' s'' es0 es es', exec 4 2 p0 early = some (s, es0) ∧ exec 4 2 s (.peek 1 8 :: meanwhile 10 4) = some (s', es) ∧ exec 4 2 s (.peek 1 8 :: meanwhile 9 3) = some (s'', es') ∧
    Safe 4 2 p0 early ∧ Start 2 p0 ∧ (∀ k', PAct.peek 1 k' ∉ meanwhile 10 4) ∧ (∀ j c, s.sys.pend j = .called c → Keeps c) ∧ (∀ j c, PAct.sys (.call j c) ∈ meanwhile 10 4 → Keeps c) ∧
    seen es = [(1, .val (some 80))] ∧ seen es' = [(1, .val none)] := by
  have hx : (exec 4 2 p0 early).isSome = true := by decide +kernel
  obtain ⟨⟨s, es0⟩, e⟩ := Option.isSome_iff_exists.mp hx
  have hy : ((exec 4 2 p0 early).bind (fun q => exec 4 2 q.1 (.peek 1 8 :: meanwhile 10 4))).map (fun q => decide (seen q.2 = [(1, .val (some 80))])) = some true := by decide +kernel
  have hz : ((exec 4 2 p0 early).bind (fun q => exec 4 2 q.1 (.peek 1 8 :: meanwhile 9 3))).map (fun q => decide (seen q.2 = [(1, .val none)])) = some true := by decide +kernel
  rw [e] at hy hz
  obtain ⟨⟨s', es⟩, e', hm⟩ := map_some' hy
  obtain ⟨⟨s'', es'⟩, e'', hm'⟩ := map_some' hz
  refine ⟨s, s', s'', es0, es, es', e, e', e'', early_safe, p0_start 2, ?_, ?_, ?_, of_decide_eq_true hm.symm, of_decide_eq_true hm'.symm⟩
  · intro k'; simp [meanwhile, lift]
  · intro j c hj
    rcases pend_exec _ e j c hj with g | g
    · cases g
    · simp [early, lift, whole] at g
      rcases g with ⟨_, rfl⟩ | ⟨_, rfl⟩
      · exact keeps_insert _ _
      · exact keeps_insert _ _
  · intro j c hj
    simp [meanwhile, lift] at hj

end Verif.MapPeek
