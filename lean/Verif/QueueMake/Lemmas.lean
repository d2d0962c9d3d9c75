import Verif.QueueMake.Spec
/-
  The invariant: how far the making of the queue is.
-/
namespace Verif.QueueMake

variable {D : Type} {bs n : Nat} {zero : D}

/-- In these modes a process has the lock. -/
def holds : Mode → Bool
  | .inside | .s0 | .s1 | .s2 _ | .s3 | .s4 | .s5 | .s6 => true
  | _ => false

theorem holds_iff (s : State D) (i : Nat) : Holds s i ↔ holds (s.mode i) = true := by
  unfold Holds holds
  cases s.mode i <;> simp

/-- The value of the lock and the adjustments fit to who has it. -/
def LockOK (s : State D) (l : Int) : Prop :=
  (l = 1 ∧ ∀ j, holds (s.mode j) = false ∧ s.adj j = 0) ∨
  (l = 0 ∧ ∃ i, holds (s.mode i) = true ∧ s.adj i = 1 ∧ ∀ j, j ≠ i → holds (s.mode j) = false ∧ s.adj j = 0)

/-- Modes of a process before the semaphores are there / while there is no segment / beside the maker of the segment / when all is ready. -/
def early : Mode → Bool
  | .out | .c1 | .dead => true
  | _ => false

def away : Mode → Bool
  | .out | .dead => true
  | _ => false

def before : Mode → Bool
  | .out | .c4 | .s0 | .s1 | .dead => true
  | _ => false

def beside : Mode → Bool
  | .out | .c4 | .dead => true
  | _ => false

def after : Mode → Bool
  | .out | .c4 | .s0 | .s2 false | .s5 | .s6 | .idle | .inside | .dead => true
  | _ => false

inductive Inv (bs n : Nat) (zero : D) (s : State D) (log : List (Op D)) : Prop where
  | none (hsem : s.sem = none) (hshm : s.shm = none) (hlog : log = []) (hm : ∀ j, early (s.mode j) = true) (h1 : ∀ i j, s.mode i = .c1 → s.mode j = .c1 → i = j)
      (ha : ∀ j, s.adj j = 0)
  | made (i : Nat) (hi : s.mode i = .c2) (hsem : s.sem = some (0, 0)) (hshm : s.shm = none) (hlog : log = []) (hm : ∀ j, j ≠ i → away (s.mode j) = true) (ha : ∀ j, s.adj j = 0)
  | set (i : Nat) (hi : s.mode i = .c3) (hsem : s.sem = some (1, 0)) (hshm : s.shm = none) (hlog : log = []) (hm : ∀ j, j ≠ i → away (s.mode j) = true) (ha : ∀ j, s.adj j = 0)
  | noseg (l : Int) (hsem : s.sem = some (l, 0)) (hshm : s.shm = none) (hlog : log = []) (hm : ∀ j, before (s.mode j) = true) (hl : LockOK s l)
  | seg (i : Nat) (g : Seg D) (hsem : s.sem = some (0, 0)) (hshm : s.shm = some g) (hlog : log = [])
      (hi : s.mode i = .s2 true ∨ (s.mode i = .s3 ∧ g.mem = zero) ∨ (s.mode i = .s4 ∧ g.mem = zero ∧ g.box_size = bs))
      (hm : ∀ j, j ≠ i → beside (s.mode j) = true) (hai : s.adj i = 1) (ha : ∀ j, j ≠ i → s.adj j = 0)
  | ready (l : Int) (g : Seg D) (hsem : s.sem = some (l, countAfter log)) (hshm : s.shm = some g) (hb : g.box_size = bs) (hn : g.size = n) (hd : g.mem = memAfter zero log)
      (hm : ∀ j, after (s.mode j) = true) (hl : LockOK s l)

theorem upd_same {A : Type} (f : Nat → A) (i : Nat) (x : A) : upd f i x i = x := by simp [upd]
theorem upd_ne {A : Type} (f : Nat → A) {i j : Nat} (x : A) (h : j ≠ i) : upd f i x j = f j := by simp [upd, h]

theorem upd_all {A : Type} {P : A → Prop} {f : Nat → A} {i : Nat} {x : A} (h : ∀ j, j ≠ i → P (f j)) (hx : P x) : ∀ j, P (upd f i x j) := by
  intro j
  by_cases h' : j = i
  · rw [h', upd_same]; exact hx
  · rw [upd_ne _ _ h']; exact h j h'

/-- A process that does not take or give the lock. -/
theorem LockOK.go {s : State D} {l : Int} (h : LockOK s l) {i : Nat} {m : Mode} (hm : holds m = holds (s.mode i)) : LockOK (s.go i m) l := by
  have hh : ∀ j, holds ((s.go i m).mode j) = holds (s.mode j) := by
    intro j
    by_cases h' : j = i
    · rw [h']; simp only [State.go, upd_same, hm]
    · simp only [State.go, upd_ne _ _ h']
  rcases h with ⟨h1, h2⟩ | ⟨h1, k, h2, h3, h4⟩
  · exact Or.inl ⟨h1, fun j => ⟨by rw [hh]; exact (h2 j).1, (h2 j).2⟩⟩
  · exact Or.inr ⟨h1, k, by rw [hh]; exact h2, h3, fun j hj => ⟨by rw [hh]; exact (h4 j hj).1, (h4 j hj).2⟩⟩

theorem LockOK.congr {s t : State D} {l : Int} (h : LockOK s l) (h1 : t.mode = s.mode) (h2 : t.adj = s.adj) : LockOK t l := by
  unfold LockOK
  rw [h1, h2]
  exact h

/-- lock_queue. -/
theorem LockOK.lock {s t : State D} {l c : Int} (h : LockOK s l) (hs : s.sem = some (l, c)) {i : Nat} {m : Mode} (hm : holds m = true) (ht : s.lock i m = some t) :
    t.sem = some (0, c) ∧ t.shm = s.shm ∧ t.mode = upd s.mode i m ∧ LockOK t 0 := by
  unfold State.lock at ht
  rw [hs] at ht
  simp only at ht
  by_cases hl : 1 ≤ l
  · rw [if_pos hl] at ht
    cases ht
    rcases h with ⟨h1, h2⟩ | ⟨h1, _⟩
    · refine ⟨?_, rfl, rfl, Or.inr ⟨rfl, i, ?_, ?_, ?_⟩⟩
      · simp only [State.go]; rw [h1]; rfl
      · simp only [State.go, upd_same, hm]
      · simp only [State.go, upd_same, (h2 i).2]; rfl
      · intro j hj
        simp only [State.go, upd_ne _ _ hj]
        exact h2 j
    · omega
  · rw [if_neg hl] at ht; cases ht

/-- unlock_queue. -/
theorem LockOK.unlock {s t : State D} {l c : Int} (h : LockOK s l) (hs : s.sem = some (l, c)) {i : Nat} {m : Mode} (hi : holds (s.mode i) = true) (hm : holds m = false)
    (ht : s.unlock i m = some t) : t.sem = some (1, c) ∧ t.shm = s.shm ∧ t.mode = upd s.mode i m ∧ LockOK t 1 := by
  unfold State.unlock at ht
  rw [hs] at ht
  simp only at ht
  rcases h with ⟨_, h2⟩ | ⟨h1, k, h2, h3, h4⟩
  · rw [(h2 i).1] at hi; cases hi
  · have hk : i = k := by
      by_cases h' : i = k
      · exact h'
      · rw [(h4 i h').1] at hi; cases hi
    subst hk
    rw [if_pos (by rw [h1]; decide)] at ht
    cases ht
    refine ⟨?_, rfl, rfl, Or.inl ⟨rfl, ?_⟩⟩
    · simp only [State.go]; rw [h1]; rfl
    · intro j
      by_cases hj : j = i
      · subst hj; simp [State.go, upd_same, hm, h3]
      · simp only [State.go, upd_ne _ _ hj]; exact h4 j hj

/-- A process ends. -/
theorem LockOK.fin {s : State D} {l c : Int} (h : LockOK s l) (hs : s.sem = some (l, c)) {i : Nat} {m : Mode} (hm : holds m = false) :
    ∃ l', (s.fin i m).sem = some (l', c) ∧ (s.fin i m).shm = s.shm ∧ (s.fin i m).mode = upd s.mode i m ∧ LockOK (s.fin i m) l' := by
  have hall : (∀ j, j ≠ i → holds (s.mode j) = false ∧ s.adj j = 0) → ∀ j, holds ((s.fin i m).mode j) = false ∧ (s.fin i m).adj j = 0 := by
    intro hh j
    by_cases hj : j = i
    · subst hj; simp only [State.fin, State.go, upd_same, hm, and_self]
    · simp only [State.fin, State.go, upd_ne _ _ hj]; exact hh j hj
  rcases h with ⟨h1, h2⟩ | ⟨h1, k, h2, h3, h4⟩
  · refine ⟨1, ?_, rfl, rfl, Or.inl ⟨rfl, hall (fun j _ => h2 j)⟩⟩
    simp only [State.fin, State.go, hs, Option.map_some, (h2 i).2, h1]
    rfl
  · by_cases hk : k = i
    · subst hk
      refine ⟨1, ?_, rfl, rfl, Or.inl ⟨rfl, hall h4⟩⟩
      simp only [State.fin, State.go, hs, Option.map_some, h3, h1]
      rfl
    · refine ⟨0, ?_, rfl, rfl, Or.inr ⟨rfl, k, ?_, ?_, ?_⟩⟩
      · simp only [State.fin, State.go, hs, Option.map_some, (h4 i (fun e => hk e.symm)).2, h1]
        rfl
      · simp only [State.fin, State.go, upd_ne _ _ hk, h2]
      · simp only [State.fin, State.go, upd_ne _ _ hk, h3]
      · intro j hj
        by_cases hji : j = i
        · subst hji; simp only [State.fin, State.go, upd_same, hm, and_self]
        · simp only [State.fin, State.go, upd_ne _ _ hji]; exact h4 j hj

/-- Only the maker of the segment has the lock. -/
theorem LockOK.of_one {s : State D} {i : Nat} (hi : holds (s.mode i) = true) (hm : ∀ j, j ≠ i → beside (s.mode j) = true) (hai : s.adj i = 1) (ha : ∀ j, j ≠ i → s.adj j = 0) : LockOK s 0 :=
  Or.inr ⟨rfl, i, hi, hai, fun j hj => ⟨by have := hm j hj; revert this; cases s.mode j <;> simp [beside, holds], ha j hj⟩⟩

theorem init_inv : Inv bs n zero (init : State D) [] :=
  .none rfl rfl rfl (fun _ => rfl) (fun i j h => by cases h) (fun _ => rfl)

theorem countAfter_snoc (log : List (Op D)) (o : Op D) : countAfter (log ++ [o]) = (match o with | .mem _ => countAfter log | .count x => countAfter log + x) := by
  unfold countAfter
  rw [List.foldl_append]
  cases o <;> rfl

theorem memAfter_snoc (log : List (Op D)) (o : Op D) : memAfter zero (log ++ [o]) = (match o with | .mem f => f (memAfter zero log) | .count _ => memAfter zero log) := by
  unfold memAfter
  rw [List.foldl_append]
  cases o <;> rfl

/-- Connect. -/
theorem adv_inv {s t : State D} {log : List (Op D)} (h : Inv bs n zero s log) {i : Nat} (hs : SafeAct s (.adv i)) (ht : adv bs n zero s i = some t) : Inv bs n zero t log := by
  cases h with
  | none hsem hshm hlog hm h1 ha =>
    have hmi := hm i
    unfold adv at ht
    split at ht <;> rename_i he <;> rw [he] at hmi <;> try (cases hmi)
    · cases ht
      rw [hsem]
      have hno := hs he
      refine .none hsem hshm hlog (upd_all (P := fun m => early m = true) (fun j _ => hm j) rfl) ?_ ha
      intro a b ha' hb'
      simp only [State.go, upd] at ha' hb'
      by_cases hai : a = i
      · by_cases hbi : b = i
        · rw [hai, hbi]
        · rw [if_neg hbi] at hb'; exact absurd (Or.inl hb') (hno b)
      · rw [if_neg hai] at ha'; exact absurd (Or.inl ha') (hno a)
    · cases ht
      refine .made i (upd_same _ _ _) (by simp [State.go, hsem]) hshm hlog ?_ ha
      intro j hj
      simp only [State.go, upd_ne _ _ hj]
      have h2 := hm j
      have h3 := h1 j i
      revert h2 h3
      cases s.mode j <;> simp [early, away, he, hj]
    · cases ht
  | made k hk hsem hshm hlog hm ha =>
    by_cases hik : i = k
    · subst hik
      unfold adv at ht
      rw [hk] at ht
      cases ht
      refine .set i (upd_same _ _ _) (by simp [State.go, hsem]) hshm hlog ?_ (fun _ => rfl)
      intro j hj
      simp only [State.go, upd_ne _ _ hj]
      exact hm j hj
    · have hmi := hm i hik
      unfold adv at ht
      split at ht <;> rename_i he <;> rw [he] at hmi <;> try (cases hmi)
      · exact absurd (Or.inr (Or.inl hk)) (hs he k)
      · cases ht
  | set k hk hsem hshm hlog hm ha =>
    by_cases hik : i = k
    · subst hik
      unfold adv at ht
      rw [hk] at ht
      cases ht
      have hm' : ∀ j, beside (upd s.mode i .c4 j) = true := upd_all (P := fun m => beside m = true) (fun j hj => by have := hm j hj; revert this; cases s.mode j <;> simp [away, beside]) rfl
      refine .noseg 1 (by simp [State.go, hsem]) hshm hlog ?_ (Or.inl ⟨rfl, ?_⟩)
      · intro j; have := hm' j; revert this; simp only [State.go]; cases upd s.mode i .c4 j <;> simp [beside, before]
      · intro j; refine ⟨?_, ha j⟩; have := hm' j; revert this; simp only [State.go]; cases upd s.mode i .c4 j <;> simp [beside, holds]
    · have hmi := hm i hik
      unfold adv at ht
      split at ht <;> rename_i he <;> rw [he] at hmi <;> try (cases hmi)
      · exact absurd (Or.inr (Or.inr hk)) (hs he k)
      · cases ht
  | noseg l hsem hshm hlog hm hl =>
    have hmi := hm i
    unfold adv at ht
    split at ht <;> rename_i he <;> rw [he] at hmi <;> try (cases hmi)
    · cases ht
      rw [hsem]
      exact .noseg l hsem hshm hlog (upd_all (P := fun m => before m = true) (fun j _ => hm j) rfl) (hl.go (by rw [he]; rfl))
    · obtain ⟨t1, t2, t3, t4⟩ := hl.lock hsem rfl ht
      exact .noseg 0 t1 (by rw [t2, hshm]) hlog (by rw [t3]; exact upd_all (P := fun m => before m = true) (fun j _ => hm j) rfl) t4
    · cases ht
      rw [hshm]
      exact .noseg l hsem hshm hlog (upd_all (P := fun m => before m = true) (fun j _ => hm j) rfl) (hl.go (by rw [he]; rfl))
    · cases ht
      rcases hl with ⟨_, h2⟩ | ⟨h1, k, h2, h3, h4⟩
      · have := (h2 i).1; rw [he] at this; cases this
      · have hk : k = i := by
          by_cases h' : i = k
          · exact h'.symm
          · have := (h4 i h').1; rw [he] at this; cases this
        subst hk
        refine .seg k ⟨0, 0, zero⟩ (by simp only [State.go]; rw [hsem, h1]) (by simp [State.go, hshm]) hlog (Or.inl (upd_same _ _ _)) ?_ h3 (fun j hj => (h4 j hj).2)
        intro j hj
        simp only [State.go, upd_ne _ _ hj]
        have h5 := hm j
        have h6 := (h4 j hj).1
        revert h5 h6
        cases s.mode j <;> simp [before, holds, beside]
    · cases ht
  | seg k g hsem hshm hlog hk hm hak ha =>
    by_cases hik : i = k
    · subst hik
      rcases hk with hk | ⟨hk, hz⟩ | ⟨hk, hz, hb⟩ <;> unfold adv at ht <;> rw [hk] at ht <;> cases ht
      · refine .seg i ⟨0, 0, zero⟩ hsem rfl hlog (Or.inr (Or.inl ⟨upd_same _ _ _, rfl⟩)) ?_ hak ha
        intro j hj; simp only [State.go, upd_ne _ _ hj]; exact hm j hj
      · refine .seg i { g with box_size := bs } hsem (by simp [State.go, hshm]) hlog (Or.inr (Or.inr ⟨upd_same _ _ _, hz, rfl⟩)) ?_ hak ha
        intro j hj; simp only [State.go, upd_ne _ _ hj]; exact hm j hj
      · refine .ready 0 { g with size := n } (by rw [hlog]; exact hsem) (by simp [State.go, hshm]) hb rfl (by rw [hlog]; exact hz) ?_ ?_
        · exact upd_all (P := fun m => after m = true) (fun j hj => by have := hm j hj; revert this; cases s.mode j <;> simp [beside, after]) rfl
        · refine LockOK.of_one (i := i) (by simp [State.go, upd_same, holds]) ?_ hak ha
          intro j hj; simp only [State.go, upd_ne _ _ hj]; exact hm j hj
    · have hmi := hm i hik
      have hki : k ≠ i := fun e => hik e.symm
      unfold adv at ht
      split at ht <;> rename_i he <;> rw [he] at hmi <;> try (cases hmi)
      · cases ht
        rw [hsem]
        refine .seg k g hsem hshm hlog (by simp only [State.go, upd_ne _ _ hki]; exact hk) ?_ hak ha
        intro j hj
        simp only [State.go]
        by_cases e : j = i
        · rw [e, upd_same]; rfl
        · rw [upd_ne _ _ e]; exact hm j hj
      · unfold State.lock at ht
        rw [hsem] at ht
        cases ht
      · cases ht
  | ready l g hsem hshm hb hn hd hm hl =>
    have hmi := hm i
    unfold adv at ht
    split at ht <;> rename_i he <;> rw [he] at hmi <;> try (cases hmi)
    · cases ht
      rw [hsem]
      exact .ready l g hsem hshm hb hn hd (upd_all (P := fun m => after m = true) (fun j _ => hm j) rfl) (hl.go (by rw [he]; rfl))
    · obtain ⟨t1, t2, t3, t4⟩ := hl.lock hsem rfl ht
      exact .ready 0 g t1 (by rw [t2, hshm]) hb hn hd (by rw [t3]; exact upd_all (P := fun m => after m = true) (fun j _ => hm j) rfl) t4
    · cases ht
      rw [hshm]
      exact .ready l g hsem hshm hb hn hd (upd_all (P := fun m => after m = true) (fun j _ => hm j) rfl) (hl.go (by rw [he]; rfl))
    · cases ht
      exact .ready l g hsem hshm hb hn hd (upd_all (P := fun m => after m = true) (fun j _ => hm j) rfl) (hl.go (by rw [he]; rfl))
    · rw [hshm] at ht
      simp only at ht
      rw [if_neg (by rw [hb, hn]; simp)] at ht
      cases ht
      exact .ready l g hsem hshm hb hn hd (upd_all (P := fun m => after m = true) (fun j _ => hm j) rfl) (hl.go (by rw [he]; rfl))
    · obtain ⟨t1, t2, t3, t4⟩ := hl.unlock hsem (by rw [he]; rfl) rfl ht
      exact .ready 1 g t1 (by rw [t2, hshm]) hb hn hd (by rw [t3]; exact upd_all (P := fun m => after m = true) (fun j _ => hm j) rfl) t4
    all_goals cases ht

/-- A step of a connected process. -/
theorem connected_ready {s : State D} {log : List (Op D)} (h : Inv bs n zero s log) {i : Nat} (hi : Connected s i) :
    ∃ l g, s.sem = some (l, countAfter log) ∧ s.shm = some g ∧ g.box_size = bs ∧ g.size = n ∧ g.mem = memAfter zero log ∧ (∀ j, after (s.mode j) = true) ∧ LockOK s l := by
  cases h with
  | none hsem hshm hlog hm h1 ha => have := hm i; rcases hi with hi | hi <;> rw [hi] at this <;> cases this
  | made k hk hsem hshm hlog hm ha =>
    by_cases hik : i = k
    · subst hik; rcases hi with hi | hi <;> rw [hi] at hk <;> cases hk
    · have := hm i hik; rcases hi with hi | hi <;> rw [hi] at this <;> cases this
  | set k hk hsem hshm hlog hm ha =>
    by_cases hik : i = k
    · subst hik; rcases hi with hi | hi <;> rw [hi] at hk <;> cases hk
    · have := hm i hik; rcases hi with hi | hi <;> rw [hi] at this <;> cases this
  | noseg l hsem hshm hlog hm hl => have := hm i; rcases hi with hi | hi <;> rw [hi] at this <;> cases this
  | seg k g hsem hshm hlog hk hm hak ha =>
    by_cases hik : i = k
    · subst hik; rcases hi with hi | hi <;> rw [hi] at hk <;> simp at hk
    · have := hm i hik; rcases hi with hi | hi <;> rw [hi] at this <;> cases this
  | ready l g hsem hshm hb hn hd hm hl => exact ⟨l, g, hsem, hshm, hb, hn, hd, hm, hl⟩

theorem kill_inv {s : State D} {log : List (Op D)} (h : Inv bs n zero s log) {i : Nat} (hs : SafeAct s (.kill i)) : Inv bs n zero (s.fin i .dead) log := by
  obtain ⟨n1, n2, n3, n4⟩ := hs
  have hmode : (s.fin i .dead).mode = upd s.mode i .dead := rfl
  have hadj : (∀ j, s.adj j = 0) → ∀ j, (s.fin i .dead).adj j = 0 := fun ha => upd_all (P := fun x => x = 0) (fun j _ => ha j) rfl
  cases h with
  | none hsem hshm hlog hm h1 ha =>
    refine .none (by simp [State.fin, State.go, hsem]) hshm hlog (upd_all (P := fun m => early m = true) (fun j _ => hm j) rfl) ?_ (hadj ha)
    intro a b ha' hb'
    simp only [State.fin, State.go, upd] at ha' hb'
    by_cases hai : a = i
    · rw [if_pos hai] at ha'; cases ha'
    · by_cases hbi : b = i
      · rw [if_pos hbi] at hb'; cases hb'
      · rw [if_neg hai] at ha'; rw [if_neg hbi] at hb'; exact h1 a b ha' hb'
  | made k hk hsem hshm hlog hm ha =>
    by_cases hik : i = k
    · subst hik; exact absurd hk n1
    · have hki : k ≠ i := fun e => hik e.symm
      refine .made k (by rw [hmode, upd_ne _ _ hki]; exact hk) (by simp [State.fin, State.go, hsem, ha i]) hshm hlog ?_ (hadj ha)
      intro j hj
      rw [hmode]
      by_cases e : j = i
      · rw [e, upd_same]; rfl
      · rw [upd_ne _ _ e]; exact hm j hj
  | set k hk hsem hshm hlog hm ha =>
    by_cases hik : i = k
    · subst hik
      have hm' : ∀ j, away (upd s.mode i .dead j) = true := upd_all (P := fun m => away m = true) hm rfl
      refine .noseg 1 (by simp [State.fin, State.go, hsem, ha i]) hshm hlog ?_ (Or.inl ⟨rfl, ?_⟩)
      · intro j; have := hm' j; revert this; rw [hmode]; cases upd s.mode i .dead j <;> simp [away, before]
      · intro j; refine ⟨?_, hadj ha j⟩; have := hm' j; revert this; rw [hmode]; cases upd s.mode i .dead j <;> simp [away, holds]
    · have hki : k ≠ i := fun e => hik e.symm
      refine .set k (by rw [hmode, upd_ne _ _ hki]; exact hk) (by simp [State.fin, State.go, hsem, ha i]) hshm hlog ?_ (hadj ha)
      intro j hj
      rw [hmode]
      by_cases e : j = i
      · rw [e, upd_same]; rfl
      · rw [upd_ne _ _ e]; exact hm j hj
  | noseg l hsem hshm hlog hm hl =>
    obtain ⟨l', t1, t2, t3, t4⟩ := hl.fin hsem (i := i) (m := .dead) rfl
    exact .noseg l' t1 (by rw [t2, hshm]) hlog (by rw [t3]; exact upd_all (P := fun m => before m = true) (fun j _ => hm j) rfl) t4
  | seg k g hsem hshm hlog hk hm hak ha =>
    by_cases hik : i = k
    · subst hik
      rcases hk with hk | ⟨hk, _⟩ | ⟨hk, _, _⟩
      · exact absurd hk n2
      · exact absurd hk n3
      · exact absurd hk n4
    · have hki : k ≠ i := fun e => hik e.symm
      refine .seg k g (by simp [State.fin, State.go, hsem, ha i hik]) hshm hlog (by rw [hmode, upd_ne _ _ hki]; exact hk) ?_ (by simp only [State.fin, State.go, upd_ne _ _ hki]; exact hak) ?_
      · intro j hj
        rw [hmode]
        by_cases e : j = i
        · rw [e, upd_same]; rfl
        · rw [upd_ne _ _ e]; exact hm j hj
      · intro j hj
        simp only [State.fin, State.go]
        by_cases e : j = i
        · rw [e, upd_same]
        · rw [upd_ne _ _ e]; exact ha j hj
  | ready l g hsem hshm hb hn hd hm hl =>
    obtain ⟨l', t1, t2, t3, t4⟩ := hl.fin hsem (i := i) (m := .dead) rfl
    exact .ready l' g t1 (by rw [t2, hshm]) hb hn hd (by rw [t3]; exact upd_all (P := fun m => after m = true) (fun j _ => hm j) rfl) t4

theorem step_inv {s t : State D} {log : List (Op D)} (h : Inv bs n zero s log) {a : Label D} (hs : SafeAct s a) (ht : step bs n zero s a = some t) : Inv bs n zero t (log ++ done [a]) := by
  cases a with
  | adv i => simpa [done] using adv_inv h hs ht
  | enter i =>
    simp only [step] at ht
    split at ht
    · rename_i hi
      obtain ⟨l, g, hsem, hshm, hb, hn, hd, hm, hl⟩ := connected_ready h (Or.inl hi)
      obtain ⟨t1, t2, t3, t4⟩ := hl.lock hsem rfl ht
      simpa [done] using Inv.ready 0 g t1 (by rw [t2, hshm]) hb hn hd (by rw [t3]; exact upd_all (P := fun m => after m = true) (fun j _ => hm j) rfl) t4
    · cases ht
  | body i f =>
    simp only [step] at ht
    split at ht
    · rename_i hi
      cases ht
      obtain ⟨l, g, hsem, hshm, hb, hn, hd, hm, hl⟩ := connected_ready h (Or.inr hi)
      refine .ready l { g with mem := f g.mem } ?_ (by simp [hshm]) hb hn ?_ hm (hl.congr rfl rfl)
      · simp only [done, countAfter_snoc]; exact hsem
      · simp only [done, memAfter_snoc, hd]
    · cases ht
  | leave i =>
    simp only [step] at ht
    split at ht
    · rename_i hi
      obtain ⟨l, g, hsem, hshm, hb, hn, hd, hm, hl⟩ := connected_ready h (Or.inr hi)
      obtain ⟨t1, t2, t3, t4⟩ := hl.unlock hsem (by rw [hi]; rfl) rfl ht
      simpa [done] using Inv.ready 1 g t1 (by rw [t2, hshm]) hb hn hd (by rw [t3]; exact upd_all (P := fun m => after m = true) (fun j _ => hm j) rfl) t4
    · cases ht
  | count i x =>
    simp only [step] at ht
    cases hsm : s.sem with
    | none => rw [hsm] at ht; cases ht
    | some v =>
      obtain ⟨l, c⟩ := v
      rw [hsm] at ht
      simp only at ht
      split at ht
      · rename_i hi
        cases ht
        obtain ⟨l', g, hsem, hshm, hb, hn, hd, hm, hl⟩ := connected_ready h hi.1
        rw [hsm] at hsem
        cases hsem
        refine .ready l g ?_ hshm hb hn ?_ hm (hl.congr rfl rfl)
        · simp only [done, countAfter_snoc]
        · simp only [done, memAfter_snoc, hd]
      · cases ht
  | disconnect i =>
    simp only [step] at ht
    split at ht
    · rename_i hi
      cases ht
      obtain ⟨l, g, hsem, hshm, hb, hn, hd, hm, hl⟩ := connected_ready h (Or.inl hi)
      simp only [done, List.append_nil]
      exact .ready l g hsem hshm hb hn hd (upd_all (P := fun m => after m = true) (fun j _ => hm j) rfl) (hl.go (i := i) (m := .out) (by rw [hi]; rfl))
    · cases ht
  | kill i =>
    simp only [step] at ht
    split at ht
    · cases ht
    · cases ht
      simpa [done] using kill_inv h hs

theorem done_cons (a : Label D) (r : List (Label D)) : done (a :: r) = done [a] ++ done r := by
  cases a <;> simp [done]

theorem exec_inv : ∀ (run : List (Label D)) {s t : State D} {log : List (Op D)}, Inv bs n zero s log → Safe bs n zero s run → exec bs n zero s run = some t → Inv bs n zero t (log ++ done run)
  | [], s, t, log, h, _, ht => by cases ht; simpa [done] using h
  | a :: r, s, t, log, h, hs, ht => by
    simp only [exec] at ht
    cases hx : step bs n zero s a with
    | none => rw [hx] at ht; cases ht
    | some u =>
      rw [hx] at ht
      have := exec_inv r (step_inv h hs.1 hx) (hs.2 u hx) ht
      rw [done_cons a r, ← List.append_assoc]
      exact this

end Verif.QueueMake
