/-
  The invariant of the pid file.
-/
import Verif.Pidfile.Model

namespace Verif.Pidfile

/-- the process has the file open and holds its lock for certain -/
def Mode.holds : Mode → Option Nat
  | .locked n | .fresh n | .wrote n _ | .bad n => some n
  | _ => none

/-- the process has the file open -/
def Mode.has : Mode → Option Nat
  | .opened n | .locked n | .fresh n | .wrote n _ | .unlocked n _ | .bad n | .bad2 n => some n
  | _ => none

/-- the process has written its number and has not given up -/
def Mode.won : Mode → Option (Nat × Bool)
  | .wrote n f | .unlocked n f | .run n f => some (n, f)
  | _ => none

structure Inv (pid : Nat → Nat) (s : State) : Prop where
  holds : ∀ i n, (s.proc i).holds = some n → (s.file n).lock = some i
  lock : ∀ i n, (s.file n).lock = some i → (s.proc i).has = some n
  fresh : ∀ i n, s.proc i = .fresh n → (s.file n).data = []
  won : ∀ i n f, (s.proc i).won = some (n, f) → s.path = some n ∧ (s.file n).data ≠ []
  full : ∀ i n, (s.proc i).won = some (n, true) → (s.file n).data = text (pid i)
  empty : ∀ n, n < s.next → (s.file n).data = [] → s.path = some n
  one : ∀ i j, (s.proc i).won ≠ none → (s.proc j).won ≠ none → i = j
  path : ∀ n, s.path = some n → n < s.next
  has : ∀ i n, (s.proc i).has = some n → n < s.next
  later : ∀ n, s.next ≤ n → s.file n = ⟨[], none⟩

theorem inv_init (pid : Nat → Nat) : Inv pid init := by
  refine ⟨?_, ?_, ?_, ?_, ?_, ?_, ?_, ?_, ?_, ?_⟩ <;> simp [init, Mode.holds, Mode.has, Mode.won]

variable {pid : Nat → Nat} {s : State}

/-- a step of one process that touches no file: the new mode claims no more than the old one -/
theorem inv_mode (h : Inv pid s) (i : Nat) (m : Mode)
    (h1 : ∀ n, m.holds = some n → (s.file n).lock = some i)
    (h2 : ∀ n, (s.file n).lock = some i → m.has = some n)
    (h3 : ∀ n, m = .fresh n → (s.file n).data = [])
    (h4 : ∀ n f, m.won = some (n, f) → (s.proc i).won = some (n, f))
    (h5 : ∀ n, m.has = some n → n < s.next) : Inv pid (s.upd i m) := by
  have hp : ∀ j, (s.upd i m).proc j = if j = i then m else s.proc j := fun _ => rfl
  have hf : ∀ n, (s.upd i m).file n = s.file n := fun _ => rfl
  have hw : ∀ j x, ((s.upd i m).proc j).won = some x → (s.proc j).won = some x := by
    intro j x hx
    rw [hp] at hx
    split at hx
    · rename_i e; subst e; exact h4 x.1 x.2 hx
    · exact hx
  refine ⟨?_, ?_, ?_, ?_, ?_, ?_, ?_, ?_, ?_, ?_⟩
  · intro j n hj
    rw [hp] at hj; rw [hf]
    split at hj
    · rename_i e; subst e; exact h1 n hj
    · exact h.holds j n hj
  · intro j n hj
    rw [hf] at hj; rw [hp]
    split
    · rename_i e; subst e; exact h2 n hj
    · exact h.lock j n hj
  · intro j n hj
    rw [hp] at hj; rw [hf]
    split at hj
    · exact h3 n hj
    · exact h.fresh j n hj
  · intro j n f hj
    exact h.won j n f (hw j _ hj)
  · intro j n hj
    exact h.full j n (hw j _ hj)
  · exact h.empty
  · intro j k hj hk
    obtain ⟨x, hx⟩ := Option.ne_none_iff_exists'.mp hj
    obtain ⟨y, hy⟩ := Option.ne_none_iff_exists'.mp hk
    exact h.one j k (by rw [hw j x hx]; simp) (by rw [hw k y hy]; simp)
  · exact h.path
  · intro j n hj
    rw [hp] at hj
    split at hj
    · exact h5 n hj
    · exact h.has j n hj
  · exact h.later

theorem release_data (s : State) (i n k : Nat) : ((s.release i n).file k).data = (s.file k).data := by
  unfold State.release
  split
  · show (if k = n then _ else _ : File).data = _
    split
    · rename_i e; subst e; rfl
    · rfl
  · rfl

theorem release_lock (s : State) (i n k : Nat) : ((s.release i n).file k).lock =
    if k = n ∧ (s.file n).lock = some i then none else (s.file k).lock := by
  unfold State.release
  by_cases hl : (s.file n).lock = some i
  · rw [if_pos hl]
    show (if k = n then _ else _ : File).lock = _
    by_cases hk : k = n
    · simp [hk, hl]
    · simp [hk]
  · rw [if_neg hl, if_neg (fun e => hl e.2)]

theorem release_proc (s : State) (i n : Nat) : (s.release i n).proc = s.proc := by
  unfold State.release; split <;> rfl
theorem release_path (s : State) (i n : Nat) : (s.release i n).path = s.path := by
  unfold State.release; split <;> rfl
theorem release_next (s : State) (i n : Nat) : (s.release i n).next = s.next := by
  unfold State.release; split <;> rfl

/-- process `i` releases its lock and goes on -/
theorem inv_release (h : Inv pid s) (i n : Nat) (m : Mode) (hi : (s.proc i).has = some n)
    (h1 : m.holds = none) (h2 : ∀ k, m ≠ .fresh k)
    (h4 : ∀ k f, m.won = some (k, f) → (s.proc i).won = some (k, f))
    (h5 : ∀ k, m.has = some k → k = n) : Inv pid ((s.release i n).upd i m) := by
  have hp : ∀ j, ((s.release i n).upd i m).proc j = if j = i then m else s.proc j := by
    intro j
    show (if j = i then m else (s.release i n).proc j) = _
    rw [release_proc]
  have hd : ∀ k, (((s.release i n).upd i m).file k).data = (s.file k).data := fun k => release_data s i n k
  have hl : ∀ k, (((s.release i n).upd i m).file k).lock = if k = n ∧ (s.file n).lock = some i then none else (s.file k).lock :=
    fun k => release_lock s i n k
  have hpath : ((s.release i n).upd i m).path = s.path := release_path s i n
  have hnext : ((s.release i n).upd i m).next = s.next := release_next s i n
  have hw : ∀ j x, (((s.release i n).upd i m).proc j).won = some x → (s.proc j).won = some x := by
    intro j x hx
    rw [hp] at hx
    split at hx
    · rename_i e; subst e; exact h4 x.1 x.2 hx
    · exact hx
  refine ⟨?_, ?_, ?_, ?_, ?_, ?_, ?_, ?_, ?_, ?_⟩
  · intro j k hj
    rw [hp] at hj; rw [hl]
    split at hj
    · rw [h1] at hj; exact absurd hj (by simp)
    · rename_i e
      have := h.holds j k hj
      rw [if_neg]
      · exact this
      · intro ⟨e1, e2⟩
        subst e1
        rw [this] at e2
        injection e2 with e2
        exact e e2
  · intro j k hj
    rw [hl] at hj; rw [hp]
    split at hj
    · exact absurd hj (by simp)
    · rename_i hno
      have := h.lock j k hj
      split
      · rename_i e
        subst e
        rw [hi] at this
        injection this with this
        subst this
        exact absurd ⟨rfl, hj⟩ hno
      · exact this
  · intro j k hj
    rw [hp] at hj; rw [hd]
    split at hj
    · exact absurd hj (h2 k)
    · exact h.fresh j k hj
  · intro j k f hj
    rw [hd, hpath]
    exact h.won j k f (hw j _ hj)
  · intro j k hj
    rw [hd]
    exact h.full j k (hw j _ hj)
  · intro k hk he
    rw [hd] at he
    rw [hpath]
    exact h.empty k (by rw [← hnext]; exact hk) he
  · intro j k hj hk
    obtain ⟨x, hx⟩ := Option.ne_none_iff_exists'.mp hj
    obtain ⟨y, hy⟩ := Option.ne_none_iff_exists'.mp hk
    exact h.one j k (by rw [hw j x hx]; simp) (by rw [hw k y hy]; simp)
  · intro k hk
    rw [hpath] at hk; rw [hnext]
    exact h.path k hk
  · intro j k hj
    rw [hp] at hj; rw [hnext]
    split at hj
    · rw [h5 k hj]; exact h.has i n hi
    · exact h.has j k hj
  · intro k hk
    rw [hnext] at hk
    have := h.later k hk
    have e1 := hd k
    have e2 := hl k
    rw [this] at e1 e2
    have e3 : ¬ (k = n ∧ (s.file n).lock = some i) := by
      intro ⟨e, _⟩
      have := h.has i n hi
      omega
    rw [if_neg e3] at e2
    cases hx : ((s.release i n).upd i m).file k with
    | mk d l =>
      rw [hx] at e1 e2
      simp only at e1 e2
      rw [e1, e2]

theorem inv_open (h : Inv pid s) (i : Nat) (hi : s.proc i = .called) : Inv pid (open_ s i) := by
  unfold open_
  have hl : ∀ n, (s.file n).lock ≠ some i := by
    intro n hn
    have := h.lock i n hn
    rw [hi] at this
    exact absurd this (by simp [Mode.has])
  cases hq : s.path with
  | some n =>
    refine inv_mode h i _ ?_ ?_ ?_ ?_ ?_
    · intro k hk; exact absurd hk (by simp [Mode.holds])
    · intro k hk; exact absurd hk (hl k)
    · intro k hk; exact absurd hk (by simp)
    · intro k f hk; exact absurd hk (by simp [Mode.won])
    · intro k hk
      simp only [Mode.has, Option.some.injEq] at hk
      subst hk
      exact h.path _ hq
  | none =>
    have nowon : ∀ j, (s.proc j).won = none := by
      intro j
      cases hw : (s.proc j).won with
      | none => rfl
      | some x =>
        have := (h.won j x.1 x.2 hw).1
        rw [hq] at this
        exact absurd this (by simp)
    have hfile : ∀ k, ({ s with path := some s.next, next := s.next + 1, file := fun k => if k = s.next then ⟨[], none⟩ else s.file k } : State).file k
        = s.file k := by
      intro k
      show (if k = s.next then _ else _) = _
      split
      · rename_i e; rw [e, h.later s.next (Nat.le_refl _)]
      · rfl
    have h' : Inv pid { s with path := some s.next, next := s.next + 1, file := fun k => if k = s.next then ⟨[], none⟩ else s.file k } := by
      refine ⟨?_, ?_, ?_, ?_, ?_, ?_, ?_, ?_, ?_, ?_⟩
      · intro j n hj; rw [hfile]; exact h.holds j n hj
      · intro j n hj; rw [hfile] at hj; exact h.lock j n hj
      · intro j n hj; rw [hfile]; exact h.fresh j n hj
      · intro j n f hj; exact absurd hj (by rw [nowon j]; simp)
      · intro j n hj; exact absurd hj (by rw [nowon j]; simp)
      · intro n hn he
        rw [hfile] at he
        show some s.next = some n
        by_cases e : n = s.next
        · rw [e]
        · have h2 : n < s.next := by
            have : n < s.next + 1 := hn
            omega
          have := h.empty n h2 he
          rw [hq] at this
          exact absurd this (by simp)
      · intro j k hj; exact absurd (nowon j) hj
      · intro n hn
        have : some s.next = some n := hn
        injection this with this
        show n < s.next + 1
        omega
      · intro j n hj
        have := h.has j n hj
        show n < s.next + 1
        omega
      · intro n hn
        rw [hfile]
        have : s.next + 1 ≤ n := hn
        exact h.later n (by omega)
    refine inv_mode h' i _ ?_ ?_ ?_ ?_ ?_
    · intro k hk; exact absurd hk (by simp [Mode.holds])
    · intro k hk; rw [hfile] at hk; exact absurd hk (hl k)
    · intro k hk; exact absurd hk (by simp)
    · intro k f hk; exact absurd hk (by simp [Mode.won])
    · intro k hk
      simp only [Mode.has, Option.some.injEq] at hk
      subst hk
      show s.next < s.next + 1
      omega

theorem inv_flock (h : Inv pid s) (i n : Nat) (hi : s.proc i = .opened n) : Inv pid (flock s i n) := by
  have hin : n < s.next := h.has i n (by rw [hi]; rfl)
  have hown : ∀ k, (s.file k).lock = some i → k = n := by
    intro k hk
    have := h.lock i k hk
    rw [hi] at this
    simp only [Mode.has, Option.some.injEq] at this
    exact this.symm
  unfold flock
  cases hq : (s.file n).lock with
  | some j =>
    refine inv_mode h i _ ?_ ?_ ?_ ?_ ?_
    · intro k hk; exact absurd hk (by simp [Mode.holds])
    · intro k hk; rw [hown k hk]; rfl
    · intro k hk; exact absurd hk (by simp)
    · intro k f hk; exact absurd hk (by simp [Mode.won])
    · intro k hk
      simp only [Mode.has, Option.some.injEq] at hk
      subst hk; exact hin
  | none =>
    have hp : ∀ j, ((s.setFile n { s.file n with lock := some i }).upd i (.locked n)).proc j = if j = i then .locked n else s.proc j := fun _ => rfl
    have hf : ∀ k, ((s.setFile n { s.file n with lock := some i }).upd i (.locked n)).file k =
      if k = n then { s.file n with lock := some i } else s.file k := fun _ => rfl
    have hd : ∀ k, (((s.setFile n { s.file n with lock := some i }).upd i (.locked n)).file k).data = (s.file k).data := by
      intro k
      rw [hf]
      split
      · rename_i e; rw [e]
      · rfl
    have hw : ∀ j x, (((s.setFile n { s.file n with lock := some i }).upd i (.locked n)).proc j).won = some x → (s.proc j).won = some x := by
      intro j x hx
      rw [hp] at hx
      split at hx
      · exact absurd hx (by simp [Mode.won])
      · exact hx
    refine ⟨?_, ?_, ?_, ?_, ?_, ?_, ?_, ?_, ?_, ?_⟩
    · intro j k hj
      rw [hp] at hj; rw [hf]
      split at hj
      · rename_i e
        simp only [Mode.holds, Option.some.injEq] at hj
        rw [if_pos hj.symm, e]
      · have := h.holds j k hj
        split
        · rename_i e; rw [e, hq] at this; exact absurd this (by simp)
        · exact this
    · intro j k hj
      rw [hf] at hj; rw [hp]
      split at hj
      · rename_i e
        simp only [Option.some.injEq] at hj
        rw [if_pos hj.symm, e]; rfl
      · rename_i e
        have := h.lock j k hj
        split
        · rename_i e2; subst e2; exact absurd (hown k hj) e
        · exact this
    · intro j k hj
      rw [hp] at hj; rw [hd]
      split at hj
      · exact absurd hj (by simp)
      · exact h.fresh j k hj
    · intro j k f hj; rw [hd]; exact h.won j k f (hw j _ hj)
    · intro j k hj; rw [hd]; exact h.full j k (hw j _ hj)
    · intro k hk he; rw [hd] at he; exact h.empty k hk he
    · intro j k hj hk
      obtain ⟨x, hx⟩ := Option.ne_none_iff_exists'.mp hj
      obtain ⟨y, hy⟩ := Option.ne_none_iff_exists'.mp hk
      exact h.one j k (by rw [hw j x hx]; simp) (by rw [hw k y hy]; simp)
    · exact h.path
    · intro j k hj
      rw [hp] at hj
      split at hj
      · simp only [Mode.has, Option.some.injEq] at hj; subst hj; exact hin
      · exact h.has j k hj
    · intro k hk
      have hk' : s.next ≤ k := hk
      rw [hf, if_neg (by omega)]
      exact h.later k hk'

theorem inv_write (h : Inv pid s) (i n : Nat) (b : List UInt8) (full : Bool) (hi : s.proc i = .fresh n) (hb : b ≠ [])
    (hfull : full = true → b = text (pid i)) : Inv pid (write s i n b full) := by
  have hin : n < s.next := h.has i n (by rw [hi]; rfl)
  have hlock : (s.file n).lock = some i := h.holds i n (by rw [hi]; rfl)
  have hempty : (s.file n).data = [] := h.fresh i n hi
  have hpath : s.path = some n := h.empty n hin hempty
  have nowon : ∀ j, (s.proc j).won = none := by
    intro j
    cases hw : (s.proc j).won with
    | none => rfl
    | some x =>
      obtain ⟨h1, h2⟩ := h.won j x.1 x.2 hw
      rw [hpath] at h1
      injection h1 with h1
      rw [← h1] at h2
      exact absurd hempty h2
  have hp : ∀ j, (write s i n b full).proc j = if j = i then .wrote n full else s.proc j := fun _ => rfl
  have hf : ∀ k, (write s i n b full).file k = if k = n then ⟨b, some i⟩ else s.file k := by
    intro k
    show (if k = n then ({ s.file n with data := b ++ (s.file n).data.drop b.length } : File) else s.file k) = _
    by_cases e : k = n
    · rw [if_pos e, if_pos e, hempty, ← hlock]; simp
    · rw [if_neg e, if_neg e]
  have hwon : ∀ j x, ((write s i n b full).proc j).won = some x → j = i ∧ x = (n, full) := by
    intro j x hx
    rw [hp] at hx
    split at hx
    · rename_i e
      simp only [Mode.won, Option.some.injEq] at hx
      exact ⟨e, hx.symm⟩
    · rw [nowon j] at hx; exact absurd hx (by simp)
  refine ⟨?_, ?_, ?_, ?_, ?_, ?_, ?_, ?_, ?_, ?_⟩
  · intro j k hj
    rw [hp] at hj; rw [hf]
    split at hj
    · rename_i e
      simp only [Mode.holds, Option.some.injEq] at hj
      rw [if_pos hj.symm, e]
    · have := h.holds j k hj
      split
      · rename_i e; rw [e, hlock] at this; exact this
      · exact this
  · intro j k hj
    rw [hf] at hj; rw [hp]
    split at hj
    · rename_i e
      simp only [Option.some.injEq] at hj
      rw [if_pos hj.symm, e]; rfl
    · rename_i e
      have := h.lock j k hj
      split
      · rename_i e2
        subst e2
        rw [hi] at this
        simp only [Mode.has, Option.some.injEq] at this
        exact absurd this.symm e
      · exact this
  · intro j k hj
    rw [hp] at hj; rw [hf]
    split at hj
    · exact absurd hj (by simp)
    · rename_i e
      split
      · rename_i e2
        subst e2
        have := h.holds j k (by rw [hj]; rfl)
        rw [hlock] at this
        injection this with this
        exact absurd this.symm e
      · exact h.fresh j k hj
  · intro j k f hj
    obtain ⟨_, e2⟩ := hwon j _ hj
    injection e2 with e2 _
    subst e2
    rw [hf, if_pos rfl]
    exact ⟨hpath, hb⟩
  · intro j k hj
    obtain ⟨e1, e2⟩ := hwon j _ hj
    injection e2 with e2 e3
    subst e1 e2
    rw [hf, if_pos rfl]
    exact hfull e3.symm
  · intro k hk he
    rw [hf] at he
    split at he
    · exact absurd he hb
    · exact h.empty k hk he
  · intro j k hj hk
    obtain ⟨x, hx⟩ := Option.ne_none_iff_exists'.mp hj
    obtain ⟨y, hy⟩ := Option.ne_none_iff_exists'.mp hk
    rw [(hwon j x hx).1, (hwon k y hy).1]
  · exact h.path
  · intro j k hj
    rw [hp] at hj
    split at hj
    · simp only [Mode.has, Option.some.injEq] at hj; subst hj; exact hin
    · exact h.has j k hj
  · intro k hk
    have hk' : s.next ≤ k := hk
    rw [hf, if_neg (by omega)]
    exact h.later k hk'

/-- a process that has no file open holds no lock -/
theorem no_lock (h : Inv pid s) {i : Nat} (hi : (s.proc i).has = none) (n : Nat) : (s.file n).lock ≠ some i := by
  intro hn
  have := h.lock i n hn
  rw [hi] at this
  exact absurd this (by simp)

/-- leaving for a mode that claims nothing -/
theorem inv_quiet (h : Inv pid s) (i : Nat) (m : Mode) (hi : (s.proc i).has = none) (h1 : m.holds = none) (h2 : m.has = none)
    (h3 : ∀ n, m ≠ .fresh n) (h4 : m.won = none) : Inv pid (s.upd i m) :=
  inv_mode h i m (fun n hn => absurd hn (by rw [h1]; simp)) (fun n hn => absurd hn (no_lock h hi n)) (fun n hn => absurd hn (h3 n))
    (fun n f hn => absurd hn (by rw [h4]; simp)) (fun n hn => absurd hn (by rw [h2]; simp))

/-- staying with the same open file -/
theorem inv_same (h : Inv pid s) (i n : Nat) (m : Mode) (hi : (s.proc i).has = some n) (h1 : m.has = some n)
    (h2 : ∀ k, m.holds = some k → (s.proc i).holds = some k) (h3 : ∀ k, m = .fresh k → (s.file k).data = []) (h4 : m.won = none) :
    Inv pid (s.upd i m) :=
  inv_mode h i m (fun k hk => h.holds i k (h2 k hk))
    (fun k hk => by have := h.lock i k hk; rw [hi] at this; rw [h1]; exact this)
    h3 (fun k f hk => absurd hk (by rw [h4]; simp)) (fun k hk => by rw [h1] at hk; injection hk with hk; subst hk; exact h.has i n hi)

theorem text_ne (p : Nat) : text p ≠ [] := by simp [text]

theorem inv_go (h : Inv pid s) (i : Nat) (t : State) (he : go pid s i = some t) : Inv pid t := by
  unfold go at he
  split at he <;> try (simp at he; done)
  all_goals (rename_i hi; injection he with he; subst he)
  · exact inv_open h i hi
  · exact inv_flock h i _ hi
  · unfold fstat
    split
    · exact inv_same h i _ _ (by rw [hi]; rfl) rfl (by intro k hk; rw [hi]; exact hk) (by intro k hk; exact absurd hk (by simp)) rfl
    · rename_i hlen
      refine inv_same h i _ _ (by rw [hi]; rfl) rfl (by intro k hk; rw [hi]; exact hk) ?_ rfl
      intro k hk
      injection hk with hk
      subst hk
      exact List.eq_nil_of_length_eq_zero (by omega)
  · exact inv_write h i _ _ _ hi (text_ne _) (fun _ => rfl)
  · refine inv_release h i _ _ (by rw [hi]; rfl) rfl (by simp) ?_ ?_
    · intro k f hk; rw [hi]; exact hk
    · intro k hk; simp only [Mode.has, Option.some.injEq] at hk; exact hk.symm
  · refine inv_release h i _ _ (by rw [hi]; rfl) rfl (by simp) ?_ ?_
    · intro k f hk; rw [hi]; exact hk
    · intro k hk; exact absurd hk (by simp [Mode.has])
  · refine inv_release h i _ _ (by rw [hi]; rfl) rfl (by simp) ?_ ?_
    · intro k f hk; exact absurd hk (by simp [Mode.won])
    · intro k hk; simp only [Mode.has, Option.some.injEq] at hk; exact hk.symm
  · refine inv_release h i _ _ (by rw [hi]; rfl) rfl (by simp) ?_ ?_
    · intro k f hk; exact absurd hk (by simp [Mode.won])
    · intro k hk; exact absurd hk (by simp [Mode.has])

theorem inv_err (h : Inv pid s) (i : Nat) (t : State) (he : err s i = some t) : Inv pid t := by
  unfold err at he
  split at he <;> try (simp at he; done)
  all_goals (rename_i hi; injection he with he; subst he)
  · exact inv_quiet h i _ (by rw [hi]; rfl) rfl rfl (by simp) rfl
  · exact inv_same h i _ _ (by rw [hi]; rfl) rfl (by intro k hk; exact absurd hk (by simp [Mode.holds])) (by simp) rfl
  · exact inv_same h i _ _ (by rw [hi]; rfl) rfl (by intro k hk; rw [hi]; exact hk) (by simp) rfl
  · exact inv_same h i _ _ (by rw [hi]; rfl) rfl (by intro k hk; rw [hi]; exact hk) (by simp) rfl
  · exact inv_same h i _ _ (by rw [hi]; rfl) rfl (by intro k hk; exact absurd hk (by simp [Mode.holds])) (by simp) rfl
  · refine inv_release h i _ _ (by rw [hi]; rfl) rfl (by simp) ?_ ?_
    · intro k f hk; exact absurd hk (by simp [Mode.won])
    · intro k hk; exact absurd hk (by simp [Mode.has])
  · exact inv_same h i _ _ (by rw [hi]; rfl) rfl (by intro k hk; exact absurd hk (by simp [Mode.holds])) (by simp) rfl
  · refine inv_release h i _ _ (by rw [hi]; rfl) rfl (by simp) ?_ ?_
    · intro k f hk; exact absurd hk (by simp [Mode.won])
    · intro k hk; exact absurd hk (by simp [Mode.has])

theorem inv_kill (h : Inv pid s) (i : Nat) : Inv pid (kill s i) := by
  have rel : ∀ n, (s.proc i).has = some n → Inv pid ((s.release i n).upd i .dead) := fun n hn =>
    inv_release h i n .dead hn rfl (by simp) (by intro k f hk; exact absurd hk (by simp [Mode.won]))
      (by intro k hk; exact absurd hk (by simp [Mode.has]))
  unfold kill
  split
  case h_8 h1 h2 h3 h4 h5 h6 h7 =>
    refine inv_quiet h i _ ?_ rfl rfl (by simp) rfl
    cases hm : s.proc i <;> first | rfl | skip
    · exact absurd hm (h1 _)
    · exact absurd hm (h2 _)
    · exact absurd hm (h3 _)
    · exact absurd hm (h4 _ _)
    · exact absurd hm (h5 _ _)
    · exact absurd hm (h6 _)
    · exact absurd hm (h7 _)
  all_goals (rename_i hi; exact rel _ (by rw [hi]; rfl))

/-- a process that succeeded removes the path -/
theorem inv_unlink (h : Inv pid s) (i n : Nat) (f : Bool) (hi : s.proc i = .run n f) : Inv pid ({ s with path := none }.upd i .idle) := by
  have hwi : (s.proc i).won = some (n, f) := by rw [hi]; rfl
  obtain ⟨hpath, hdata⟩ := h.won i n f hwi
  have others : ∀ j, j ≠ i → (s.proc j).won = none := by
    intro j hj
    cases hw : (s.proc j).won with
    | none => rfl
    | some x => exact absurd (h.one j i (by rw [hw]; simp) (by rw [hwi]; simp)) hj
  have hp : ∀ j, ({ s with path := none }.upd i .idle).proc j = if j = i then .idle else s.proc j := fun _ => rfl
  have nowon : ∀ j, (({ s with path := none }.upd i .idle).proc j).won = none := by
    intro j
    rw [hp]
    split
    · rfl
    · rename_i e; exact others j e
  refine ⟨?_, ?_, ?_, ?_, ?_, ?_, ?_, ?_, ?_, ?_⟩
  · intro j k hj
    rw [hp] at hj
    split at hj
    · exact absurd hj (by simp [Mode.holds])
    · exact h.holds j k hj
  · intro j k hj
    rw [hp]
    split
    · rename_i e; subst e; exact absurd hj (no_lock h (by rw [hi]; rfl) k)
    · exact h.lock j k hj
  · intro j k hj
    rw [hp] at hj
    split at hj
    · exact absurd hj (by simp)
    · exact h.fresh j k hj
  · intro j k f hj; rw [nowon j] at hj; exact absurd hj (by simp)
  · intro j k hj; rw [nowon j] at hj; exact absurd hj (by simp)
  · intro k hk he
    have := h.empty k hk he
    rw [hpath] at this
    injection this with this
    subst this
    exact absurd he hdata
  · intro j k hj; exact absurd (nowon j) hj
  · intro k hk; exact absurd hk (by simp [State.upd])
  · intro j k hj
    rw [hp] at hj
    split at hj
    · exact absurd hj (by simp [Mode.has])
    · exact h.has j k hj
  · exact h.later

theorem inv_step (h : Inv pid s) (l : Label) (t : State) (he : step true pid s l = some t) : Inv pid t := by
  cases l with
  | call i =>
    simp only [step] at he
    split at he <;> try (simp at he; done)
    all_goals (rename_i hi; injection he with he; subst he; exact inv_quiet h i _ (by rw [hi]; rfl) rfl rfl (by simp) rfl)
  | go i => exact inv_go h i t he
  | short i k =>
    simp only [step] at he
    split at he <;> try (simp at he; done)
    rename_i n hi
    split at he
    · rename_i hk
      injection he with he; subst he
      refine inv_write h i n _ _ hi ?_ (by intro e; exact absurd e (by simp))
      intro e
      have := congrArg List.length e
      rw [List.length_take] at this
      simp only [List.length_nil] at this
      omega
    · exact absurd he (by simp)
  | err i => exact inv_err h i t he
  | kill i =>
    simp only [step, Option.some.injEq] at he
    subst he
    exact inv_kill h i
  | stop i =>
    simp only [step, if_true] at he
    split at he <;> try (simp at he; done)
    rename_i n f hi
    injection he with he; subst he
    exact inv_unlink h i n f hi
  | stopErr i =>
    simp only [step, if_true] at he
    split at he <;> try (simp at he; done)
    rename_i n f hi
    injection he with he; subst he
    exact inv_quiet h i _ (by rw [hi]; rfl) rfl rfl (by simp) rfl

theorem inv_exec (ls : List Label) : ∀ (s t : State), Inv pid s → exec true pid s ls = some t → Inv pid t := by
  induction ls with
  | nil => intro s t h he; simp only [exec, Option.some.injEq] at he; subst he; exact h
  | cons l ls ih =>
    intro s t h he
    unfold exec at he
    split at he
    · rename_i u hu; exact ih u t (inv_step h l u hu) he
    · exact absurd he (by simp)

end Verif.Pidfile
