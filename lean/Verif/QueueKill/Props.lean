/-
  C152: messages of a queue whose processes are killed.
-/
import Verif.QueueKill.Lemmas

set_option linter.unusedVariables false

namespace Verif.QueueKill

open ShmQueue (Box Proc Mode boxOf Codec accepted delivered flushed)
open QueueMsg (World)
open QueueMsg.Spec (Way toProc fromProc)
open Spec

variable {M : Type} {size bs K : Nat} {ser : M → List UInt8} {des : List UInt8 → Option M}

/-- What is known of each process gives the history of the messages. -/
theorem ways_of_views (hc : Codec K ser des) (hz : ∀ n, des (List.replicate n 0) = none) (h1 : 1 ≤ size) (h2 : size < 2 ^ 32) (h3 : size * bs < 2 ^ 32)
    (n : Nat) (as : List (Label M)) (w : World M) (hk : harmlessKills size bs K ser des (QueueMsg.init bs n) as)
    (he : exec size bs K ser des (QueueMsg.init bs n) as = some w)
    (hV : ∀ i, (∃ (bl : List (List M)) (rest : List M), flushed i (projs size bs K ser des (QueueMsg.init bs n) as) = bl.map (boxOf bs ser) ∧ (∀ ms ∈ bl, ms.length * K ≤ bs) ∧ w.sent i = bl.flatten ++ rest) ∧
      ∃ P : List (List UInt8 × Nat), ShmQueue.mine i (delivered size bs (ShmQueue.init bs n) (projs size bs K ser des (QueueMsg.init bs n) as)) = P.map Prod.fst ∧ w.got i = QueueMsg.readAll K des P) :
    ∃ h : List (Way M), (∀ j, toProc h j = w.got j) ∧ ∀ i, (fromProc h i).Sublist (w.sent i) := by
  have hring := projs_exec as (QueueMsg.init bs n) w he
  have hsafe := projs_safe as (QueueMsg.init bs n) hk
  have hI0 : (QueueMsg.init (M := M) bs n).q = ShmQueue.init bs n := rfl
  rw [hI0] at hring hsafe
  generalize hls : projs size bs K ser des (QueueMsg.init bs n) as = ls at hring hsafe hV
  have hsub := (ShmQueue.C83_killed_partial h1 h2 h3 hsafe hring).2.2
  have hW : ∀ i, ∃ bl : List (List M), ShmQueue.mine i (accepted size bs (ShmQueue.init bs n) ls) = bl.map (boxOf bs ser) ∧ (∀ ms ∈ bl, ms.length * K ≤ bs) ∧ bl.flatten.Sublist (w.sent i) := by
    intro i
    have hs := ShmQueue.C54_writer_order hring i
    obtain ⟨bl, rest, hF, hf, hsent⟩ := (hV i).1
    rw [hF] at hs
    obtain ⟨bl', hs', he'⟩ := List.sublist_map_iff.mp hs
    refine ⟨bl', he', fun ms hms => hf ms (hs'.subset hms), ?_⟩
    rw [hsent]
    exact (QueueMsg.sub_flatten hs').trans (List.sublist_append_left _ _)
  obtain ⟨fw, hfw⟩ := QueueMsg.choose_fam hW
  obtain ⟨BA, hBA, hBA2⟩ := QueueMsg.join_tags (boxOf bs ser) (accepted size bs (ShmQueue.init bs n) ls) fw (fun i => (hfw i).1)
  obtain ⟨fr, hfr⟩ := QueueMsg.choose_fam (fun j => (hV j).2)
  obtain ⟨BD, hBD, hBD2⟩ := QueueMsg.join_tags Prod.fst (delivered size bs (ShmQueue.init bs n) ls) fr (fun j => (hfr j).1)
  have hsub' : (BD.map (fun y => y.2.1)).Sublist (BA.map (fun x => boxOf bs ser x.2)) := by
    rw [← hBA, ← hBD, List.map_map, List.map_map] at hsub
    exact hsub
  obtain ⟨BA', hBs, hBe⟩ := List.sublist_map_iff.mp hsub'
  have hfit : ∀ x ∈ BA', x.2.length * K ≤ bs := by
    intro x hx
    refine (hfw x.1).2.1 x.2 ?_
    rw [← hBA2 x.1]
    exact List.mem_map_of_mem (List.mem_filter.mpr ⟨hBs.subset hx, by simp⟩)
  refine ⟨QueueMsg.ways BA' BD, ?_, ?_⟩
  · intro j
    rw [QueueMsg.ways_to hc hz j BA' BD (by rw [hBe]; exact List.prefix_refl _) hfit, hBD2 j, (hfr j).2]
  · intro i
    refine (QueueMsg.ways_from i BA' BD).trans ((ownS_sub hBs i).trans ?_)
    unfold QueueMsg.ownS
    rw [hBA2 i]
    exact (hfw i).2.2

/-- **C152_ways_partial**: any number of writers and readers, any schedule, kills anywhere except at the three places of `harmless`: every message that was got, was sent by somebody, nothing is got
twice, and the messages of one sender are got in the order in which they were sent; killed processes are no exception.  Missing: the three places, see the refutations. -/
theorem C152_ways_partial (hc : Codec K ser des) (hz : ∀ n, des (List.replicate n 0) = none) (h1 : 1 ≤ size) (h2 : size < 2 ^ 32) (h3 : size * bs < 2 ^ 32)
    (writes : Nat → Bool) (n : Nat) (as : List (Label M)) (w : World M) (hr : ∀ a ∈ as, inRole writes a = true) (hk : harmlessKills size bs K ser des (QueueMsg.init bs n) as)
    (he : exec size bs K ser des (QueueMsg.init bs n) as = some w) :
    ∃ h : List (Way M), (∀ j, toProc h j = w.got j) ∧ ∀ i, (fromProc h i).Sublist (w.sent i) := by
  refine ways_of_views hc hz h1 h2 h3 n as w hk he (fun i => ?_)
  have hI0 : (QueueMsg.init (M := M) bs n).q = ShmQueue.init bs n := rfl
  cases hwi : writes i with
  | true =>
    obtain ⟨hw, hdel⟩ := wk_exec hc.len hwi as (QueueMsg.init bs n) w [] hr (.inl (QueueMsg.winv_init n i)) he
    rw [List.nil_append] at hw
    rw [hI0] at hdel
    exact ⟨hw.view.2, [], hdel, hw.view.1⟩
  | false =>
    obtain ⟨hw, hfl⟩ := rk_exec hz hwi as (QueueMsg.init bs n) w [] hr (.inl (QueueMsg.rinv_init n i)) he
    rw [hI0, List.nil_append] at hw
    exact ⟨⟨[], w.sent i, hfl, by simp, rfl⟩, hw.view.2⟩

def advs (i k : Nat) : List (Label M) := List.replicate k (.lab (.adv i))

/-- Process 0 sends 5 and 6; process 1 is killed when it has given its box to the ring but not counted it; process 2 is killed when it has received a box and before it has counted it as received;
process 3 gets the rest. -/
def run1 : List (Label (Fin 255)) :=
  [.lab (.put 0 5), .lab (.flush 0)] ++ advs 0 8 ++ [.lab (.put 1 7), .lab (.flush 1)] ++ advs 1 6 ++ [.kill 1, .lab (.put 0 6), .lab (.flush 0)] ++ advs 0 8 ++
  [.lab (.unflush 2)] ++ advs 2 5 ++ [.kill 2, .lab (.unflush 3)] ++ advs 3 10 ++ [.lab (.get 3), .lab (.get 3), .lab (.put 0 9), .lab (.flush 0)] ++ advs 0 8 ++ [.lab (.unflush 3)] ++ advs 3 10 ++ [.lab (.get 3)]

/-- `harmlessKills`, decided. -/
def harmlessB (size bs K : Nat) (ser : M → List UInt8) (des : List UInt8 → Option M) (w : World M) : List (Label M) → Bool
  | [] => true
  | a :: as =>
    (match a with
      | .kill i => ((w.q.procs[i]?.map (ShmQueue.harmless size w.q)).getD true)
      | _ => true) &&
    (match step size bs K ser des w a with
      | some w' => harmlessB size bs K ser des w' as
      | none => true)

theorem harmlessB_ok : ∀ (as : List (Label M)) (w : World M), harmlessB size bs K ser des w as = true → harmlessKills size bs K ser des w as
  | [], _, _ => trivial
  | a :: as, w, h => by
    simp only [harmlessB, Bool.and_eq_true] at h
    refine ⟨?_, ?_⟩
    · intro i ha p hp
      have h1 := h.1
      rw [ha] at h1
      simp only [hp, Option.map_some, Option.getD_some, ShmQueue.harmless] at h1
      refine ⟨fun hm => ?_, fun hm => ?_, fun k hm => ?_⟩
      · rw [hm] at h1; exact of_decide_eq_true h1
      · rw [hm] at h1; exact of_decide_eq_true h1
      · rw [hm] at h1; exact of_decide_eq_true h1
    · intro w' hw
      have h2 := h.2
      rw [hw] at h2
      exact harmlessB_ok as w' h2

example : harmlessKills 4 2 1 ShmQueue.ser1 ShmQueue.des1 (QueueMsg.init 2 4) run1 := harmlessB_ok _ _ (by decide +kernel)
example : ∀ a ∈ run1, inRole (fun i => decide (i < 2)) a = true := by decide +kernel
example : ((exec 4 2 1 ShmQueue.ser1 ShmQueue.des1 (QueueMsg.init 2 4) run1).map (fun w => (w.sent 0, w.sent 1, w.got 2, w.got 3))) = some ([5, 6, 9], [7], [], [5, 7]) := by decide +kernel

/-- Messages of two bytes. -/
def ser2 (m : Fin 65535) : List UInt8 := [UInt8.ofNat ((m.val + 1) / 256), UInt8.ofNat ((m.val + 1) % 256)]
def des2 : List UInt8 → Option (Fin 65535)
  | a :: b :: _ => if h : 1 ≤ a.toNat * 256 + b.toNat then some ⟨a.toNat * 256 + b.toNat - 1, by have := a.toNat_lt; have := b.toNat_lt; omega⟩ else none
  | _ => none

theorem codec2 : Codec 2 ser2 des2 := by
  refine ⟨fun _ => rfl, ?_⟩
  intro m rest
  have hm := m.isLt
  have h1 : (UInt8.ofNat ((m.val + 1) / 256)).toNat = (m.val + 1) / 256 := by
    simp only [UInt8.toNat_ofNat', show (2 : Nat) ^ 8 = 256 from rfl]
    exact Nat.mod_eq_of_lt (by omega)
  have h2 : (UInt8.ofNat ((m.val + 1) % 256)).toNat = (m.val + 1) % 256 := by
    simp only [UInt8.toNat_ofNat', show (2 : Nat) ^ 8 = 256 from rfl]
    exact Nat.mod_eq_of_lt (by omega)
  simp only [ser2, List.cons_append, List.nil_append, des2]
  rw [dif_pos (by omega)]
  congr 1
  apply Fin.ext
  show (UInt8.ofNat ((m.val + 1) / 256)).toNat * 256 + (UInt8.ofNat ((m.val + 1) % 256)).toNat - 1 = m.val
  omega

theorem zeros2 (j : Nat) : des2 (List.replicate j 0) = none := by
  match j with
  | 0 => simp [des2]
  | 1 => simp [des2]
  | j + 2 => simp [List.replicate_succ, des2]

/-- Which process a step is of. -/
def who : Label M → Nat
  | .lab a => a.who
  | .kill i => i

theorem exec_frame (n : Nat) : ∀ (as : List (Label M)) (w w' : World M), as.all (fun a => decide (who a < n)) = true → exec size bs K ser des w as = some w' →
    ∀ j, n ≤ j → w'.sent j = w.sent j
  | [], w, w', _, e, j, _ => by rw [← Option.some.inj e]
  | a :: as, w, w', h, e, j, hj => by
    simp only [List.all_cons, Bool.and_eq_true, decide_eq_true_eq] at h
    simp only [exec] at e
    cases hst : step size bs K ser des w a with
    | none => rw [hst] at e; exact absurd e (by simp)
    | some t =>
      rw [hst] at e
      rw [exec_frame n as t w' h.2 e j hj]
      cases a with
      | lab a => exact (QueueMsg.frame hst (show j ≠ a.who from fun x => by have := h.1; simp only [who] at this; omega)).2.2.1
      | kill i => rw [(kill_some hst).2.2.1]

/-- Process 0 sends 257 and 300; process 1 is killed when it has cleared one byte of the box it received. -/
def run2 : List (Label (Fin 65535)) :=
  [.lab (.put 0 257), .lab (.flush 0)] ++ advs 0 8 ++ [.lab (.put 0 300), .lab (.flush 0)] ++ advs 0 8 ++ [.lab (.unflush 1)] ++ advs 1 6 ++ [.kill 1, .lab (.unflush 2)] ++ advs 2 10 ++ [.lab (.get 2)]

/-- **C152_refuted**: a reader killed inside of the memset: the next reader gets a message that nobody sent. -/
theorem C152_refuted : ∃ w, exec 4 2 2 ser2 des2 (QueueMsg.init 2 3) run2 = some w ∧ (∀ a ∈ run2, inRole (fun i => decide (i < 1)) a = true) ∧
    w.got 2 = [1] ∧ (∀ i, 1 ∉ w.sent i) ∧ ¬ ∃ h : List (Way (Fin 65535)), (∀ j, toProc h j = w.got j) ∧ ∀ i, (fromProc h i).Sublist (w.sent i) := by
  have hs : ∀ w, exec 4 2 2 ser2 des2 (QueueMsg.init 2 3) run2 = some w → (∀ i, i < 3 → 1 ∉ w.sent i) → ∀ i, 1 ∉ w.sent i := by
    intro w hw h3 i
    by_cases hi : i < 3
    · exact h3 i hi
    · rw [exec_frame 3 run2 (QueueMsg.init 2 3) w (by decide +kernel) hw i (by omega)]
      simp [QueueMsg.init]
  have hn := hs _ rfl (by decide +kernel)
  refine ⟨_, rfl, by decide +kernel, by decide +kernel, hn, ?_⟩
  rintro ⟨h, h1, h2⟩
  have hg : (1 : Fin 65535) ∈ toProc h 2 := by rw [h1]; decide +kernel
  obtain ⟨x, hx, hm⟩ := List.mem_map.mp hg
  refine hn x.src ((h2 x.src).subset ?_)
  rw [← hm]
  exact List.mem_map_of_mem (f := fun x : Way (Fin 65535) => x.msg) (List.mem_filter.mpr ⟨(List.mem_filter.mp hx).1, by simp⟩)

/-- **C152_refuted_start**: a reader killed between `info->start++` and `info->start %= info->size` when it has received the last box of the ring: the next reader reads outside of the boxes. -/
theorem C152_refuted_start : ∃ w, exec 2 2 1 ShmQueue.ser1 ShmQueue.des1 (QueueMsg.init 2 3)
      ([.lab (.put 0 5), .lab (.flush 0)] ++ advs 0 8 ++ [.lab (.unflush 1)] ++ advs 1 10 ++ [.lab (.put 0 6), .lab (.flush 0)] ++ advs 0 8 ++ [.lab (.unflush 1)] ++ advs 1 8 ++ [.kill 1] ++
        [.lab (.put 0 7), .lab (.flush 0)] ++ advs 0 8 ++ [.lab (.unflush 2)] ++ advs 2 3) = some w ∧ w.q.ub = true := ⟨_, rfl, by decide +kernel⟩

end Verif.QueueKill
