import Verif.Keys.Lemmas
import Verif.QueueApi.Lemmas
import Verif.MapApi.Sim
import Mathlib.Data.Fintype.Pigeonhole

namespace Verif.Keys

open Spec

/-! ### C147: different key files mean different queues and maps -/

theorem ftok_val (st : Stat) : ftok st 1 = 2 ^ 24 + (2 ^ 16 * (st.dev % 2 ^ 8) + st.ino % 2 ^ 16) := by
  have h1 : st.ino &&& 0xffff = st.ino % 2 ^ 16 := Nat.and_two_pow_sub_one_eq_mod st.ino 16
  have h2 : st.dev &&& 0xff = st.dev % 2 ^ 8 := Nat.and_two_pow_sub_one_eq_mod st.dev 8
  have h3 : st.ino % 2 ^ 16 < 2 ^ 16 := Nat.mod_lt _ (by decide)
  have h4 : st.dev % 2 ^ 8 < 2 ^ 8 := Nat.mod_lt _ (by decide)
  have e1 : (st.ino % 2 ^ 16) ||| ((st.dev % 2 ^ 8) <<< 16) = 2 ^ 16 * (st.dev % 2 ^ 8) + st.ino % 2 ^ 16 := by
    rw [Nat.or_comm, Nat.shiftLeft_eq, Nat.mul_comm, ← Nat.two_pow_add_eq_or_of_lt h3]
  have e2 : (2 ^ 16 * (st.dev % 2 ^ 8) + st.ino % 2 ^ 16) ||| ((1 &&& 0xff) <<< 24) = 2 ^ 24 * 1 + (2 ^ 16 * (st.dev % 2 ^ 8) + st.ino % 2 ^ 16) := by
    rw [Nat.or_comm, show ((1 &&& 0xff) <<< 24 : Nat) = 2 ^ 24 * 1 from rfl, ← Nat.two_pow_add_eq_or_of_lt (by omega)]
  unfold ftok
  rw [h1, h2, e1, e2]
  omega

/-- **C147_keys**: the keys of two files are the same exactly if the numbers of the files agree in their low 16 bits and those of their devices in their low 8 bits. -/
theorem C147_keys (a b : Stat) : ftok a 1 = ftok b 1 ↔ a.ino % 65536 = b.ino % 65536 ∧ a.dev % 256 = b.dev % 256 := by
  rw [ftok_val, ftok_val]
  omega

/-- **C147_queues_partial**: if no file of the first group of handles clashes with a file of the others, what the others do makes no difference to the first group: its calls get the replies that they get if
it is alone. -/
theorem C147_queues_partial (fs : FS) (inA : Nat → Bool) (ops : List QueueApi.Op) (w : QueueApi.World) (rs : List QueueApi.Reply)
    (hk : ∀ op ∈ ops, ∀ op' ∈ ops, ∀ f f' st st', file op = some f → file op' = some f' → inA (handle op) = true → inA (handle op') = false → fs f = some st → fs f' = some st' → ¬ Clash st st')
    (h : queues fs ops = .ok (w, rs)) :
    ∃ w', queues fs (ops.filter (fun op => inA (handle op))) = .ok (w', repliesOf (fun op => inA (handle op)) ops rs) := by
  let keyA : Nat → Bool := fun k => ops.any (fun op => inA (handle op) && (ekey (queueCall fs op) == some k))
  have hh : ∀ op, handle (queueCall fs op) = handle op := fun op => by cases op <;> rfl
  have hek : ∀ op k, ekey (queueCall fs op) = some k → ∃ f st, file op = some f ∧ fs f = some st ∧ k = ftok st 1 := by
    intro op k e
    cases op with
    | connect i f bs max env =>
      simp only [queueCall, ekey] at e
      split at e
      · rename_i hf
        cases hs : fs f with
        | none => simp [hs] at hf
        | some st =>
          refine ⟨f, st, rfl, hs, ?_⟩
          rw [← Option.some.inj e, keyOf, hs]
      · exact absurd e (by simp)
    | _ => simp [queueCall, ekey] at e
  have hall : ∀ op ∈ ops.map (queueCall fs), ∀ k, ekey op = some k → keyA k = inA (handle op) := by
    intro op hm k e
    obtain ⟨o, ho, rfl⟩ := List.mem_map.mp hm
    rw [hh]
    cases hi : inA (handle o) with
    | true => exact List.any_eq_true.mpr ⟨o, ho, by simp [hi, e]⟩
    | false =>
      refine Bool.eq_false_iff.mpr (fun hA => ?_)
      obtain ⟨o', ho', h'⟩ := List.any_eq_true.mp hA
      simp only [Bool.and_eq_true, beq_iff_eq] at h'
      obtain ⟨f, st, a1, a2, a3⟩ := hek o k e
      obtain ⟨f', st', b1, b2, b3⟩ := hek o' k h'.2
      exact hk o' ho' o ho f' f st' st b1 a1 h'.1 hi b2 a2 ((C147_keys st' st).mp (b3.symm.trans a3))
  have hr := Q.run_in (inA := inA) (keyA := keyA) _ _ w rs Q.own_init hall h
  rw [Q.cut_init] at hr
  refine ⟨Q.cut inA keyA w, ?_⟩
  · unfold queues
    have e1 : (ops.map (queueCall fs)).filter (fun op => inA (handle op)) = (ops.filter (fun op => inA (handle op))).map (queueCall fs) := by
      rw [List.filter_map]
      congr 1
      exact List.filter_congr (fun op _ => by simp [hh])
    have e2 : ∀ (as : List QueueApi.Op) (rs : List QueueApi.Reply), repliesOf (fun op => inA (handle op)) (as.map (queueCall fs)) rs = repliesOf (fun op => inA (handle op)) as rs := by
      intro as
      induction as with
      | nil => intro rs; rfl
      | cons a as ih =>
        intro rs
        cases rs with
        | nil => rfl
        | cons r rs => simp only [List.map_cons, repliesOf, hh, ih]
    rw [e1, e2] at hr
    exact hr

/-- **C147_maps_partial**: the same for maps. -/
theorem C147_maps_partial {V : Type} (fs : FS) (par : Nat → MapApi.Params) (v0 : V) (inA : Nat → Bool) (cs : List (MapApi.Call V)) (w : MapApi.World V) (rs : List (MapApi.Reply V))
    (hk : ∀ c ∈ cs, ∀ c' ∈ cs, ∀ f f' st st', mfile c = some f → mfile c' = some f' → inA (mhandle c) = true → inA (mhandle c') = false → fs f = some st → fs f' = some st' → ¬ Clash st st')
    (h : maps fs par v0 cs = .ok (w, rs)) :
    ∃ w', maps fs par v0 (cs.filter (fun c => inA (mhandle c))) = .ok (w', repliesOf (fun c => inA (mhandle c)) cs rs) := by
  let keyA : Nat → Bool := fun k => cs.any (fun c => inA (mhandle c) && (mkey (mapCall fs c) == some k))
  have hh : ∀ c : MapApi.Call V, mhandle (mapCall fs c) = mhandle c := fun c => by cases c <;> rfl
  have hek : ∀ (c : MapApi.Call V) k, mkey (mapCall fs c) = some k → ∃ f st, mfile c = some f ∧ fs f = some st ∧ k = ftok st 1 := by
    intro c k e
    cases c with
    | connect i f env =>
      simp only [mapCall, mkey] at e
      split at e
      · rename_i hf
        cases hs : fs f with
        | none => simp [hs] at hf
        | some st =>
          refine ⟨f, st, rfl, hs, ?_⟩
          rw [← Option.some.inj e, keyOf, hs]
      · exact absurd e (by simp)
    | _ => simp [mapCall, mkey] at e
  have hall : ∀ c ∈ cs.map (mapCall fs), ∀ k, mkey c = some k → keyA k = inA (mhandle c) := by
    intro c hm k e
    obtain ⟨o, ho, rfl⟩ := List.mem_map.mp hm
    rw [hh]
    cases hi : inA (mhandle o) with
    | true => exact List.any_eq_true.mpr ⟨o, ho, by simp [hi, e]⟩
    | false =>
      refine Bool.eq_false_iff.mpr (fun hA => ?_)
      obtain ⟨o', ho', h'⟩ := List.any_eq_true.mp hA
      simp only [Bool.and_eq_true, beq_iff_eq] at h'
      obtain ⟨f, st, a1, a2, a3⟩ := hek o k e
      obtain ⟨f', st', b1, b2, b3⟩ := hek o' k h'.2
      exact hk o' ho' o ho f' f st' st b1 a1 h'.1 hi b2 a2 ((C147_keys st' st).mp (b3.symm.trans a3))
  have hr := M.run_in (inA := inA) (keyA := keyA) _ _ w rs M.own_init hall h
  rw [M.cut_init] at hr
  refine ⟨M.cut inA keyA w, ?_⟩
  · unfold maps
    have e1 : (cs.map (mapCall fs)).filter (fun c => inA (mhandle c)) = (cs.filter (fun c => inA (mhandle c))).map (mapCall fs) := by
      rw [List.filter_map]
      congr 1
      exact List.filter_congr (fun c _ => by simp [hh])
    have e2 : ∀ (as : List (MapApi.Call V)) (rs : List (MapApi.Reply V)), repliesOf (fun c => inA (mhandle c)) (as.map (mapCall fs)) rs = repliesOf (fun c => inA (mhandle c)) as rs := by
      intro as
      induction as with
      | nil => intro rs; rfl
      | cons a as ih =>
        intro rs
        cases rs with
        | nil => rfl
        | cons r rs => simp only [List.map_cons, repliesOf, hh, ih]
    rw [e1, e2] at hr
    exact hr

def allOk : QueueApi.Env := ⟨true, true, true, true⟩
def allOk' : MapApi.Env := ⟨true, true, true, true, true⟩

/-- Three files; 1 and 3 clash. -/
def fs0 : FS := fun f => if f = 1 then some ⟨5, 1000⟩ else if f = 2 then some ⟨5, 1001⟩ else if f = 3 then some ⟨5, 66536⟩ else none

/-- A history with two groups: handles 0 and 1 with file 1, handle 2 with file 2. -/
def ops0 : List QueueApi.Op := [.connect 0 1 2 3 allOk, .connect 2 2 2 3 allOk, .put 0 [1, 2], .put 2 [7, 8], .flush 2, .flush 0, .connect 1 1 2 3 allOk, .unflush 2, .unflush 1, .get 2 2, .get 1 2, .connect 3 9 2 3 allOk]

example : ∃ w, queues fs0 ops0 = .ok (w, [.unit, .unit, .bool true, .bool true, .unit, .unit, .unit, .bool true, .bool true, .data (some [7, 8]), .data (some [1, 2]), .threw]) := ⟨_, rfl⟩
example : ∀ op ∈ ops0, ∀ op' ∈ ops0, ∀ f f' st st', file op = some f → file op' = some f' → decide (handle op < 2) = true → decide (handle op' < 2) = false → fs0 f = some st → fs0 f' = some st' → ¬ Clash st st' := by
  intro op h op' h' f f' st st' e e' i i' s s'
  simp only [ops0, List.mem_cons, List.not_mem_nil, or_false] at h h'
  rcases h with h | h | h | h | h | h | h | h | h | h | h | h <;> subst h <;> simp [file, handle] at e i <;> subst e <;>
    rcases h' with h' | h' | h' | h' | h' | h' | h' | h' | h' | h' | h' | h' <;> subst h' <;> simp [file, handle] at e' i' <;> subst e' <;> simp [fs0] at s s' <;> subst s <;> subst s' <;> simp [Clash]

/-- **C147_refuted**: files that clash are one file to the library: for every history of calls it makes no difference which of them is named, for queues and for maps. -/
theorem C147_refuted (fs : FS) (f g : Nat) (st st' : Stat) (hf : fs f = some st) (hg : fs g = some st') (hc : Clash st st') :
    (∀ ops, queues fs (ops.map (rename f g)) = queues fs ops) ∧
    ∀ (V : Type) (par : Nat → MapApi.Params) (v0 : V) (cs : List (MapApi.Call V)), maps fs par v0 (cs.map (renameM f g)) = maps fs par v0 cs := by
  have hke : keyOf fs f = keyOf fs g := by
    simp only [keyOf, hf, hg]
    exact (C147_keys st st').mpr hc
  constructor
  · intro ops
    unfold queues
    rw [List.map_map]
    congr 1
    refine List.map_congr_left (fun op _ => ?_)
    cases op with
    | connect h x bs max env =>
      by_cases hx : x = f
      · subst hx; simp [rename, queueCall, hke, hf, hg]
      · simp [rename, queueCall, hx]
    | _ => rfl
  · intro V par v0 cs
    unfold maps
    rw [List.map_map]
    congr 1
    refine List.map_congr_left (fun c _ => ?_)
    cases c with
    | connect h x env =>
      by_cases hx : x = f
      · subst hx; simp [renameM, mapCall, hke, hf, hg]
      · simp [renameM, mapCall, hx]
    | _ => rfl

/-- Files 1 and 3 of `fs0`: what is put with one comes out with the other. -/
theorem C147_refuted_message : ∃ w, queues fs0 [.connect 0 1 2 3 allOk, .connect 1 3 2 3 allOk, .put 0 [1, 2], .flush 0, .unflush 1, .get 1 2] =
    .ok (w, [.unit, .unit, .bool true, .unit, .bool true, .data (some [1, 2])]) := ⟨_, rfl⟩

example : fs0 1 = some ⟨5, 1000⟩ ∧ fs0 3 = some ⟨5, 66536⟩ ∧ Clash ⟨5, 1000⟩ ⟨5, 66536⟩ := ⟨rfl, rfl, by simp [Clash]⟩

/-- **C147_refuted_many**: among any 65537 files of one device two clash. -/
theorem C147_refuted_many (dev : Nat) (ino : Fin 65537 → Nat) : ∃ i j, i ≠ j ∧ Clash ⟨dev, ino i⟩ ⟨dev, ino j⟩ := by
  let f : Fin 65537 → Fin 65536 := fun i => ⟨ino i % 65536, Nat.mod_lt _ (by decide)⟩
  obtain ⟨i, j, hn, e⟩ := Fintype.exists_ne_map_eq_of_card_lt f (by simp)
  exact ⟨i, j, hn, Fin.mk.inj_iff.mp e, rfl⟩

/-! ### C148: a queue and a map with the same key file -/

/-- **C148_refuted_map**: after any history of calls on queues, a map that is connected with the file of a queue waits: between the calls on the queue semaphore 0 is 1, and the map waits for 0.
It has changed nothing that others see. -/
theorem C148_refuted_map {V : Type} (fs : FS) (ops : List QueueApi.Op) (s : QueueApi.Spec.State) (rs : List QueueApi.Reply) (f : Nat) (q : QueueApi.Spec.Queue)
    (h : QueueApi.Spec.run .init (ops.map (queueCall fs)) = some (s, rs)) (hq : s.qs (keyOf fs f) = some q) (hf : (fs f).isSome = true) :
    ∃ w, queues fs ops = .ok (w, rs) ∧
      ∀ (wm : MapApi.World V) (par : Nat → MapApi.Params) (v0 : V) (i : Nat) (env : MapApi.Env), wm.sems (keyOf fs f) = semsOfQueues w (keyOf fs f) → wm.hs i = ⟨none, none⟩ → env.ftok = true →
        ∃ wm', MapApi.step par v0 wm (mapCall fs (.connect i f env)) = .ok (wm', .blocked) ∧ wm'.segs = wm.segs ∧ wm'.sems = wm.sems := by
  obtain ⟨w, e, R⟩ := QueueApi.run_sim _ QueueApi.init_rel h
  refine ⟨w, e, fun wm par v0 i env hs hi he => ?_⟩
  have hr := R.q (keyOf fs f)
  rw [hq] at hr
  cases h1 : w.segs (keyOf fs f) with
  | none => cases h2 : w.sems (keyOf fs f) <;> simp [h1, h2, QueueApi.QRel] at hr
  | some sg =>
    cases h2 : w.sems (keyOf fs f) with
    | none => simp [h1, h2, QueueApi.QRel] at hr
    | some sm =>
      simp only [h1, h2, QueueApi.QRel] at hr
      have hv : wm.sems (keyOf fs f) = some ⟨1, q.items.length⟩ := by
        rw [hs, semsOfQueues, h2, hr.2]; rfl
      refine ⟨wm.setH i ⟨some (keyOf fs f), none⟩, ?_, rfl, rfl⟩
      simp [MapApi.step, mapCall, MapApi.connect, MapApi.connect_sem, hi, he, hf, hv, MapApi.semop, RwLock.semop, RwLock.semop1, RwLock.lock_write_rw, RwLock.Vals.get]

/-- **C148_refuted_queue**: after any history of calls on maps, a queue that is connected with the file of a map waits: between the calls on the map semaphore 0 is 0, and the queue waits for 1. -/
theorem C148_refuted_queue {V : Type} (fs : FS) (par : Nat → MapApi.Params) (v0 : V) (cs : List (MapApi.Call V)) (s : MapApi.Spec.State V) (rs : List (MapApi.Reply V)) (f : Nat) (t : MapApi.Spec.Table V)
    (h : MapApi.Spec.run par .init (cs.map (mapCall fs)) = some (s, rs)) (ht : s.ts (keyOf fs f) = some t) (hf : (fs f).isSome = true) :
    ∃ w, maps fs par v0 cs = .ok (w, rs) ∧
      ∀ (wq : QueueApi.World) (i bs max : Nat) (env : QueueApi.Env), wq.sems (keyOf fs f) = semsOfMaps w (keyOf fs f) → (wq.hs i).sem = none → env.ftok = true →
        ∃ wq', QueueApi.step wq (queueCall fs (.connect i f bs max env)) = .ok (wq', .blocked) ∧ wq'.segs = wq.segs ∧ wq'.sems = wq.sems := by
  obtain ⟨w, e, R⟩ := MapApi.sim_run v0 _ (MapApi.Rel.init par) h
  refine ⟨w, e, fun wq i bs max env hs hi he => ?_⟩
  have hr := R.key (keyOf fs f)
  rw [ht] at hr
  obtain ⟨sg, h1, h2, _⟩ := MapApi.KRel.some hr
  have hv : wq.sems (keyOf fs f) = some ⟨0, 0⟩ := by
    rw [hs, semsOfMaps, h2]; rfl
  refine ⟨wq.setH i { wq.hs i with bs := bs, max := max, sem := some (keyOf fs f) }, ?_, rfl, rfl⟩
  simp [QueueApi.step, queueCall, QueueApi.connect, QueueApi.connect_sem, hi, he, hf, hv, QueueApi.lock_queue]

/-- The hypotheses hold after one connect. -/
example : ∃ s q, QueueApi.Spec.run .init (([.connect 0 1 2 3 allOk] : List QueueApi.Op).map (queueCall fs0)) = some (s, [.unit]) ∧ s.qs (keyOf fs0 1) = some q ∧ (fs0 1).isSome = true := ⟨_, _, rfl, rfl, rfl⟩
example : ∃ s t, MapApi.Spec.run (V := Nat) (fun _ => ⟨2, 2, 8, 24⟩) .init (([.connect 0 1 allOk', .op 0 (.insert 4 40)] : List (MapApi.Call Nat)).map (mapCall fs0)) = some (s, [.unit, .ret (.bool true)]) ∧
    s.ts (keyOf fs0 1) = some t ∧ (fs0 1).isSome = true := ⟨_, _, rfl, rfl, rfl⟩

end Verif.Keys
