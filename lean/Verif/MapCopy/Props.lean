import Verif.MapCopy.Spec
import Verif.MapApi.Sim

namespace Verif.MapCopy

open MapApi

variable {V : Type}

theorem rel_copy {par : Nat → Params} {s : MapApi.Spec.State V} {w : World V} (R : Rel par s w) (h g : Nat) (hp : par g = par h) :
    Rel par ⟨s.ts, fun x => if x = g then s.us h else s.us x⟩ (w.setH g (w.hs h)) := by
  refine ⟨R.key, fun x hx => ?_, fun x k hx => ?_⟩
  · by_cases e : x = g
    · subst e
      simp only [if_true] at hx
      simpa [World.setH, MapApi.set] using R.out h hx
    · simp only [if_neg e] at hx
      simpa [World.setH, MapApi.set, e] using R.out x hx
  · by_cases e : x = g
    · subst e
      simp only [if_true] at hx
      obtain ⟨a, t, b, c⟩ := R.inn h k hx
      exact ⟨by simpa [World.setH, MapApi.set] using a, t, b, hp.trans c⟩
    · simp only [if_neg e] at hx
      simpa [World.setH, MapApi.set, e] using R.inn x k hx

theorem sim {par : Nat → Params} (v0 : V) : ∀ (cs : List (Call V)) (s : MapApi.Spec.State V) (w : World V) (s' : MapApi.Spec.State V) (rs : List (Reply V)), Rel par s w →
    Spec.run par s cs = some (s', rs) → ∃ w', run par v0 w cs = .ok (w', rs) ∧ Rel par s' w'
  | [], s, w, s', rs, R, h => by
    simp only [Spec.run, Option.some.injEq, Prod.mk.injEq] at h
    obtain ⟨rfl, rfl⟩ := h
    exact ⟨w, rfl, R⟩
  | c :: cs, s, w, s', rs, R, h => by
    simp only [Spec.run] at h
    cases h1 : Spec.step par s c with
    | none => rw [h1] at h; exact absurd h (by simp)
    | some p =>
      obtain ⟨s1, r⟩ := p
      rw [h1] at h
      simp only at h
      cases h2 : Spec.run par s1 cs with
      | none => rw [h2] at h; exact absurd h (by simp)
      | some q =>
        obtain ⟨s2, rs'⟩ := q
        rw [h2] at h
        simp only [Option.some.injEq, Prod.mk.injEq] at h
        obtain ⟨rfl, rfl⟩ := h
        have hs : ∃ w1, step par v0 w c = .ok (w1, r) ∧ Rel par s1 w1 := by
          cases c with
          | call c => exact sim_step v0 R c h1
          | copy a b =>
            simp only [Spec.step] at h1
            split at h1
            · rename_i hp
              simp only [Option.some.injEq, Prod.mk.injEq] at h1
              obtain ⟨rfl, rfl⟩ := h1
              exact ⟨_, rfl, rel_copy R a b hp⟩
            · exact absurd h1 (by simp)
        obtain ⟨w1, e1, R1⟩ := hs
        obtain ⟨w2, e2, R2⟩ := sim v0 cs s1 w1 s2 rs' R1 h2
        exact ⟨w2, by simp only [run, e1, e2, Res.ok_bind], R2⟩

/-- **C149**: objects of class hash_map can be copied, assigned and inherited by children: in every history of calls and copies, every call gives what the finite map of its key file says; disconnecting or destroying a
copy does not disturb the others. -/
theorem C149_copies (par : Nat → Params) (v0 : V) (cs : List (Call V)) (s : MapApi.Spec.State V) (rs : List (Reply V)) (h : Spec.run par .init cs = some (s, rs)) :
    ∃ w, run par v0 .init cs = .ok (w, rs) := by
  obtain ⟨w, e, _⟩ := sim v0 cs _ _ s rs (Rel.init par) h
  exact ⟨w, e⟩

def allOk : Env := ⟨true, true, true, true, true⟩

/-- The original is connected and copied; the copy writes; the original is destroyed; the copy reads; it is disconnected twice; a third handle finds what the copy wrote. -/
def hist : List (Call Nat) := [.call (.connect 0 7 allOk), .copy 0 1, .call (.op 1 (.insert 4 40)), .call (.op 0 (.read 4)), .call (.disconnect 0), .call (.isConnected 1), .call (.op 1 (.read 4)), .call (.op 0 (.read 4)),
  .call (.disconnect 1), .call (.disconnect 1), .call (.connect 2 7 allOk), .copy 2 0, .call (.op 0 (.read 4)), .copy 3 0, .call (.isConnected 0)]

example : ∃ s, Spec.run (fun _ => ⟨2, 2, 8, 24⟩) .init hist = some (s, [.unit, .unit, .ret (.bool true), .ret (.val (some 40)), .unit, .bool true, .ret (.val (some 40)), .threw, .unit, .unit, .unit, .unit, .ret (.val (some 40)), .unit, .bool false]) :=
  ⟨_, rfl⟩

end Verif.MapCopy
