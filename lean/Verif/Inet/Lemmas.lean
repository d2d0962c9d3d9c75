import Verif.Inet.Model
import Verif.Inet.Spec

namespace Verif.Inet

def Digits (p : List UInt8) : Prop := ∀ c ∈ p, isDigit c = true

theorem isDigit_iff (c : UInt8) : isDigit c = true ↔ (48 ≤ c ∧ c ≤ 57) := by simp [isDigit]

def oct (o : Nat) (p : List UInt8) : Nat := p.foldl (fun o c => (o * 10 + (c.toNat - 48)) % 2 ^ 64) o

theorem oct_eq (p : List UInt8) : ∀ (o : Nat), oct (o % 2 ^ 64) p = (p.foldl (fun v c => v * 10 + (c.toNat - 48)) o) % 2 ^ 64 := by
  induction p with
  | nil => intro o; rfl
  | cons c p ih =>
    intro o
    simp only [oct, List.foldl_cons]
    have : (o % 2 ^ 64 * 10 + (c.toNat - 48)) % 2 ^ 64 = (o * 10 + (c.toNat - 48)) % 2 ^ 64 := by omega
    rw [this]
    exact ih (o * 10 + (c.toNat - 48))

theorem oct_val (p : List UInt8) : oct 0 p = val p % 2 ^ 64 := oct_eq p 0

theorem loop_digits (p : List UInt8) (hp : Digits p) : ∀ (rest : List UInt8) (addr o n : Nat),
    loop (p ++ rest) addr o n = loop rest addr (oct o p) n := by
  induction p with
  | nil => intro rest addr o n; rfl
  | cons c p ih =>
    intro rest addr o n
    rw [List.cons_append, loop, if_pos ((isDigit_iff c).mp (hp c List.mem_cons_self))]
    exact ih (fun x hx => hp x (List.mem_cons_of_mem _ hx)) rest addr _ n

theorem loop_dot (rest : List UInt8) (addr o n : Nat) (h : o < 256) :
    loop (46 :: rest) addr o n = loop rest ((addr * 256 % 2 ^ 32 + o) % 2 ^ 32) 0 ((n + 1) % 2 ^ 64) := by
  rw [loop, if_neg (by decide), if_pos ⟨rfl, h⟩]

/-- How the components `os` end up in (addr, octet). -/
def Runs : List Nat → Nat → Nat → Nat → Prop
  | [], _, _, _ => False
  | [o], addr, addr', o' => addr' = addr ∧ o' = o
  | o :: os, addr, addr', o' => o < 256 ∧ Runs os ((addr * 256 % 2 ^ 32 + o) % 2 ^ 32) addr' o'

theorem loop_inv : ∀ (data : List UInt8) (addr o n addr' o' n' : Nat), loop data addr o n = some (addr', o', n') →
    ∃ (p : List UInt8) (ps : List (List UInt8)), data = p ++ ps.flatMap (fun q => 46 :: q) ∧ Digits p ∧ (∀ q ∈ ps, Digits q) ∧
      n' % 2 ^ 64 = (n + ps.length) % 2 ^ 64 ∧ Runs (oct o p :: ps.map (oct 0)) addr addr' o'
  | [], addr, o, n, addr', o', n', h => by
    simp only [loop, Option.some.injEq, Prod.mk.injEq] at h
    obtain ⟨rfl, rfl, rfl⟩ := h
    exact ⟨[], [], rfl, by intro c hc; simp at hc, by simp, rfl, ⟨rfl, rfl⟩⟩
  | c :: cs, addr, o, n, addr', o', n', h => by
    rw [loop] at h
    split at h
    · rename_i hc
      obtain ⟨p, ps, h1, h2, h3, h4, h5⟩ := loop_inv cs _ _ _ _ _ _ h
      refine ⟨c :: p, ps, by rw [h1]; rfl, ?_, h3, h4, h5⟩
      intro x hx
      rcases List.mem_cons.mp hx with rfl | hx
      · exact (isDigit_iff _).mpr hc
      · exact h2 x hx
    · split at h
      · rename_i hc
        obtain ⟨p, ps, h1, h2, h3, h4, h5⟩ := loop_inv cs _ _ _ _ _ _ h
        refine ⟨[], p :: ps, ?_, by intro c hc; simp at hc, ?_, ?_, ?_⟩
        · rw [h1, hc.1]; simp
        · intro q hq
          rcases List.mem_cons.mp hq with rfl | hq
          · exact h2
          · exact h3 q hq
        · rw [h4]; simp; omega
        · exact ⟨hc.2, h5⟩
      · simp at h

theorem loop_n : ∀ (data : List UInt8) (addr o n addr' o' n' : Nat), n < 2 ^ 64 → loop data addr o n = some (addr', o', n') → n' < 2 ^ 64
  | [], addr, o, n, addr', o', n', hn, h => by
    simp only [loop, Option.some.injEq, Prod.mk.injEq] at h
    omega
  | c :: cs, addr, o, n, addr', o', n', hn, h => by
    rw [loop] at h
    split at h
    · exact loop_n cs _ _ _ _ _ _ hn h
    · split at h
      · exact loop_n cs _ _ _ _ _ _ (Nat.mod_lt _ (by omega)) h
      · simp at h

theorem htonl_net (a b c d : Nat) (ha : a < 256) (hb : b < 256) (hc : c < 256) (hd : d < 256) :
    htonl ((((((0 * 256 % 2 ^ 32 + a) % 2 ^ 32 * 256 % 2 ^ 32 + b) % 2 ^ 32) * 256 % 2 ^ 32 + c) % 2 ^ 32 * 256 % 2 ^ 32 + d) % 2 ^ 32) = net a b c d := by
  have e : (((((0 * 256 % 2 ^ 32 + a) % 2 ^ 32 * 256 % 2 ^ 32 + b) % 2 ^ 32) * 256 % 2 ^ 32 + c) % 2 ^ 32 * 256 % 2 ^ 32 + d) % 2 ^ 32 =
      ((a * 256 + b) * 256 + c) * 256 + d := by omega
  rw [e]
  unfold htonl net
  omega

theorem flatMap_length_ge (ps : List (List UInt8)) : ps.length ≤ (ps.flatMap (fun q => 46 :: q)).length := by
  induction ps with
  | nil => simp
  | cons p ps ih => simp only [List.flatMap_cons, List.length_append, List.length_cons]; omega

/-- Exactly what is accepted. -/
theorem accept (a b c d : List UInt8) (ha : Digits a) (hb : Digits b) (hc : Digits c) (hd : Digits d)
    (va : val a % 2 ^ 64 < 256) (vb : val b % 2 ^ 64 < 256) (vc : val c % 2 ^ 64 < 256) (vd : val d % 2 ^ 64 < 256) :
    inet_addr (dotted a b c d) = net (val a % 2 ^ 64) (val b % 2 ^ 64) (val c % 2 ^ 64) (val d % 2 ^ 64) := by
  unfold inet_addr dotted
  rw [List.append_assoc, List.append_assoc, loop_digits a ha, oct_val, List.cons_append, loop_dot _ _ _ _ va, loop_digits b hb, oct_val,
    List.cons_append, loop_dot _ _ _ _ vb, loop_digits c hc, oct_val, loop_dot _ _ _ _ vc]
  have e : d = d ++ [] := by simp
  rw [e, loop_digits d hd, oct_val, ← e, loop]
  dsimp only
  rw [if_neg (by decide), if_pos vd]
  exact htonl_net _ _ _ _ va vb vc vd

theorem reject (data : List UInt8) (hl : data.length < 2 ^ 64) (h : inet_addr data ≠ NONE) :
    ∃ a b c d : List UInt8, data = dotted a b c d ∧ Digits a ∧ Digits b ∧ Digits c ∧ Digits d ∧
      val a % 2 ^ 64 < 256 ∧ val b % 2 ^ 64 < 256 ∧ val c % 2 ^ 64 < 256 ∧ val d % 2 ^ 64 < 256 := by
  unfold inet_addr at h
  split at h
  · exact absurd rfl h
  · rename_i addr octet n hloop
    split at h
    · exact absurd rfl h
    · rename_i hn
      have hn3 : n = 3 := by omega
      split at h
      · rename_i ho
        obtain ⟨p, ps, h1, h2, h3, h4, h5⟩ := loop_inv data _ _ _ _ _ _ hloop
        have hlen : ps.length = 3 := by
          have := flatMap_length_ge ps
          have h6 := congrArg List.length h1
          rw [List.length_append] at h6
          omega
        match ps, hlen with
        | [b, c, d], _ =>
          obtain ⟨r1, r2, r3, _, r5⟩ := h5
          subst r5
          refine ⟨p, b, c, d, ?_, h2, h3 b (by simp), h3 c (by simp), h3 d (by simp), ?_, ?_, ?_, ?_⟩
          · rw [h1]; simp [dotted]
          · rw [← oct_val]; exact r1
          · rw [← oct_val]; exact r2
          · rw [← oct_val]; exact r3
          · rw [← oct_val]; exact ho
      · exact absurd rfl h

theorem foldl_bound (p : List UInt8) (hp : Digits p) : ∀ (v : Nat), p.foldl (fun v c => v * 10 + (c.toNat - 48)) v < (v + 1) * 10 ^ p.length := by
  induction p with
  | nil => intro v; simp
  | cons c p ih =>
    intro v
    have hc := (isDigit_iff c).mp (hp c List.mem_cons_self)
    have hc2 : c.toNat ≤ 57 := hc.2
    have := ih (fun x hx => hp x (List.mem_cons_of_mem _ hx)) (v * 10 + (c.toNat - 48))
    rw [List.foldl_cons, List.length_cons, Nat.pow_succ]
    refine Nat.lt_of_lt_of_le this ?_
    rw [Nat.mul_comm (10 ^ p.length) 10, ← Nat.mul_assoc]
    exact Nat.mul_le_mul_right _ (by omega)

theorem val_small (p : List UInt8) (hp : Digits p) (hl : p.length ≤ 19) : val p < 2 ^ 64 := by
  have h := foldl_bound p hp 0
  have h2 := Nat.pow_le_pow_right (show 0 < 10 by omega) hl
  unfold val
  have e : (10 : Nat) ^ 19 < 2 ^ 64 := by decide
  omega

theorem ofNat_digit (k : Nat) (h : k < 10) : (UInt8.ofNat (48 + k)).toNat = 48 + k ∧ isDigit (UInt8.ofNat (48 + k)) = true := by
  have : ∀ k : Fin 10, (UInt8.ofNat (48 + k.val)).toNat = 48 + k.val ∧ isDigit (UInt8.ofNat (48 + k.val)) = true := by decide
  exact this ⟨k, h⟩

theorem dec_spec (n : Nat) : Digits (dec n) ∧ val (dec n) = n := by
  induction n using Nat.strongRecOn with
  | ind n ih =>
    rw [dec]
    split
    · rename_i h
      obtain ⟨h1, h2⟩ := ofNat_digit n h
      refine ⟨?_, ?_⟩
      · intro c hc
        rw [List.mem_singleton] at hc
        rw [hc]; exact h2
      · simp only [val, List.foldl_cons, List.foldl_nil]
        rw [h1]; omega
    · rename_i h
      obtain ⟨i1, i2⟩ := ih (n / 10) (by omega)
      obtain ⟨h1, h2⟩ := ofNat_digit (n % 10) (by omega)
      refine ⟨?_, ?_⟩
      · intro c hc
        rcases List.mem_append.mp hc with hc | hc
        · exact i1 c hc
        · rw [List.mem_singleton] at hc
          rw [hc]; exact h2
      · unfold val at i2 ⊢
        rw [List.foldl_append, i2]
        simp only [List.foldl_cons, List.foldl_nil]
        rw [h1]; omega

end Verif.Inet
