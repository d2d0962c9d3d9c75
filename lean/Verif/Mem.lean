/-
  Common memory discipline of all models.

  `Res α` is the outcome of a C computation: a value, or undefined behaviour.
  A buffer is a list of bytes whose length is the size of the object; every
  access outside the object is undefined behaviour (`Res.ub`).
-/
namespace Verif

/-- Outcome of modelled C code: a value or undefined behaviour. -/
inductive Res (α : Type _) where
  | ok (a : α)
  | ub
  deriving DecidableEq, Repr

namespace Res

@[inline] protected def bind {α β} (x : Res α) (f : α → Res β) : Res β :=
  match x with
  | ok a => f a
  | ub => ub

/-- The outcome with `f` applied to the value. -/
protected def map {α β} (f : α → β) : Res α → Res β
  | ok a => ok (f a)
  | ub => ub

instance : Monad Res where
  pure := ok
  bind := Res.bind

@[simp] theorem ok_bind {α β} (a : α) (f : α → Res β) : (Res.ok a >>= f) = f a := rfl
@[simp] theorem ub_bind {α β} (f : α → Res β) : ((Res.ub : Res α) >>= f) = Res.ub := rfl
@[simp] theorem pure_eq {α} (a : α) : (pure a : Res α) = Res.ok a := rfl

theorem bind_assoc' {α β γ} (x : Res α) (f : α → Res β) (g : β → Res γ) :
    ((x >>= f) >>= g) = (x >>= fun a => f a >>= g) := by
  cases x <;> rfl

end Res

/-- A memory object: its bytes. -/
abbrev Buf := List UInt8

/-- `b[i]` as an rvalue. -/
def rd (b : Buf) (i : Nat) : Res UInt8 :=
  match b[i]? with
  | some v => .ok v
  | none => .ub

/-- `b[i] = v`. -/
def wr (b : Buf) (i : Nat) (v : UInt8) : Res Buf :=
  if i < b.length then .ok (b.set i v) else .ub

/-- Specification vocabulary: the buffer `b` in which the bytes from position
`o` on are replaced by `e` and everything else is unchanged. -/
def patch (b : Buf) (o : Nat) (e : List UInt8) : Buf :=
  b.take o ++ e ++ b.drop (o + e.length)

theorem rd_eq {b : Buf} {i : Nat} (h : i < b.length) : rd b i = .ok b[i] := by
  simp [rd, h]

theorem rd_ub {b : Buf} {i : Nat} (h : b.length ≤ i) : rd b i = .ub := by
  simp [rd, h]

theorem rd_ok_iff {b : Buf} {i : Nat} {v : UInt8} : rd b i = .ok v ↔ b[i]? = some v := by
  unfold rd; split <;> simp_all

@[simp] theorem patch_nil (b : Buf) (o : Nat) : patch b o [] = b := by
  simp [patch]

theorem patch_length {b : Buf} {o : Nat} {e : List UInt8} (h : o + e.length ≤ b.length) :
    (patch b o e).length = b.length := by
  simp [patch]; omega

theorem wr_eq {b : Buf} {i : Nat} {v : UInt8} (h : i < b.length) :
    wr b i v = .ok (patch b i [v]) := by
  simp only [wr, h, if_true, patch]
  congr 1
  rw [List.set_eq_take_append_cons_drop]
  simp [h]

theorem wr_ub {b : Buf} {i : Nat} {v : UInt8} (h : b.length ≤ i) :
    wr b i v = .ub := by
  simp [wr, Nat.not_lt.mpr h]

theorem patch_patch {b : Buf} {o : Nat} {e f : List UInt8} (h : o + e.length ≤ b.length) :
    patch (patch b o e) (o + e.length) f = patch b o (e ++ f) := by
  have h1 : (List.take o b).length = o := by simp; omega
  unfold patch
  rw [List.take_append_of_le_length (by simp; omega), List.take_of_length_le (by simp; omega)]
  rw [show o + e.length + f.length = (b.take o ++ e).length + f.length by simp; omega,
      List.drop_append, List.drop_drop]
  simp only [List.append_assoc, List.length_append, h1]
  congr 3
  rw [List.drop_of_length_le (l := b.take o ++ e) (by simp; omega)] 
  simp
  congr 1
  omega

theorem wr_patch {b : Buf} {o k : Nat} {e : List UInt8} {v : UInt8}
    (hk : k = o + e.length) (h : k < b.length) :
    wr (patch b o e) k v = .ok (patch b o (e ++ [v])) := by
  subst hk
  rw [wr_eq (by rw [patch_length (by omega)]; exact h), patch_patch (by omega)]

theorem rd_append_right {p q : Buf} {i : Nat} : rd (p ++ q) (p.length + i) = rd q i := by
  unfold rd; rw [List.getElem?_append_right (by omega), Nat.add_sub_cancel_left]

theorem rd_append_zero {p q : Buf} : rd (p ++ q) p.length = rd q 0 := by
  simpa using rd_append_right (p := p) (q := q) (i := 0)

@[simp] theorem rd_cons_zero {a : UInt8} {q : Buf} : rd (a :: q) 0 = .ok a := rfl
@[simp] theorem rd_cons_succ {a : UInt8} {q : Buf} {i : Nat} : rd (a :: q) (i + 1) = rd q i := rfl

end Verif
