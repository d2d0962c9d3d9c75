/-
  Model of `coda_cache` (coda/cache.hpp, coda/cache.tcc) when `set` ends with an exception: std::bad_alloc from `data.insert`, or any exception from the assignment of the value.
  All else as in Verif/Cache/Model.lean.
-/
import Verif.Cache.Model

namespace Verif.CacheThrow

open Cache

variable {K V : Type} [DecidableEq K] [Inhabited V]

/-- `set`, coda/cache.tcc:42-121, up to the assignment `res.first->second.elem = val` (lines 60, 90, 116), which throws.  `left` is what the assignment leaves in `elem`:
the old value if Val's assignment has no effect when it throws. -/
def setThrow (s : Cache K V) (k : K) (left : V) (now : UInt64) : Res (Cache K V) :=
  match s.data k with
  | some a => do
    let n ← deref s.heap a
    match n.next with
    | none => .ok { s with size_cur := s.size_cur - n.size, heap := upd s.heap a (some { n with elem := left }) }
    | some b => do
      let h ← setPrev s.heap b n.prev
      let (h, begp) ← fixPrev h n.prev n.next s.begp
      let h ← setNext h a none
      let h ← setPrev h a s.endp
      match s.endp with
      | none => .ub
      | some e => do
        let h ← setNext h e (some a)
        let n' ← deref h a
        .ok { s with begp := begp, endp := some a, size_cur := s.size_cur - n'.size, heap := upd h a (some { n' with elem := left }) }
  | none => do
    let a := s.fresh
    let h := upd s.heap a (some { key := k, elem := default, prev := none, next := none, size := 0, time := now })
    let h ← setPrev h a s.endp
    let h ← linkEnd h s.endp a
    let n ← deref h a
    let h := upd h a (some { n with elem := left })
    .ok { s with
      data := fun x => if x = k then some a else s.data x
      heap := h
      fresh := a + 1
      endp := some a
      begp := match s.begp with | none => some a | some b => some b }

/-- What a client does: an operation, a `set` whose `data.insert` throws (no effect: the strong guarantee of unordered_map), or a `set` whose assignment throws.  Bookkeeping: the calls of coda/cache.hpp:51-69, and `set` (coda/cache.tcc:42-121) whose assignment throws. -/
inductive OpT (K V : Type) where
  | op (o : Op K V)
  | noInsert (k : K)
  | noAssign (k : K) (left : V) (now : UInt64)

/-- Bookkeeping: the calls of coda/cache.hpp:51-69, and `set` (coda/cache.tcc:42-121) whose assignment throws. -/
def stepT (cap : V → UInt64) (s : Cache K V) : OpT K V → Res (Cache K V)
  | .op o => step cap s o
  | .noInsert _ => .ok s
  | .noAssign k left now => setThrow s k left now

/-- Bookkeeping: the calls of coda/cache.hpp:51-69, and `set` (coda/cache.tcc:42-121) whose assignment throws. -/
def runT (cap : V → UInt64) (s : Cache K V) : List (OpT K V) → Res (Cache K V)
  | [] => .ok s
  | o :: os => do
    let s ← stepT cap s o
    runT cap s os

end Verif.CacheThrow
