/-
  Specification for C167.
-/
import Verif.PoolSys.Model

namespace Verif.PoolSys

/-- A new pool and nobody uses it. -/
def Sys.Start (s : Sys) : Prop := s.pool.cur = 0 ∧ s.pool.free.top = ShmPool.NONE ∧ (∀ i, s.pc i = .idle) ∧ s.lock = none ∧ s.al = []

/-- No object is in use twice, all are objects of the pool, and allocate says that there is none only if all are in use; free does not fail. -/
def Good (N : Nat) (s : Sys) : Prop :=
  s.al.Nodup ∧ (∀ x ∈ s.al, x < N) ∧ (∀ i, s.pc i = .got ShmPool.NONE → s.al.length = N) ∧ (∀ i n, s.pc i = .got n → n ≠ ShmPool.NONE → n < N ∧ n ∉ s.al) ∧
    ∀ i e b, s.pc i = .freed e b → b = true

end Verif.PoolSys
