/-
  Model of three things a client of `coda_cache` can do beyond Verif.Cache: keep the pointer that `get` returns, print the cache with `dbg`, and copy the cache (the class
  has the copy constructor and the destructor that the compiler makes).
-/
import Verif.Cache.Model

namespace Verif.CacheRef
open Cache

variable {K V : Type} [DecidableEq K] [Inhabited V]

/-- `const Val *get(const Key &)`, coda/cache.tcc:3-22: the pointer itself, which points into the node at the address. -/
def getPtr (s : Cache K V) (k : K) (now : UInt64) : Res (Cache K V × Option Nat) :=
  match s.data k with
  | none => .ok (s, none)
  | some a => do
    let n ← deref s.heap a
    if s.time_max ≠ 0 ∧ n.time + s.time_max < now then do
      let s ← eraseAt s a
      .ok (s, none)
    else .ok (s, some a)

/-- The client follows the pointer.  A client reads through the pointer that `get` (coda/cache.tcc:3-22) returned; the node is gone after coda/cache.tcc:150, 181. -/
def readPtr (s : Cache K V) (p : Nat) : Res V := do
  let n ← deref s.heap p
  .ok n.elem

/-- One line of the second part of `dbg`.  A line of the listing: coda/cache.tcc:202-208. -/
structure Row (K : Type) where
  key : K
  size : UInt64
  prev : Option Nat
  next : Option Nat
  time : UInt64
  deriving DecidableEq

/-- The output of `dbg` (the numbers, not the text).  What `dbg` appends: coda/cache.tcc:190-194, 211. -/
structure Report (K : Type) where
  nelt_cur : Nat
  size_cur : UInt64
  size_max : UInt64
  time_max : UInt64
  rows : List (Row K)
  deriving DecidableEq

/-- The loop, coda/cache.tcc:200-209. The fuel bounds the number of iterations; a longer list is an endless loop. -/
def walk (h : Heap K V) : Nat → Option Nat → Res (List (Row K))
  | _, none => .ok []
  | 0, some _ => .ub
  | fuel + 1, some a => do
    let n ← deref h a
    let rest ← walk h fuel n.next
    .ok (⟨n.key, n.size, n.prev, n.next, n.time⟩ :: rest)

/-- `data.size()`: the number of nodes of the table.  `data.size()`: coda/cache.tcc:190. -/
def count (s : Cache K V) : Nat := ((List.range s.fresh).filter fun a => (s.heap a).isSome).length

/-- `dbg`, coda/cache.tcc:185-212, at time `now`. -/
def dbg (s : Cache K V) (now : UInt64) (d : Bool) : Res (Report K) := do
  let rows ← if d then walk s.heap s.fresh s.begp else .ok []
  .ok ⟨count s, s.size_cur, s.size_max, now - s.time_max, rows⟩

/-! ### A value of the cache as argument -/

/-- The value at `p`, as `elem = val` and `estimate_capacity(val)` read it.  A client reads through the pointer that `get` (coda/cache.tcc:3-22) returned; the node is gone after coda/cache.tcc:150, 181. -/
def readVal (h : Heap K V) (p : Nat) : Res V := do
  let n ← deref h p
  .ok n.elem

/-- coda/cache.tcc:59-67 and 89-97 with a `val` that lies in the node at `p`: `elem = val` first, then `estimate_capacity(val)`, which reads `val` again. -/
def assignFrom (cap : V → UInt64) (h : Heap K V) (a p : Nat) (n : Node K V) (upt : Bool) (now : UInt64) : Res (Heap K V × UInt64) := do
  let v ← readVal h p
  let h := upd h a (some { n with elem := v })
  let v' ← readVal h p
  .ok (upd h a (some { n with elem := v, size := cap v', time := if upt then now else n.time }), cap v')

/-- `set(key, *p)`, coda/cache.tcc:42-121, where `p` was returned by get: `val` is a reference into a node of the same cache. -/
def setFrom (cap : V → UInt64) (s : Cache K V) (k : K) (p : Nat) (upt : Bool) (now : UInt64) : Res (Cache K V) :=
  match s.data k with
  | some a => do
    let n ← deref s.heap a
    match n.next with
    | none => do
      let (h, c) ← assignFrom cap s.heap a p n upt now
      .ok { s with size_cur := s.size_cur - n.size + c, heap := h }
    | some b => do
      let h ← setPrev s.heap b n.prev
      let (h, begp) ← fixPrev h n.prev n.next s.begp
      let h ← setNext h a none
      let h ← setPrev h a s.endp
      match s.endp with
      | none => .ub
      | some e => do
        let h ← setNext h e (some a)
        let n' ← deref h a
        let (h, c) ← assignFrom cap h a p n' upt now
        .ok { s with begp := begp, endp := some a, size_cur := s.size_cur - n'.size + c, heap := h }
  | none => do
    let a := s.fresh
    let h := upd s.heap a (some { key := k, elem := default, prev := none, next := none, size := 0, time := now })
    let h ← setPrev h a s.endp
    let h ← linkEnd h s.endp a
    let n ← deref h a
    let (h, c) ← assignFrom cap h a p n false now
    drop_last_unused { s with
      data := fun x => if x = k then some a else s.data x
      heap := h
      fresh := a + 1
      endp := some a
      begp := match s.begp with | none => some a | some b => some b
      size_cur := s.size_cur + c }

/-! ### Copies -/

/-- The members of a cache, without the memory of its nodes: coda/cache.hpp:40-46. -/
structure View (K : Type) where
  data : K → Option Nat
  begp : Option Nat
  endp : Option Nat
  size_cur : UInt64
  size_max : UInt64
  time_max : UInt64

/-- Two caches in one memory.  Two cache objects over one memory: the members of coda/cache.hpp:40-46 twice. -/
structure Two (K V : Type) where
  heap : Heap K V
  fresh : Nat
  one : View K
  two : View K

/-- Two cache objects over one memory: the members of coda/cache.hpp:40-46 twice. -/
def asCache (v : View K) (h : Heap K V) (fresh : Nat) : Cache K V := ⟨v.data, h, fresh, v.begp, v.endp, v.size_cur, v.size_max, v.time_max⟩
/-- Two cache objects over one memory: the members of coda/cache.hpp:40-46 twice. -/
def viewOf (s : Cache K V) : View K := ⟨s.data, s.begp, s.endp, s.size_cur, s.size_max, s.time_max⟩

/-- The copy of the node at `y`, if the table has it.  The nodes that the copy of `data` (coda/cache.hpp:40) allocates. -/
def copied (s : Cache K V) (y : Nat) : Option (Node K V) :=
  match s.heap y with
  | some n => if s.data n.key = some y then some n else none
  | none => none

/-- `coda_cache b(a);`, coda/cache.hpp:15-70 (no copy constructor is declared): the implicit copy constructor.  The table copies its nodes (the copy of the node at `a` is at `fresh + a`), everything else is copied as it is,
also the pointers. -/
def copy (s : Cache K V) : Two K V where
  heap := fun x => if x < s.fresh then s.heap x else copied s (x - s.fresh)
  fresh := s.fresh + s.fresh
  one := viewOf s
  two := { viewOf s with data := fun k => (s.data k).map (s.fresh + ·) }

/-- The implicit destructor: the table frees its nodes.  The implicit destructor of coda/cache.hpp:15-70, which destroys `data` (coda/cache.hpp:40). -/
def destroy (h : Heap K V) (v : View K) : Heap K V := fun x =>
  match h x with
  | some n => if v.data n.key = some x then none else some n
  | none => none

/-- What the program does with the two caches.  Bookkeeping: calls of coda/cache.hpp:51-69 on either of the two caches. -/
inductive Op2 (K V : Type) where
  | one (o : Op K V)
  | two (o : Op K V)
  | destroyOne
  | destroyTwo

/-- Bookkeeping: calls of coda/cache.hpp:51-69 on either of the two caches. -/
def step2 (cap : V → UInt64) (t : Two K V) : Op2 K V → Res (Two K V)
  | .one o => do
    let s ← step cap (asCache t.one t.heap t.fresh) o
    .ok { t with heap := s.heap, fresh := s.fresh, one := viewOf s }
  | .two o => do
    let s ← step cap (asCache t.two t.heap t.fresh) o
    .ok { t with heap := s.heap, fresh := s.fresh, two := viewOf s }
  | .destroyOne => .ok { t with heap := destroy t.heap t.one }
  | .destroyTwo => .ok { t with heap := destroy t.heap t.two }

/-- Bookkeeping: calls of coda/cache.hpp:51-69 on either of the two caches. -/
def run2 (cap : V → UInt64) (t : Two K V) : List (Op2 K V) → Res (Two K V)
  | [] => .ok t
  | o :: os => do
    let t ← step2 cap t o
    run2 cap t os

end Verif.CacheRef
