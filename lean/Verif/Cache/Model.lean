/-
  Model of coda/cache.hpp and coda/cache.tcc (`coda_cache`).

  The nodes of the unordered_map live in a heap at addresses; a new node gets an address that was never used
  before, and the address of an erased node is invalid from then on.  So every access through a dangling pointer
  is undefined behaviour in the model.  The hash table itself is idealised to the map from keys to node addresses.
  size_t is `UInt64`.  `dbg` is modelled in Verif.CacheRef.
-/
import Verif.Mem

namespace Verif.Cache

variable {K V : Type} [DecidableEq K] [Inhabited V]

/-- `data_value_t` = pair<const Key, elem_t>, coda/cache.hpp:19-38. -/
structure Node (K V : Type) where
  key : K
  elem : V
  prev : Option Nat
  next : Option Nat
  size : UInt64
  time : UInt64

/-- Heap cells; `none` is not allocated.  The nodes of the unordered_map `data` by address: coda/cache.hpp:19-40; a pointer is followed at coda/cache.tcc:53-55, 72-86, 104-106, 131-142, 169-181. -/
abbrev Heap (K V : Type) := Nat → Option (Node K V)

/-- `coda_cache`, coda/cache.hpp:40-46. -/
structure Cache (K V : Type) where
  data : K → Option Nat
  heap : Heap K V
  /-- all addresses from here on are unused -/
  fresh : Nat
  begp : Option Nat
  endp : Option Nat
  size_cur : UInt64
  size_max : UInt64
  time_max : UInt64

/-- Constructor, coda/cache.hpp:51-58. -/
def init (size_max time_max : UInt64) : Cache K V :=
  { data := fun _ => none, heap := fun _ => none, fresh := 0, begp := none, endp := none, size_cur := 0, size_max, time_max }

/-- The nodes of the unordered_map `data` by address: coda/cache.hpp:19-40; a pointer is followed at coda/cache.tcc:53-55, 72-86, 104-106, 131-142, 169-181. -/
def upd (h : Heap K V) (a : Nat) (n : Option (Node K V)) : Heap K V := fun x => if x = a then n else h x

/-- `*p`.  The nodes of the unordered_map `data` by address: coda/cache.hpp:19-40; a pointer is followed at coda/cache.tcc:53-55, 72-86, 104-106, 131-142, 169-181. -/
def deref (h : Heap K V) (a : Nat) : Res (Node K V) :=
  match h a with
  | some n => .ok n
  | none => .ub

/-- `p->second.prev = v` for a non-NULL pointer.  The store `->second.prev = …`: coda/cache.tcc:55, 82, 102, 133, 173. -/
def setPrev (h : Heap K V) (a : Nat) (v : Option Nat) : Res (Heap K V) := do
  let n ← deref h a
  .ok (upd h a (some { n with prev := v }))

/-- `p->second.next = v` for a non-NULL pointer.  The store `->second.next = …`: coda/cache.tcc:74, 81, 86, 106, 142. -/
def setNext (h : Heap K V) (a : Nat) (v : Option Nat) : Res (Heap K V) := do
  let n ← deref h a
  .ok (upd h a (some { n with next := v }))

/-- `if (next != NULL) next->second.prev = prev; else endp = prev;`, coda/cache.tcc:131-138 and (with `prev == NULL`) 171-178.
Returns the heap and the new `endp`. -/
def fixNext (h : Heap K V) (next prev endp : Option Nat) : Res (Heap K V × Option Nat) :=
  match next with
  | some b => do
    let h ← setPrev h b prev
    .ok (h, endp)
  | none => .ok (h, prev)

/-- `if (prev != NULL) prev->second.next = next; else begp = next;`, coda/cache.tcc:72-79 and 140-147.
Returns the heap and the new `begp`. -/
def fixPrev (h : Heap K V) (prev next begp : Option Nat) : Res (Heap K V × Option Nat) :=
  match prev with
  | some b => do
    let h ← setNext h b next
    .ok (h, begp)
  | none => .ok (h, next)

/-- `data.erase(it)`: the node leaves the table and is freed.  `data.erase`: coda/cache.tcc:150, 181. -/
def tblErase (s : Cache K V) (k : K) (a : Nat) : Cache K V :=
  { s with data := fun x => if x = k then none else s.data x, heap := upd s.heap a none }

/-- `erase(iterator)` for an iterator other than end(), coda/cache.tcc:123-153. -/
def eraseAt (s : Cache K V) (a : Nat) : Res (Cache K V) := do
  let n ← deref s.heap a
  let (h, endp) ← fixNext s.heap n.next n.prev s.endp
  let (h, begp) ← fixPrev h n.prev n.next s.begp
  .ok (tblErase { s with heap := h, endp := endp, begp := begp, size_cur := s.size_cur - n.size } n.key a)

/-- `erase(const Key &)`, coda/cache.tcc:155-159. -/
def erase (s : Cache K V) (k : K) : Res (Cache K V × Bool) :=
  match s.data k with
  | none => .ok (s, false)
  | some a => do
    let s ← eraseAt s a
    .ok (s, true)

/-- `get(const Key &)`, coda/cache.tcc:3-22, called at time `now`; the value the returned pointer points to, `none` for NULL. -/
def get (s : Cache K V) (k : K) (now : UInt64) : Res (Cache K V × Option V) :=
  match s.data k with
  | none => .ok (s, none)
  | some a => do
    let n ← deref s.heap a
    if s.time_max ≠ 0 ∧ n.time + s.time_max < now then do
      let s ← eraseAt s a
      .ok (s, none)
    else .ok (s, some n.elem)

/-- `get(const Key &, Val &)`, coda/cache.tcc:24-40; `val` is the previous value of the output argument. -/
def getInto (s : Cache K V) (k : K) (val : V) (now : UInt64) : Res (Cache K V × V) :=
  match s.data k with
  | none => .ok (s, val)
  | some a => do
    let n ← deref s.heap a
    if s.time_max ≠ 0 ∧ n.time + s.time_max < now then do
      let s ← eraseAt s a
      .ok (s, val)
    else .ok (s, n.elem)

/-- Loop of `drop_last_unused`, coda/cache.tcc:166-182.  `data.erase(begp_old->first)` looks the key up.
The fuel bounds the number of iterations. -/
def dropLoop : Nat → Cache K V → Res (Cache K V)
  | 0, s => if s.size_cur > s.size_max then .ub else .ok s
  | fuel + 1, s =>
    if s.size_cur > s.size_max then
      match s.begp with
      | none => .ub
      | some old => do
        let n ← deref s.heap old
        let (h, endp) ← fixNext s.heap n.next none s.endp
        let n ← deref h old
        let s := { s with heap := h, begp := n.next, endp := endp, size_cur := s.size_cur - n.size }
        dropLoop fuel (match s.data n.key with
          | some a => tblErase s n.key a
          | none => s)
    else .ok s

/-- `drop_last_unused`, coda/cache.tcc:161-183. -/
def drop_last_unused (s : Cache K V) : Res (Cache K V) :=
  match s.begp with
  | none => .ok s
  | some _ => dropLoop s.fresh s

/-- `if (endp != NULL) endp->second.next = &*res.first;`, coda/cache.tcc:104-107. -/
def linkEnd (h : Heap K V) (endp : Option Nat) (a : Nat) : Res (Heap K V) :=
  match endp with
  | some e => setNext h e (some a)
  | none => .ok h

/-- coda/cache.tcc:59-67 and 89-97: the new value, its size and possibly its time. -/
def assign (cap : V → UInt64) (n : Node K V) (val : V) (upt : Bool) (now : UInt64) : Node K V :=
  { n with elem := val, size := cap val, time := if upt then now else n.time }

/-- `set`, coda/cache.tcc:42-121, called at time `now`; `cap` is `estimate_capacity`.
`data.insert` creates the node with a default element, NULL pointers, size 0 and the current time (coda/cache.hpp:31-37). -/
def set (cap : V → UInt64) (s : Cache K V) (k : K) (val : V) (upt : Bool) (now : UInt64) : Res (Cache K V) :=
  match s.data k with
  | some a => do
    let n ← deref s.heap a
    match n.next with
    | none =>
      .ok { s with size_cur := s.size_cur - n.size + cap val, heap := upd s.heap a (some (assign cap n val upt now)) }
    | some b => do
      let h ← setPrev s.heap b n.prev
      let (h, begp) ← fixPrev h n.prev n.next s.begp
      let h ← setNext h a none
      let h ← setPrev h a s.endp
      match s.endp with
      | none => .ub
      | some e => do
        let h ← setNext h e (some a)
        let n' ← deref h a
        .ok { s with begp := begp, endp := some a, size_cur := s.size_cur - n'.size + cap val,
                     heap := upd h a (some (assign cap n' val upt now)) }
  | none => do
    let a := s.fresh
    let h := upd s.heap a (some { key := k, elem := default, prev := none, next := none, size := 0, time := now })
    let h ← setPrev h a s.endp
    let h ← linkEnd h s.endp a
    let n ← deref h a
    let h := upd h a (some { n with elem := val, size := cap val })
    drop_last_unused { s with
      data := fun x => if x = k then some a else s.data x
      heap := h
      fresh := a + 1
      endp := some a
      begp := match s.begp with | none => some a | some b => some b
      size_cur := s.size_cur + cap val }

/-- The operations of a client.  Bookkeeping: the calls of a client, coda/cache.hpp:51-69 (get, get, set, erase, dbg), one after the other. -/
inductive Op (K V : Type) where
  | get (k : K) (now : UInt64)
  | set (k : K) (v : V) (do_update_time : Bool) (now : UInt64)
  | erase (k : K)

/-- One operation.  Bookkeeping: the calls of a client, coda/cache.hpp:51-69 (get, get, set, erase, dbg), one after the other. -/
def step (cap : V → UInt64) (s : Cache K V) : Op K V → Res (Cache K V)
  | .get k now => do
    let (s, _) ← get s k now
    .ok s
  | .set k v u now => set cap s k v u now
  | .erase k => do
    let (s, _) ← erase s k
    .ok s

/-- A history of operations.  Bookkeeping: the calls of a client, coda/cache.hpp:51-69 (get, get, set, erase, dbg), one after the other. -/
def run (cap : V → UInt64) (s : Cache K V) : List (Op K V) → Res (Cache K V)
  | [] => .ok s
  | op :: ops => do
    let s ← step cap s op
    run cap s ops

end Verif.Cache
