/-
  Model of coda/url_parser.cpp with the 32-bit members: `val_len` and `dom_len` are uint32_t, while the sizes given and the pointers have 64 bits.
  Verif.UrlParser has numbers without bound instead.
-/
import Verif.UrlParser.Props

namespace Verif.UrlWide
open Verif.UrlParser Verif.Str

/-- Conversion to uint32_t: the members of coda/url_parser.hpp:12, 14. -/
def low32 (n : Nat) : Nat := n % 2^32

/-- The '/' after the host, `val_len++` in 32 bits: coda/url_parser.cpp:182-194. -/
def addSlash32 (b : Buf) (vlen p e : Nat) : Res (Buf × Nat × Nat) := do
  let (b, vlen, e) ← addSlash b vlen p e
  .ok (b, low32 vlen, e)

/-- `assign_anchor`: coda/url_parser.cpp:159-219.  Apart from `val_len++` the members only become smaller. -/
def assign_anchor32 (b : Buf) (vlen beg : Nat) (fetchable : Bool) : Res Url := do
  let h ← coda_strnchr b 35 vlen
  let vlen := h.getD vlen
  let n ← diff vlen beg
  let s ← coda_strnchr (b.drop beg) 47 n
  let e := (s.map (beg + ·)).getD vlen
  let (b, p) ← lowerLoop b beg (e - beg)
  let (b, vlen, e) ← addSlash32 b vlen p e
  let (b, vlen, e) ← dotsBefore b vlen beg e
  let (b, vlen, e) ← dotsAfter b vlen beg e
  let d ← domBegin b beg e
  assign_refers b vlen e fetchable (.here d) (e - d)

/-- `create_scheme`: coda/url_parser.cpp:134-151; `sz` bytes are copied, `val_len` is their number in 32 bits. -/
def create_scheme32 (b : Buf) (u : Buf) (sz : Nat) (fetchable : Bool) : Res Url := do
  let s ← starts u httpsText
  if s then do
    let b ← memcpy b 0 u sz
    assign_anchor32 b (low32 sz) 8 fetchable
  else do
    let h ← starts u httpText
    if h then do
      let b ← memcpy b 0 u sz
      assign_anchor32 b (low32 sz) 7 fetchable
    else do
      let b ← memcpy b 0 httpText 7
      let b ← memcpy b 7 u sz
      assign_anchor32 b (low32 (7 + sz)) 7 fetchable

/-- `create_absolute`: coda/url_parser.cpp:87-100. -/
def create_absolute32 (fresh : Nat → Buf) (x : Url) (u : Option Buf) (sz : Nat) (f : Flags) : Res (Int × Url) :=
  match u with
  | none => .ok (-1, .null)
  | some u =>
    if !x.empty || sz == 0 then .ok (-1, .null)
    else do
      let y ← create_scheme32 (fresh (2 + 2 * sz + 9)) u sz f.fetchable
      .ok (0, y)

/-- `create_suburl`: coda/url_parser.cpp:342-368; the sum of line 361 in 32 bits. -/
def create_suburl32 (b : Buf) (u : Buf) (sz : Nat) (fetchable : Bool) (pv : Buf) (parent : Url) : Res (Option Url) := do
  let m ← starts u mailto
  if m then .ok none else do
    let j ← starts u javascript
    if j then .ok none else do
      let c ← rd u 0
      if c = 35 then .ok none else do
        let s ← rd pv 4
        let sz_dom := if s ≠ 115 then 7 else 8
        let n ← diff parent.len sz_dom
        let sl ← coda_strnchr (pv.drop sz_dom) 47 n
        match sl with
        | none => .ub
        | some sl => do
          let sz_dom := sz_dom + sl
          let h ← coda_strnchr u 35 sz
          let sz := h.getD sz
          let sz_pub ← pubLen c pv parent.len sz_dom
          let b ← memcpy b 0 pv sz_pub
          let b ← memcpy b sz_pub u sz
          let y ← assign_refers b (low32 (sz_pub + sz)) sz_dom fetchable (.other (pv.drop parent.dom)) parent.dlen
          .ok (some y)

/-- `create_relative`: coda/url_parser.cpp:102-132. -/
def create_relative32 (fresh : Nat → Buf) (x : Url) (u : Option Buf) (sz : Nat) (f : Flags) (parent : Url) : Res (Int × Url) :=
  match u with
  | none => .ok (-1, .null)
  | some u =>
    if !x.empty || sz == 0 || parent.empty then .ok (-1, .null)
    else
      match parent.val with
      | none => .ub
      | some pv => do
        let b := fresh (2 + 2 * sz + parent.len + parent.dlen)
        let s ← hasScheme u
        if s then do
          let y ← create_scheme32 b u sz f.fetchable
          if f.subdomain then
            match y.val with
            | none => .ub
            | some yv => do
              let eq ← caseEq (yv.drop y.dom) (pv.drop parent.dom)
              if eq then .ok (0, y) else .ok (-1, .null)
          else .ok (0, y)
        else do
          let r ← create_suburl32 b u sz f.fetchable pv parent
          match r with
          | none => .ok (-1, .null)
          | some y => .ok (0, y)

/-- The copy constructor, and operator= after the free: coda/url_parser.cpp:17-34 and 44-61.  `val_len + dom_len + 2` is computed in 32 bits. -/
def copy32 (u : Url) : Res Url :=
  if u.empty then .ok .null
  else
    match u.val with
    | none => .ub
    | some v =>
      let n := low32 (u.len + u.dlen + 2)
      if n ≤ v.length then .ok ⟨some (v.take n), u.len, u.len + 1, u.dlen⟩ else .ub

end Verif.UrlWide
