/-
  Model of coda/url_parser.cpp: creation of URLs.

  The block that `val_str` points to is a buffer, pointers into it are offsets.  `malloc` succeeds; what the new block contains is given by
  an argument (`fresh n`, n bytes).  The `uint32_t` lengths are natural numbers: texts of 2^32 bytes are not considered.
  A pointer before the beginning of a range, or a negative length of a search, is not taken for an error: see `revFind`.
-/
import Verif.Str.Model

namespace Verif.UrlParser
open Verif.Str

/-- CODA_URL_FETCHABLE and CODA_URL_SUBDOMAIN: coda/url_parser.hpp:6-7. -/
structure Flags where
  fetchable : Bool
  subdomain : Bool

/-- The members of a coda_url: coda/url_parser.hpp:11-14.  `val` is the block of `val_str`, none for NULL; `dom_str` points to offset `dom`
of this block. -/
structure Url where
  val : Option Buf
  len : Nat
  dom : Nat
  dlen : Nat

/-- The constructor: coda/url_parser.cpp:9-13; also the state after `reset`, lines 74-85. -/
def Url.null : Url := ⟨none, 0, 0, 0⟩

/-- `empty`: coda/url_parser.hpp:40. -/
def Url.empty (u : Url) : Bool := u.len == 0

/-- The C string at the beginning of a buffer.  The C string at an offset: for coda/url_parser.hpp:34-35. -/
def cstr : Buf → Res (List UInt8)
  | [] => .ub
  | c :: l => if c = 0 then .ok [] else do
    let s ← cstr l
    .ok (c :: s)

/-- The C strings that `get_url` and `get_domain` return: coda/url_parser.hpp:34-35. -/
def get_url (u : Url) : Res (List UInt8) :=
  if u.empty then .ok [] else
  match u.val with
  | none => .ub
  | some v => cstr v

/-- `get_domain`: coda/url_parser.hpp:35. -/
def get_domain (u : Url) : Res (List UInt8) :=
  if u.empty then .ok [] else
  match u.val with
  | none => .ub
  | some v => cstr (v.drop u.dom)

/-- `get_url_len` and `get_domain_len`: coda/url_parser.hpp:37-38. -/
def get_url_len (u : Url) : Nat := u.len
/-- `get_domain_len`: coda/url_parser.hpp:38. -/
def get_domain_len (u : Url) : Nat := u.dlen

/-- A difference of two pointers as a size: if it is negative, the size is huge and what is done with it undefined.  The difference of two pointers: coda/url_parser.cpp:159-368. -/
def diff (a b : Nat) : Res Nat := if b ≤ a then .ok (a - b) else .ub

/-- memmove inside a block.  memmove(3), called at coda/url_parser.cpp:182-331. -/
def memmove (b : Buf) (d s n : Nat) : Res Buf :=
  if d + n ≤ b.length ∧ s + n ≤ b.length then .ok (patch b d ((b.drop s).take n)) else .ub

/-- memcpy of the first `n` bytes of `s` to offset `d`.  memcpy(3), called at coda/url_parser.cpp:31, 58, 138-149, 333, 361-362. -/
def memcpy (b : Buf) (d : Nat) (s : Buf) (n : Nat) : Res Buf :=
  if d + n ≤ b.length ∧ n ≤ s.length then .ok (patch b d (s.take n)) else .ub

/-- `coda_revnchr(beg, c, len)` for a length that may be negative: coda/url_parser.cpp:212-213.  Converted to size_t and added to a pointer, a
negative length leads before the beginning of the range (if addresses wrap round), so that nothing is searched. -/
def revFind (b : Buf) (beg : Nat) (c : UInt8) (len : Int) : Res (Option Nat) :=
  if len ≤ 0 then .ok none else do
    let r ← coda_revnchr (b.drop beg) c len.toNat
    .ok (r.map (beg + ·))

/-- DOMAIN_SYMBOL: coda/url_parser.cpp:153-157. -/
def domainSymbol (c : UInt8) : Bool :=
  (97 ≤ c && c ≤ 122) || (65 ≤ c && c ≤ 90) || (48 ≤ c && c ≤ 57) || (c == 46 || c == 58) || (c == 45 || c == 95)

/-- The loop of coda/url_parser.cpp:172-180 with `fuel = end - p`. -/
def lowerLoop : Buf → Nat → Nat → Res (Buf × Nat)
  | b, p, 0 => .ok (b, p)
  | b, p, fuel + 1 => do
    let c ← rd b p
    let b ← wr b p (tolower c)
    if domainSymbol (tolower c) then lowerLoop b (p + 1) fuel else .ok (b, p)

/-- `for (pp = p - 1; pp >= beg; --pp) if (*pp == '/')`: coda/url_parser.cpp:243-250 and 285-287; `n = p - beg`. -/
def backSlash (b : Buf) (beg : Nat) : Nat → Res (Option Nat)
  | 0 => .ok none
  | n + 1 => do
    let c ← rd b (beg + n)
    if c = 47 then .ok (some (beg + n)) else backSlash b beg n

/-- `p <= eofp - k && coda_strnstr(p, pat, k) != 0` for a pattern of k bytes: coda/url_parser.cpp:236, 252, 263. -/
def isAt (b : Buf) (p eofp : Nat) (pat : List UInt8) : Res Bool :=
  if p + pat.length ≤ eofp then do
    let r ← coda_strnstr (some (b.drop p)) (some (pat ++ [0])) pat.length
    .ok r.isSome
  else .ok false

/-- The loop of coda/url_parser.cpp:232-279.  Returns the block, `eofp` and `prev`.  Every iteration makes `eofp - p` smaller; running out of
`fuel` counts as undefined behaviour. -/
def refersLoop (beg : Nat) : Nat → Buf → Nat → Nat → Nat → Res (Buf × Nat × Nat)
  | fuel, b, p, prev, eofp =>
    if p < eofp then
      match fuel with
      | 0 => .ub
      | fuel + 1 => do
        let c ← rd b p
        if c = 47 then do
          let up ← isAt b p eofp [47, 46, 46, 47]
          if up then do
            let n ← diff eofp (p + 3)
            let b ← memmove b prev (p + 3) n
            let pp ← backSlash b beg (prev - beg)
            refersLoop beg fuel b prev (pp.getD prev) (eofp - (p + 3 - prev))
          else do
            let dot ← isAt b p eofp [47, 46, 47]
            if dot then do
              let n ← diff eofp (p + 2)
              let b ← memmove b p (p + 2) n
              refersLoop beg fuel b p prev (eofp - 2)
            else do
              let two ← isAt b p eofp [47, 47]
              if two then do
                let n ← diff eofp (p + 1)
                let b ← memmove b p (p + 1) n
                refersLoop beg fuel b p prev (eofp - 1)
              else refersLoop beg fuel b (p + 1) p eofp
        else refersLoop beg fuel b (p + 1) prev eofp
    else .ok (b, eofp, prev)

/-- `prev == eofp - k && coda_strnstr(prev, pat, k)` for a pattern of k bytes: coda/url_parser.cpp:281, 306, 317. -/
def isLast (b : Buf) (prev eofp : Nat) (pat : List UInt8) : Res Bool :=
  if prev + pat.length = eofp then do
    let r ← coda_strnstr (some (b.drop prev)) (some (pat ++ [0])) pat.length
    .ok r.isSome
  else .ok false

/-- The new `eofp`: coda/url_parser.cpp:281-323. -/
def refersEnd (b : Buf) (beg prev eofp : Nat) (fetchable : Bool) : Res Nat := do
  let up ← isLast b prev eofp [47, 46, 46]
  if up then
    if prev > beg then do
      let pp ← backSlash b beg (prev - beg)
      match pp with
      | none => .ok eofp
      | some pp => if pp > beg ∧ fetchable = false then .ok (eofp - (prev + 3 - pp)) else .ok (eofp - (prev + 3 - (pp + 1)))
    else .ok (eofp - 2)
  else do
    let dot ← isLast b prev eofp [47, 46]
    if dot then
      if prev > beg ∧ fetchable = false then .ok (eofp - 2) else .ok (eofp - 1)
    else do
      let one ← isLast b prev eofp [47]
      if one then
        if prev > beg ∧ fetchable = false then .ok (eofp - 1) else .ok eofp
      else .ok eofp

/-- Where `dom_str` points to before the domain is copied: into the block itself, or into another one (that of the parent).  Where `dom_str` points before it is copied: coda/url_parser.cpp:210-215, 333, 342-368. -/
inductive DomSrc where
  | here (off : Nat)
  | other (s : Buf)

/-- The memcpy of the domain: coda/url_parser.cpp:333.  memcpy is undefined for overlapping ranges. -/
def copyDom (b : Buf) (d : Nat) (src : DomSrc) (n : Nat) : Res Buf :=
  match src with
  | .here off => if off + n ≤ d ∨ d + n ≤ off then memmove b d off n else .ub
  | .other s => memcpy b d s n

/-- The query is moved behind the path: coda/url_parser.cpp:325-331.  Returns the block and the new `val_len`. -/
def moveArgs (b : Buf) (eofp args args_len : Nat) : Res (Buf × Nat) :=
  if args_len ≠ 0 then do
    let b ← memmove b eofp args args_len
    .ok (b, eofp + args_len)
  else .ok (b, eofp)

/-- `assign_refers`: coda/url_parser.cpp:221-340. -/
def assign_refers (b : Buf) (vlen beg : Nat) (fetchable : Bool) (src : DomSrc) (dlen : Nat) : Res Url := do
  let q ← coda_strnchr b 63 vlen
  let args := q.getD vlen
  let args_len := vlen - args
  let (b, eofp, prev) ← refersLoop beg (args - beg) b beg beg args
  let eofp ← refersEnd b beg prev eofp fetchable
  let (b, vlen) ← moveArgs b eofp args args_len
  let b ← copyDom b (vlen + 1) src dlen
  let b ← wr b vlen 0
  let b ← wr b (vlen + 1 + dlen) 0
  .ok ⟨some b, vlen, vlen + 1, dlen⟩

/-- The '/' after the host: coda/url_parser.cpp:182-194.  Returns the block, `val_len` and `end`. -/
def addSlash (b : Buf) (vlen p e : Nat) : Res (Buf × Nat × Nat) :=
  if e = p then
    if vlen = e then do
      let b ← wr b vlen 47
      .ok (b, vlen + 1, e)
    else .ok (b, vlen, e)
  else do
    let n ← diff vlen p
    let b ← memmove b (p + 1) p n
    let b ← wr b p 47
    .ok (b, vlen + 1, p)

/-- Dots before the host: coda/url_parser.cpp:196-201. -/
def dotsBefore (b : Buf) (vlen beg e : Nat) : Res (Buf × Nat × Nat) := do
  let n ← diff e beg
  let k ← coda_strnspn (b.drop beg) [46, 0] n
  if k ≠ 0 then do
    let n ← diff vlen (beg + k)
    let b ← memmove b beg (beg + k) n
    .ok (b, vlen - k, e - k)
  else .ok (b, vlen, e)

/-- Dots after the host: coda/url_parser.cpp:203-208. -/
def dotsAfter (b : Buf) (vlen beg e : Nat) : Res (Buf × Nat × Nat) := do
  let n ← diff e beg
  let k ← coda_revnspn (b.drop beg) [46, 0] n
  if k ≠ 0 then do
    let p := e - k
    let n ← diff vlen e
    let b ← memmove b (p + 1) e n
    .ok (b, vlen - (e - (p + 1)), p + 1)
  else .ok (b, vlen, e)

/-- Where the domain begins: coda/url_parser.cpp:210-215. -/
def domBegin (b : Buf) (beg e : Nat) : Res Nat := do
  let p ← revFind b beg 46 ((e : Int) - 1 - beg)
  let p := p.getD (beg - 1)
  let p ← revFind b beg 46 ((p : Int) - 1 - beg)
  .ok (p.getD (beg - 1) + 1)

/-- `assign_anchor`: coda/url_parser.cpp:159-219. -/
def assign_anchor (b : Buf) (vlen beg : Nat) (fetchable : Bool) : Res Url := do
  let h ← coda_strnchr b 35 vlen
  let vlen := h.getD vlen
  let n ← diff vlen beg
  let s ← coda_strnchr (b.drop beg) 47 n
  let e := (s.map (beg + ·)).getD vlen
  let (b, p) ← lowerLoop b beg (e - beg)
  let (b, vlen, e) ← addSlash b vlen p e
  let (b, vlen, e) ← dotsBefore b vlen beg e
  let (b, vlen, e) ← dotsAfter b vlen beg e
  let d ← domBegin b beg e
  assign_refers b vlen e fetchable (.here d) (e - d)

/-- The comparisons with fixed texts: coda/url_parser.cpp:112-118, 134-151, 344-345. -/
def httpText : List UInt8 := [104, 116, 116, 112, 58, 47, 47]
/-- The comparisons with fixed texts: coda/url_parser.cpp:112-118, 134-151, 344-345. -/
def httpsText : List UInt8 := [104, 116, 116, 112, 115, 58, 47, 47]

/-- `coda_strxstr(u, text, k)` for a text of k bytes.  The comparisons with fixed texts: coda/url_parser.cpp:112-118, 134-151, 344-345. -/
def starts (u : Buf) (text : List UInt8) : Res Bool := do
  let r ← coda_strxstr (some u) (some (text ++ [0])) text.length
  .ok r.isSome

/-- `create_scheme`: coda/url_parser.cpp:134-151. -/
def create_scheme (b : Buf) (u : Buf) (sz : Nat) (fetchable : Bool) : Res Url := do
  let s ← starts u httpsText
  if s then do
    let b ← memcpy b 0 u sz
    assign_anchor b sz 8 fetchable
  else do
    let h ← starts u httpText
    if h then do
      let b ← memcpy b 0 u sz
      assign_anchor b sz 7 fetchable
    else do
      let b ← memcpy b 0 httpText 7
      let b ← memcpy b 7 u sz
      assign_anchor b (7 + sz) 7 fetchable

/-- `create_absolute`: coda/url_parser.cpp:87-100, on `this = x`; `u` is the object from the pointer on, none for NULL.  Returns the return value and
the object afterwards. -/
def create_absolute (fresh : Nat → Buf) (x : Url) (u : Option Buf) (sz : Nat) (f : Flags) : Res (Int × Url) :=
  match u with
  | none => .ok (-1, .null)
  | some u =>
    if !x.empty || sz == 0 then .ok (-1, .null)
    else do
      let y ← create_scheme (fresh (2 + 2 * sz + 9)) u sz f.fetchable
      .ok (0, y)

/-- The comparisons with fixed texts: coda/url_parser.cpp:112-118, 134-151, 344-345. -/
def mailto : List UInt8 := [109, 97, 105, 108, 116, 111, 58]
/-- The comparisons with fixed texts: coda/url_parser.cpp:112-118, 134-151, 344-345. -/
def javascript : List UInt8 := [106, 97, 118, 97, 115, 99, 114, 105, 112, 116, 58]

/-- `sz_pub`, the number of bytes that are taken from the parent: coda/url_parser.cpp:349, 355-359; `c = *u`. -/
def pubLen (c : UInt8) (pv : Buf) (plen sz_dom : Nat) : Res Nat :=
  if c ≠ 47 then do
    let q ← coda_strnchp pv 63 plen
    let r ← coda_revnchr pv 47 q
    match r with
    | none => .ub
    | some r => .ok (r + 1)
  else .ok sz_dom

/-- `create_suburl`: coda/url_parser.cpp:342-368; none for the return value -1.  Subtracting `val_str` from a NULL pointer is undefined. -/
def create_suburl (b : Buf) (u : Buf) (sz : Nat) (fetchable : Bool) (pv : Buf) (parent : Url) : Res (Option Url) := do
  let m ← starts u mailto
  if m then .ok none else do
    let j ← starts u javascript
    if j then .ok none else do
      let c ← rd u 0
      if c = 35 then .ok none else do
        let s ← rd pv 4
        let sz_dom := if s ≠ 115 then 7 else 8
        let n ← diff parent.len sz_dom
        let sl ← coda_strnchr (pv.drop sz_dom) 47 n
        match sl with
        | none => .ub
        | some sl => do
          let sz_dom := sz_dom + sl
          let h ← coda_strnchr u 35 sz
          let sz := h.getD sz
          let sz_pub ← pubLen c pv parent.len sz_dom
          let b ← memcpy b 0 pv sz_pub
          let b ← memcpy b sz_pub u sz
          let y ← assign_refers b (sz_pub + sz) sz_dom fetchable (.other (pv.drop parent.dom)) parent.dlen
          .ok (some y)

/-- strcasecmp for equality, of the NUL-terminated strings at the beginning of two buffers.  The comparisons with fixed texts: coda/url_parser.cpp:112-118, 134-151, 344-345. -/
def caseEq : Buf → Buf → Res Bool
  | a :: s, b :: t => if tolower a ≠ tolower b then .ok false else if a = 0 then .ok true else caseEq s t
  | _, _ => .ub

/-- The condition of coda/url_parser.cpp:112. -/
def hasScheme (u : Buf) : Res Bool := do
  let h ← starts u httpText
  if h then .ok true else starts u httpsText

/-- `create_relative`: coda/url_parser.cpp:102-132. -/
def create_relative (fresh : Nat → Buf) (x : Url) (u : Option Buf) (sz : Nat) (f : Flags) (parent : Url) : Res (Int × Url) :=
  match u with
  | none => .ok (-1, .null)
  | some u =>
    if !x.empty || sz == 0 || parent.empty then .ok (-1, .null)
    else
      match parent.val with
      | none => .ub
      | some pv => do
        let b := fresh (2 + 2 * sz + parent.len + parent.dlen)
        let s ← hasScheme u
        if s then do
          let y ← create_scheme b u sz f.fetchable
          if f.subdomain then
            match y.val with
            | none => .ub
            | some yv => do
              let eq ← caseEq (yv.drop y.dom) (pv.drop parent.dom)
              if eq then .ok (0, y) else .ok (-1, .null)
          else .ok (0, y)
        else do
          let r ← create_suburl b u sz f.fetchable pv parent
          match r with
          | none => .ok (-1, .null)
          | some y => .ok (0, y)

end Verif.UrlParser
