/-
  Model of coda/url.cpp, lines 9-68 (query string and header parsing).
  The search functions are the modelled `coda_strnchr` and `coda_strnstr`.
-/
import Verif.Str.Model

namespace Verif.Params
open Verif.Str

/-- `std::map<std::string, std::string>`, idealised to the partial function it represents
(coda/url.hpp:8-9). -/
abbrev Map := Buf → Option Buf

/-- `m[key].assign(value)`.  `params[key] = value`: coda/url.cpp:24, 49. -/
def put (m : Map) (k v : Buf) : Map := fun x => if x = k then some v else m x

/-- The assignment `m[std::string(s, q)].assign(q + 1, fin)` made when a separator was found at `q` before the end `fin`
of the piece, coda/url.cpp:22-25 and 47-50. -/
def putPiece (m : Map) (s : Buf) (q : Option Nat) (fin : Nat) : Map :=
  match q with
  | some q => if q < fin then put m (s.take q) ((s.drop (q + 1)).take (fin - q - 1)) else m
  | none => m

/-- Loop of `coda_get_params_buf`, coda/url.cpp:15-28.  `s` is the rest of the object, `n = e - s` (0 also for the
final value `e + 1` of `s`).  The fuel bounds the number of iterations. -/
def paramsLoop : Nat → Map → Buf → Nat → Res Map
  | 0, m, _, n => if n = 0 then .ok m else .ub
  | fuel + 1, m, s, n =>
    if n = 0 then .ok m else do
    let a ← coda_strnchr s 38 n
    let amp := a.getD n
    let equ ← coda_strnchr s 61 n
    let m := putPiece m s equ amp
    paramsLoop fuel m (s.drop (amp + 1)) (n - (amp + 1))

/-- `coda_get_params_buf`, coda/url.cpp:9-31.  `none` is the NULL pointer. -/
def coda_get_params_buf (m : Map) (s : Option Buf) (len : Nat) : Res (Int × Map) :=
  match s with
  | none => .ok (-1, m)
  | some s => do
    let m ← paramsLoop len m s len
    .ok (0, m)

/-- Loop of `coda_get_header_buf`, coda/url.cpp:39-53. -/
def headerLoop : Nat → Map → Buf → Nat → Res Map
  | 0, m, _, n => if n = 0 then .ok m else .ub
  | fuel + 1, m, s, n =>
    if n = 0 then .ok m else do
    let c ← coda_strnstr (some s) (some [13, 10, 0]) n
    let crlf := c.getD n
    if crlf = 0 then .ok m else do
    let dodo ← coda_strnchr s 58 n
    let m := putPiece m s dodo crlf
    headerLoop fuel m (s.drop (crlf + 2)) (n - (crlf + 2))

/-- `coda_get_header_buf`, coda/url.cpp:33-56. -/
def coda_get_header_buf (m : Map) (s : Option Buf) (len : Nat) : Res (Int × Map) :=
  match s with
  | none => .ok (-1, m)
  | some s => do
    let m ← headerLoop len m s len
    .ok (0, m)

/-- `coda_get_params`, coda/url.cpp:58-62. -/
def coda_get_params (m : Map) (s : Option Buf) : Res (Int × Map) :=
  match s with
  | none => .ok (-1, m)
  | some s => do
    let n ← strlen s
    coda_get_params_buf m (some s) n

/-- `coda_get_header`, coda/url.cpp:64-68. -/
def coda_get_header (m : Map) (s : Option Buf) : Res (Int × Map) :=
  match s with
  | none => .ok (-1, m)
  | some s => do
    let n ← strlen s
    coda_get_header_buf m (some s) n

end Verif.Params
