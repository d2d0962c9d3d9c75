import Verif.InetHost.Model
import Verif.Fd.Props
import Verif.Inet.Props
/-
  Property C193: coda_listen and coda_connect use the host and the port that were given.  `dotted`, `dec` and `net` are those of the specification of Verif.Inet: texts in dotted decimal and the
  address they denote.
-/
set_option linter.unusedSimpArgs false
set_option linter.unusedVariables false

namespace Verif.InetHost

open Verif.Inet (dotted dec net val)
open Verif.Fd (Table Free)

/-- The socket is listening on this address and port. -/
def Bound (r : Int × Table) (addr port : Nat) : Prop := ∃ s, r.2 r.1 = some (.sock s) ∧ s.bound = some (addr, port)

/-- The socket is connected, or being connected, to this address and port. -/
def Peer (r : Int × Table) (addr port : Nat) : Prop := ∃ s, r.2 r.1 = some (.sock s) ∧ s.peer = some (addr, port)

/-! ## Numbers -/

theorem digit10 {c : UInt8} (h : Inet.isDigit c = true) : digit 10 c = some (c.toNat - 48) ∧ 48 ≤ c ∧ c ≤ 57 := by
  simp only [Inet.isDigit, Bool.and_eq_true, decide_eq_true_eq] at h
  have h1 : 48 ≤ c.toNat := h.1
  have h2 : c.toNat ≤ 57 := h.2
  refine ⟨?_, h⟩
  unfold digit
  simp only [h, and_self, if_true]
  rw [if_pos (by omega)]

theorem digits10 : ∀ (p r : List UInt8) (acc : Nat), (∀ c ∈ p, Inet.isDigit c = true) → (∀ c, r.head? = some c → digit 10 c = none) →
    digits 10 (p ++ r) acc = (p.foldl (fun v c => v * 10 + (c.toNat - 48)) acc, r) := by
  intro p
  induction p with
  | nil =>
    intro r acc _ hr
    cases r with
    | nil => rfl
    | cons c r => simp only [List.nil_append, digits, hr c rfl, List.foldl_nil]
  | cons c p ih =>
    intro r acc hp hr
    simp only [List.cons_append, digits, (digit10 (hp c (by simp))).1, List.foldl_cons]
    exact ih r _ (fun c hc => hp c (by simp [hc])) hr

theorem dec_zero : dec 0 = [48] := by rw [dec]; rfl

theorem dec_head (n : Nat) (h : n ≠ 0) : ∃ c t, dec n = c :: t ∧ c ≠ 48 := by
  induction n using Nat.strongRecOn with
  | ind n ih =>
    rw [dec]
    split
    · rename_i hn
      refine ⟨_, [], rfl, ?_⟩
      intro e
      have := congrArg UInt8.toNat e
      rw [UInt8.toNat_ofNat'] at this
      rw [Nat.mod_eq_of_lt (by omega)] at this
      have : 48 + n = 48 := this
      omega
    · rename_i hn
      obtain ⟨c, t, e, hc⟩ := ih (n / 10) (by omega) (by omega)
      exact ⟨c, t ++ _, by rw [e]; rfl, hc⟩

theorem dec_cons (n : Nat) : ∃ c t, dec n = c :: t ∧ Inet.isDigit c = true := by
  by_cases h : n = 0
  · subst h; exact ⟨48, [], dec_zero, by decide⟩
  · obtain ⟨c, t, e, _⟩ := dec_head n h
    exact ⟨c, t, e, (Inet.dec_spec n).1 c (by rw [e]; simp)⟩

/-- What may follow a number. -/
def Stop (r : List UInt8) : Prop := r = [] ∨ ∃ r', r = 46 :: r'

theorem stop_digit {r : List UInt8} (h : Stop r) (c : UInt8) (hc : r.head? = some c) : digit 10 c = none ∧ digit 8 c = none ∧ c ≠ 120 ∧ c ≠ 88 := by
  rcases h with rfl | ⟨r', rfl⟩
  · cases hc
  · cases hc; decide

theorem strtoul0_dec (n : Nat) (r : List UInt8) (h : Stop r) : strtoul0 (dec n ++ r) = (n, r) := by
  by_cases h0 : n = 0
  · subst h0
    rw [dec_zero]
    rcases h with rfl | ⟨r', rfl⟩
    · decide
    · have hx : isHex (48 :: 46 :: r') = false := by
        cases r' <;> simp [isHex]
      simp only [strtoul0, List.cons_append, List.nil_append, hx, List.head?_cons]
      rfl
  · obtain ⟨c, t, e, hc⟩ := dec_head n h0
    have hx : isHex (dec n ++ r) = false := by
      rw [e, List.cons_append]
      generalize t ++ r = u
      unfold isHex
      split
      · rename_i heq; cases heq; exact absurd rfl hc
      · rfl
    have hh : (dec n ++ r).head? ≠ some 48 := by
      rw [e]; simp only [List.cons_append, List.head?_cons, ne_eq, Option.some.injEq]; exact hc
    unfold strtoul0
    rw [hx, if_neg (by simp), if_neg hh, digits10 _ _ _ (Inet.dec_spec n).1 (fun c hc => (stop_digit h c hc).1)]
    have := (Inet.dec_spec n).2
    unfold val at this
    rw [this]

theorem head_dec (n : Nat) (r : List UInt8) : ∃ c, (dec n ++ r).head? = some c ∧ 48 ≤ c ∧ c ≤ 57 := by
  obtain ⟨c, t, e, hc⟩ := dec_cons n
  exact ⟨c, by rw [e]; rfl, (digit10 hc).2⟩

theorem aton_last (left n : Nat) (h : n < 256 ^ (left + 1)) : aton left (dec n) = some (Inet.htonl n) := by
  obtain ⟨c, h1, h2⟩ := head_dec n []
  have hs := strtoul0_dec n [] (Or.inl rfl)
  rw [List.append_nil] at h1 hs
  unfold aton
  rw [h1]
  simp only [h2, and_self, not_true, if_false, hs]
  cases left <;> simp [h]

theorem aton_dot (left n : Nat) (r : List UInt8) (h : n < 256) : aton (left + 1) (dec n ++ 46 :: r) = (aton left r).map (fun x => n * 256 ^ (2 - left) + x) := by
  obtain ⟨c, h1, h2⟩ := head_dec n (46 :: r)
  have hs := strtoul0_dec n (46 :: r) (Or.inr ⟨r, rfl⟩)
  rw [aton, h1]
  simp only [h2, and_self, not_true, if_false, hs, if_true, h]

/-- The address that the C library reads from a text in dotted decimal. -/
theorem inet_addr_dotted (a b c d : Nat) (ha : a < 256) (hb : b < 256) (hc : c < 256) (hd : d < 256) : inet_addr (dotted (dec a) (dec b) (dec c) (dec d)) = net a b c d := by
  have h0 : aton 0 (dec d) = some (Inet.htonl d) := aton_last 0 d (by simpa using hd)
  have h1 := aton_dot 0 c (dec d) hc
  rw [h0, Option.map_some] at h1
  have h2 := aton_dot 1 b (dec c ++ 46 :: dec d) hb
  rw [h1, Option.map_some] at h2
  have h3 := aton_dot 2 a (dec b ++ 46 :: (dec c ++ 46 :: dec d)) ha
  rw [h2, Option.map_some] at h3
  have e : dotted (dec a) (dec b) (dec c) (dec d) = dec a ++ 46 :: (dec b ++ 46 :: (dec c ++ 46 :: dec d)) := by
    unfold dotted; simp only [List.append_assoc, List.cons_append]
  have h4 : aton 3 (dotted (dec a) (dec b) (dec c) (dec d)) = some (net a b c d) := by
    rw [e, h3]
    congr 1
    simp only [net, Inet.htonl, Nat.reduceSub, Nat.reducePow]
    omega
  unfold inet_addr
  rw [h4, Option.getD_some]

theorem strtoul10_any (n : Nat) : strtoul10 (dec n) = if 2 ^ 64 ≤ n then 2 ^ 64 - 1 else n := by
  obtain ⟨c, t, e, hc⟩ := dec_cons n
  have hd := digit10 hc
  have h1 : 48 ≤ c.toNat := hd.2.1
  have h2 : c.toNat ≤ 57 := hd.2.2
  have hsp : isspace c = false := by
    have e1 : c ≠ 32 := by rintro rfl; revert h1; decide
    have e2 : ¬ c ≤ 13 := by
      intro hh
      have : c.toNat ≤ 13 := hh
      omega
    simp [isspace, e1, e2]
  have hm : c ≠ 45 := by rintro rfl; revert h1; decide
  have hp : c ≠ 43 := by rintro rfl; revert h1; decide
  have hw : (dec n).dropWhile isspace = dec n := by rw [e]; simp [List.dropWhile_cons, hsp]
  have hh : (dec n).head? = some c := by rw [e]; rfl
  have hv : (digits 10 (dec n) 0).1 = n := by
    have := digits10 (dec n) [] 0 (Inet.dec_spec n).1 (by intro c hc; cases hc)
    rw [List.append_nil] at this
    rw [this]
    exact (Inet.dec_spec n).2
  unfold strtoul10
  simp only [hw, hh, Option.some.injEq, hm, hp, or_self, if_false, hv, decide_false, Bool.false_eq_true]

theorem strtoul10_dec (n : Nat) (h : n < 2 ^ 64) : strtoul10 (dec n) = n := by
  rw [strtoul10_any, if_neg (by omega)]

/-! ## The property -/

theorem bound_of (t : Table) (e : Fd.ListenEnv) (host port : List UInt8) (backlog nonblock : Int) (hnew : ∀ d, e.new = some d → Free t d)
    (hr : 0 ≤ (coda_listen t e host port backlog nonblock).1) : Bound (coda_listen t e host port backlog nonblock) (inet_addr host) (strtoul10 port % 65536) := by
  unfold coda_listen at hr ⊢
  rcases Fd.C70_listen t e (inet_addr host) (strtoul10 port) backlog nonblock hnew with ⟨h, _⟩ | ⟨_, _, _, _, _, _, h⟩
  · rw [h] at hr; exact absurd hr (by omega)
  · unfold Bound; rw [h]; exact ⟨_, Fd.put_self _ _ _, rfl⟩

theorem peer_of (t : Table) (new : Option Int) (nonblkOk closeOk : Bool) (conn : Fd.Conn) (host port : List UInt8) (nonblock : Int) (hnew : ∀ d, new = some d → Free t d)
    (hr : 0 ≤ (coda_connect t new nonblkOk closeOk conn host port nonblock).1) :
    Peer (coda_connect t new nonblkOk closeOk conn host port nonblock) (inet_addr host) (strtoul10 port % 65536) := by
  unfold coda_connect at hr ⊢
  rcases Fd.C70_connect t new nonblkOk closeOk conn (inet_addr host) (strtoul10 port) nonblock hnew with ⟨h, _⟩ | ⟨_, _, _, _, h⟩
  · rw [h] at hr; exact absurd hr (by omega)
  · unfold Peer; rw [h]; exact ⟨_, Fd.put_self _ _ _, rfl⟩

/-- **C193, in part.** For every address in dotted decimal and every port number below 65536, both in the usual decimal notation, a successful coda_listen listens on this address and port.
Missing: other texts (`C193_refuted_name`, `C193_refuted_port`, `C193_refuted_octal`). -/
theorem C193_listen_partial (t : Table) (e : Fd.ListenEnv) (a b c d port : Nat) (ha : a < 256) (hb : b < 256) (hc : c < 256) (hd : d < 256) (hport : port < 65536) (backlog nonblock : Int)
    (hnew : ∀ d, e.new = some d → Free t d) (hr : 0 ≤ (coda_listen t e (dotted (dec a) (dec b) (dec c) (dec d)) (dec port) backlog nonblock).1) :
    Bound (coda_listen t e (dotted (dec a) (dec b) (dec c) (dec d)) (dec port) backlog nonblock) (net a b c d) port := by
  have := bound_of t e _ _ backlog nonblock hnew hr
  rwa [inet_addr_dotted a b c d ha hb hc hd, strtoul10_dec port (by omega), Nat.mod_eq_of_lt hport] at this

/-- **C193, in part:** the same for coda_connect. -/
theorem C193_connect_partial (t : Table) (new : Option Int) (nonblkOk closeOk : Bool) (conn : Fd.Conn) (a b c d port : Nat) (ha : a < 256) (hb : b < 256) (hc : c < 256) (hd : d < 256)
    (hport : port < 65536) (nonblock : Int) (hnew : ∀ d, new = some d → Free t d)
    (hr : 0 ≤ (coda_connect t new nonblkOk closeOk conn (dotted (dec a) (dec b) (dec c) (dec d)) (dec port) nonblock).1) :
    Peer (coda_connect t new nonblkOk closeOk conn (dotted (dec a) (dec b) (dec c) (dec d)) (dec port) nonblock) (net a b c d) port := by
  have := peer_of t new nonblkOk closeOk conn _ _ nonblock hnew hr
  rwa [inet_addr_dotted a b c d ha hb hc hd, strtoul10_dec port (by omega), Nat.mod_eq_of_lt hport] at this

/-- **C193, in part:** for these texts coda_inet_addr gives the address that coda_listen and coda_connect use. -/
theorem C193_agree_partial (a b c d : Nat) (ha : a < 256) (hb : b < 256) (hc : c < 256) (hd : d < 256) :
    Inet.inet_addr (dotted (dec a) (dec b) (dec c) (dec d)) = inet_addr (dotted (dec a) (dec b) (dec c) (dec d)) := by
  rw [Inet.C65_text a b c d ha hb hc hd, inet_addr_dotted a b c d ha hb hc hd]

theorem inet_addr_name (host : List UInt8) (h : ∀ c, host.head? = some c → ¬ (48 ≤ c ∧ c ≤ 57)) : inet_addr host = net 255 255 255 255 := by
  have hn : Inet.NONE = net 255 255 255 255 := by decide
  have ha : aton 3 host = none := by
    unfold aton
    cases hh : host.head? with
    | none => rfl
    | some c => simp only [h c hh, not_false_eq_true, if_true]
  unfold inet_addr
  rw [ha, Option.getD_none, hn]

/-- **C193 is false for all host names**: with a text that does not begin with a digit (`localhost`, the empty text) coda_listen and coda_connect do not fail by themselves but go on with the
address 255.255.255.255. -/
theorem C193_refuted_name (host : List UInt8) (h : ∀ c, host.head? = some c → ¬ (48 ≤ c ∧ c ≤ 57)) (port : List UInt8) (nonblock : Int) :
    (∀ (t : Table) (e : Fd.ListenEnv) (backlog : Int), (∀ d, e.new = some d → Free t d) → 0 ≤ (coda_listen t e host port backlog nonblock).1 →
      Bound (coda_listen t e host port backlog nonblock) (net 255 255 255 255) (strtoul10 port % 65536)) ∧
    ∀ (t : Table) (new : Option Int) (nonblkOk closeOk : Bool) (conn : Fd.Conn), (∀ d, new = some d → Free t d) → 0 ≤ (coda_connect t new nonblkOk closeOk conn host port nonblock).1 →
      Peer (coda_connect t new nonblkOk closeOk conn host port nonblock) (net 255 255 255 255) (strtoul10 port % 65536) := by
  refine ⟨fun t e backlog hnew hr => ?_, fun t new nb cl conn hnew hr => ?_⟩
  · have := bound_of t e host port backlog nonblock hnew hr
    rwa [inet_addr_name host h] at this
  · have := peer_of t new nb cl conn host port nonblock hnew hr
    rwa [inet_addr_name host h] at this

theorem strtoul10_name (port : List UInt8) (h : ∀ c, port.head? = some c → isspace c = false ∧ c ≠ 45 ∧ c ≠ 43 ∧ digit 10 c = none) : strtoul10 port = 0 := by
  cases port with
  | nil => decide +kernel
  | cons c s =>
    obtain ⟨h1, h2, h3, h4⟩ := h c rfl
    unfold strtoul10
    simp only [List.dropWhile_cons, h1, Bool.false_eq_true, if_false, List.head?_cons, Option.some.injEq, h2, h3, or_self, digits, h4, decide_false]
    rw [if_neg (by omega)]

/-- **C193 is false for all names of services**: with a text that is no number (`http`, the empty text) coda_listen listens on port 0, that is on any port that is free. -/
theorem C193_refuted_port (t : Table) (e : Fd.ListenEnv) (host port : List UInt8) (h : ∀ c, port.head? = some c → isspace c = false ∧ c ≠ 45 ∧ c ≠ 43 ∧ digit 10 c = none)
    (backlog nonblock : Int) (hnew : ∀ d, e.new = some d → Free t d) (hr : 0 ≤ (coda_listen t e host port backlog nonblock).1) :
    Bound (coda_listen t e host port backlog nonblock) (inet_addr host) 0 := by
  have := bound_of t e host port backlog nonblock hnew hr
  rwa [strtoul10_name port h] at this

/-- **C193 is false for all port numbers above 65535**: coda_listen listens on another port, the number modulo 65536 (65535 for numbers of more than 64 bits). -/
theorem C193_refuted_modulo (t : Table) (e : Fd.ListenEnv) (host : List UInt8) (port : Nat) (hport : 65536 ≤ port) (backlog nonblock : Int) (hnew : ∀ d, e.new = some d → Free t d)
    (hr : 0 ≤ (coda_listen t e host (dec port) backlog nonblock).1) :
    ∃ other, other < 65536 ∧ other ≠ port ∧ (other = if port < 18446744073709551616 then port % 65536 else 65535) ∧ Bound (coda_listen t e host (dec port) backlog nonblock) (inet_addr host) other := by
  have := bound_of t e host (dec port) backlog nonblock hnew hr
  rw [strtoul10_any] at this
  by_cases h : port < 18446744073709551616
  · rw [if_neg (by omega)] at this
    exact ⟨port % 65536, by omega, by omega, by rw [if_pos h], this⟩
  · rw [if_pos (by omega)] at this
    exact ⟨65535, by omega, by omega, by rw [if_neg h], this⟩

open Verif.Inet (txt)

/-- **C193, the two readings of an address differ.** With a leading zero, with fewer than four parts and with empty parts coda_inet_addr and the other two functions disagree. -/
theorem C193_refuted_octal : inet_addr (txt "010.0.0.1") = net 8 0 0 1 ∧ Inet.inet_addr (txt "010.0.0.1") = net 10 0 0 1 ∧ inet_addr (txt "10.1") = net 10 0 0 1 ∧
    Inet.inet_addr (txt "10.1") = Inet.NONE ∧ inet_addr (txt "...") = net 255 255 255 255 ∧ Inet.inet_addr (txt "...") = net 0 0 0 0 := by decide +kernel

/-! ## Examples -/

/-- A process with the three standard descriptors. -/
def std : Table := fun d => if d = 0 ∨ d = 1 ∨ d = 2 then some .null else none

/-- `C193_listen_partial` and `C193_connect_partial` apply. -/
example : dotted (dec 127) (dec 0) (dec 0) (dec 1) = txt "127.0.0.1" ∧ dec 8080 = txt "8080" ∧ (∀ d, (some 3 : Option Int) = some d → Free std d) ∧
    (coda_listen std ⟨some 3, true, true, true, true, true⟩ (txt "127.0.0.1") (txt "8080") 128 1).1 = 3 ∧
    (coda_connect std (some 3) true true .ok (txt "127.0.0.1") (txt "8080") 0).1 = 3 := by
  refine ⟨by simp [dotted, dec]; decide +kernel, by simp [dec]; decide +kernel, ?_, by decide +kernel, by decide +kernel⟩
  intro d hd
  cases hd
  exact ⟨by decide, by decide⟩

/-- `C193_refuted_name` and `C193_refuted_port` apply. -/
example : (coda_listen std ⟨some 3, true, true, true, true, true⟩ (txt "localhost") (txt "http") 128 0).1 = 3 ∧ (∀ c, (txt "localhost").head? = some c → ¬ (48 ≤ c ∧ c ≤ 57)) ∧
    ∀ c, (txt "http").head? = some c → isspace c = false ∧ c ≠ 45 ∧ c ≠ 43 ∧ digit 10 c = none := by
  have h1 : (txt "localhost").head? = some 108 := by decide +kernel
  have h2 : (txt "http").head? = some 104 := by decide +kernel
  rw [h1, h2]
  refine ⟨by decide +kernel, ?_, ?_⟩ <;> intro c hc <;> cases hc <;> decide

/-- `C193_refuted_modulo` applies: 65616 is port 80. -/
example : dec 65616 = txt "65616" ∧ (coda_listen std ⟨some 3, true, true, true, true, true⟩ (txt "127.0.0.1") (txt "65616") 128 1).1 = 3 ∧ 65616 % 65536 = 80 :=
  ⟨by simp [dec]; decide +kernel, by decide +kernel, by decide⟩

/-- Hexadecimal, octal, two parts, white space behind the address; five parts, parts that are too large, and other letters are refused. -/
example : inet_addr (txt "0x7f.1") = net 127 0 0 1 ∧ inet_addr (txt "1.2.3.4 x") = net 1 2 3 4 ∧ inet_addr (txt "1.2.515") = net 1 2 2 3 ∧ aton 3 (txt "1.2.3.4.5") = none ∧
    aton 3 (txt "1.2.3.256") = none ∧ aton 3 (txt "256.2.3.4") = none ∧ aton 3 (txt "1.2.3.4x") = none ∧ aton 3 (txt "09.1.1.1") = none ∧ aton 3 (txt "4294967296") = none ∧
    inet_addr (txt "4294967295") = net 255 255 255 255 ∧ strtoul10 (txt " +80x") = 80 ∧ strtoul10 (txt "-1") = 18446744073709551615 := by decide +kernel

end Verif.InetHost
