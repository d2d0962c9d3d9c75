/-
  C69, C70: descriptors.  C88: coda_random_init.  C89: coda_daemon_fork.  C90: coda_mmap.
-/
import Verif.Fd.Model

set_option linter.unusedSimpArgs false

namespace Verif.Fd

/-- `d` was not in use before the call: what the system guarantees of a new descriptor. -/
def Free (t : Table) (d : Int) : Prop := 0 ≤ d ∧ t d = none

theorem put_drop (t : Table) (d : Int) (o : Obj) (h : t d = none) : (t.put d o).drop d = t := by
  funext e
  unfold Table.drop Table.put
  by_cases he : e = d
  · rw [if_pos he, he, h]
  · rw [if_neg he, if_neg he]

theorem put_put (t : Table) (d : Int) (o p : Obj) : (t.put d o).put d p = t.put d p := by
  funext e
  unfold Table.put
  by_cases he : e = d
  · rw [if_pos he, if_pos he]
  · rw [if_neg he, if_neg he, if_neg he]

theorem put_self (t : Table) (d : Int) (o : Obj) : (t.put d o) d = some o := by simp [Table.put]

theorem close_put (t : Table) (d : Int) (o : Obj) (ok : Bool) (h : t d = none) : (close (t.put d o) d ok).2 = t := by
  unfold close
  rw [put_self]
  exact put_drop t d o h

theorem sock_put (t : Table) (d : Int) (s : Sock) (f : Sock → Sock) : (t.put d (.sock s)).sock d f = t.put d (.sock (f s)) := by
  unfold Table.sock
  rw [put_self]
  exact put_put t d _ _

/-- C69: a successful coda_fdmove of an open descriptor to another one: the new one refers to what the old one referred to, the old one
is closed, no other descriptor changes, and the new one is returned. -/
theorem C69_fdmove (t : Table) (fd nd : Int) (o : Obj) (dupOk closeOk : Bool) (hnd : 0 ≤ nd) (hne : fd ≠ nd) (ho : t fd = some o) :
    let r := coda_fdmove t fd nd dupOk closeOk
    (0 ≤ r.1 ↔ dupOk = true ∧ closeOk = true) ∧
    (0 ≤ r.1 → r.1 = nd ∧ r.2 nd = some o ∧ r.2 fd = none ∧ ∀ d, d ≠ fd → d ≠ nd → r.2 d = t d) := by
  have h1 : ¬ (0 > nd ∨ fd = nd) := by omega
  have hne' : ¬ nd = fd := fun e => hne e.symm
  have hp : (t.put nd o) fd = some o := by simp [Table.put, hne, ho]
  unfold coda_fdmove
  rw [if_neg h1]
  unfold dup2
  rw [ho]
  cases dupOk with
  | false => simp
  | true =>
    simp only [if_true]
    rw [if_neg (by omega)]
    unfold close
    rw [hp]
    cases closeOk with
    | false => simp
    | true =>
      simp only [if_true]
      rw [if_neg (by omega)]
      refine ⟨by simp; omega, ?_⟩
      intro _
      refine ⟨rfl, ?_, ?_, ?_⟩
      · simp [Table.drop, Table.put, hne']
      · simp [Table.drop]
      · intro d h1 h2; simp [Table.drop, Table.put, h1, h2]

/-- C69: to a negative descriptor or to itself nothing is moved: the descriptor is returned as it is. -/
theorem C69_fdmove_stay (t : Table) (fd nd : Int) (dupOk closeOk : Bool) (h : nd < 0 ∨ fd = nd) :
    coda_fdmove t fd nd dupOk closeOk = (fd, t) := by
  unfold coda_fdmove
  rw [if_pos (by omega)]

/-- C69: a descriptor that is not open cannot be moved; nothing changes. -/
theorem C69_fdmove_closed (t : Table) (fd nd : Int) (dupOk closeOk : Bool) (hnd : 0 ≤ nd) (hne : fd ≠ nd) (h : t fd = none) :
    coda_fdmove t fd nd dupOk closeOk = (-1, t) := by
  unfold coda_fdmove
  rw [if_neg (by omega)]
  simp [dup2, h]

/-- C69, partial: coda_fdopen onto a descriptor.  If the copying of the descriptor does not fail, no descriptor besides `fd` is left
open that was not open before; if open fails, nothing changes.  Missing: the failure of dup2 (`C69_refuted`). -/
theorem C69_fdopen_partial (t : Table) (fd : Int) (new : Option Int) (o : Obj) (dupOk closeOk : Bool) (hfd : 0 ≤ fd)
    (hnew : ∀ d, new = some d → Free t d) (hdup : dupOk = true) :
    let r := coda_fdopen t fd new o dupOk closeOk
    (new = none → r = (-1, t)) ∧ (new ≠ none → r.2 = t.put fd o) ∧ (0 ≤ r.1 → r.1 = fd) := by
  subst hdup
  cases new with
  | none => exact ⟨fun _ => rfl, fun h => absurd rfl h, fun h => absurd (show (0 : Int) ≤ -1 from h) (by omega)⟩
  | some td =>
    obtain ⟨h0, hfree⟩ := hnew td rfl
    refine ⟨fun h => absurd h (by simp), ?_⟩
    show (_ → (coda_fdmove (t.put td o) td fd true closeOk).2 = _) ∧ (0 ≤ (coda_fdmove (t.put td o) td fd true closeOk).1 → (coda_fdmove (t.put td o) td fd true closeOk).1 = fd)
    by_cases he : td = fd
    · rw [C69_fdmove_stay _ _ _ _ _ (.inr he)]
      subst he
      exact ⟨fun _ => rfl, fun _ => rfl⟩
    · have hput : ((t.put td o).put fd o) td = some o := by simp [Table.put]
      have htab : ((t.put td o).put fd o).drop td = t.put fd o := by
        funext e
        unfold Table.drop Table.put
        by_cases h1 : e = td
        · rw [if_pos h1, if_neg (by rw [h1]; exact he), h1, hfree]
        · rw [if_neg h1, if_neg h1]
      unfold coda_fdmove dup2 close
      rw [if_neg (by omega), put_self]
      simp only [if_true]
      rw [if_neg (by omega)]
      rw [hput]
      simp only [htab]
      cases closeOk with
      | false => exact ⟨fun _ => rfl, fun h => absurd (show (0 : Int) ≤ -1 from h) (by omega)⟩
      | true => exact ⟨fun _ => rfl, fun _ => rfl⟩

/-- C69 is false: if dup2 fails, the descriptor that coda_fdopen has opened stays open although -1 is returned.  This holds for every
table. -/
theorem C69_refuted (t : Table) (fd td : Int) (o : Obj) (closeOk : Bool) (hfd : 0 ≤ fd) (hne : td ≠ fd) :
    coda_fdopen t fd (some td) o false closeOk = (-1, t.put td o) := by
  show coda_fdmove (t.put td o) td fd false closeOk = _
  unfold coda_fdmove dup2
  rw [if_neg (by omega), put_self]
  simp

/-- standard descriptors open -/
def std : Table := fun d => if d = 0 ∨ d = 1 ∨ d = 2 then some (.file d.toNat) else none

example : Free std 3 ∧ (coda_fdopen std 2 (some 3) (.file 7) true true).2 2 = some (.file 7) ∧ (coda_fdopen std 2 (some 3) (.file 7) true true).2 3 = none ∧
    (coda_fdopen std 2 (some 3) (.file 7) true true).1 = 2 := by
  refine ⟨⟨by omega, rfl⟩, ?_, ?_, ?_⟩ <;> decide

/-- C70: coda_listen.  It succeeds exactly if all its calls do; then it returns a new descriptor, a listening socket with the address,
and changes no other; otherwise it returns -1 and the table of descriptors is as before. -/
theorem C70_listen (t : Table) (e : ListenEnv) (addr port : Nat) (backlog nonblock : Int) (hnew : ∀ d, e.new = some d → Free t d) :
    let r := coda_listen t e addr port backlog nonblock
    (r.1 = -1 ∧ r.2 = t ∧ (e.new = none ∨ (nonblock ≠ 0 ∧ e.nonblkOk = false) ∨ e.reuseOk = false ∨ e.bindOk = false ∨ e.listenOk = false)) ∨
    (0 ≤ r.1 ∧ e.new = some r.1 ∧ (nonblock = 0 ∨ e.nonblkOk = true) ∧ e.reuseOk = true ∧ e.bindOk = true ∧ e.listenOk = true ∧
      r.2 = t.put r.1 (.sock { nonblk := decide (nonblock ≠ 0), reuse := true, bound := some (addr, port % 65536), backlog := some backlog })) := by
  obtain ⟨new, nb, re, bi, li, cl⟩ := e
  cases new with
  | none => exact .inl ⟨rfl, rfl, .inl rfl⟩
  | some sd =>
    obtain ⟨h0, hfree⟩ := hnew sd rfl
    simp only [coda_listen]
    by_cases hn : nonblock = 0
    · subst hn
      simp only [ne_eq, not_true_eq_false, false_and, if_false, sock_put, decide_false]
      cases re with
      | false => exact .inl ⟨rfl, close_put t sd _ _ hfree, .inr (.inr (.inl rfl))⟩
      | true =>
        cases bi with
        | false => exact .inl ⟨rfl, close_put t sd _ _ hfree, .inr (.inr (.inr (.inl rfl)))⟩
        | true =>
          cases li with
          | false => exact .inl ⟨rfl, close_put t sd _ _ hfree, .inr (.inr (.inr (.inr rfl)))⟩
          | true => exact .inr ⟨h0, rfl, .inl trivial, rfl, rfl, rfl, rfl⟩
    · simp only [ne_eq, hn, not_false_eq_true, true_and, if_true, sock_put, decide_true]
      cases nb with
      | false => exact .inl ⟨rfl, close_put t sd _ _ hfree, .inr (.inl rfl)⟩
      | true =>
        cases re with
        | false => exact .inl ⟨rfl, close_put t sd _ _ hfree, .inr (.inr (.inl rfl))⟩
        | true =>
          cases bi with
          | false => exact .inl ⟨rfl, close_put t sd _ _ hfree, .inr (.inr (.inr (.inl rfl)))⟩
          | true =>
            cases li with
            | false => exact .inl ⟨rfl, close_put t sd _ _ hfree, .inr (.inr (.inr (.inr rfl)))⟩
            | true => exact .inr ⟨h0, rfl, .inr rfl, rfl, rfl, rfl, rfl⟩

/-- C70: coda_accept. -/
theorem C70_accept (t : Table) (new : Option (Int × Nat × Nat)) (nonblkOk closeOk : Bool) (nonblock : Int) (ip : Nat)
    (hnew : ∀ d p, new = some (d, p) → Free t d) :
    let r := coda_accept t new nonblkOk closeOk nonblock ip
    (r.1 = -1 ∧ r.2 = (t, ip) ∧ (new = none ∨ nonblkOk = false)) ∨
    (0 ≤ r.1 ∧ nonblkOk = true ∧ ∃ p, new = some (r.1, p) ∧ r.2 = (t.put r.1 (.sock { nonblk := decide (nonblock ≠ 0), peer := some p }), p.1)) := by
  cases new with
  | none => exact .inl ⟨rfl, rfl, .inl rfl⟩
  | some x =>
    obtain ⟨sd, p⟩ := x
    obtain ⟨h0, hfree⟩ := hnew sd p rfl
    simp only [coda_accept, sock_put]
    cases nonblkOk with
    | false =>
      refine .inl ⟨rfl, ?_, .inr rfl⟩
      simp only [if_true]
      rw [close_put t sd _ _ hfree]
    | true => exact .inr ⟨h0, rfl, p, rfl, rfl⟩

/-- C70: coda_connect.  A connection in progress counts as success. -/
theorem C70_connect (t : Table) (new : Option Int) (nonblkOk closeOk : Bool) (conn : Conn) (addr port : Nat) (nonblock : Int)
    (hnew : ∀ d, new = some d → Free t d) :
    let r := coda_connect t new nonblkOk closeOk conn addr port nonblock
    (r.1 = -1 ∧ r.2 = t ∧ (new = none ∨ (nonblock ≠ 0 ∧ nonblkOk = false) ∨ conn = .error)) ∨
    (0 ≤ r.1 ∧ new = some r.1 ∧ (nonblock = 0 ∨ nonblkOk = true) ∧ conn ≠ .error ∧
      r.2 = t.put r.1 (.sock { nonblk := decide (nonblock ≠ 0), peer := some (addr, port % 65536) })) := by
  cases new with
  | none => exact .inl ⟨rfl, rfl, .inl rfl⟩
  | some sd =>
    obtain ⟨h0, hfree⟩ := hnew sd rfl
    simp only [coda_connect]
    by_cases hn : nonblock = 0
    · subst hn
      simp only [ne_eq, not_true_eq_false, false_and, if_false, sock_put, decide_false]
      by_cases hc : conn = .error
      · rw [if_pos hc]
        exact .inl ⟨rfl, close_put t sd _ _ hfree, .inr (.inr hc)⟩
      · rw [if_neg hc]
        exact .inr ⟨h0, rfl, .inl trivial, hc, rfl⟩
    · simp only [ne_eq, hn, not_false_eq_true, true_and, if_true, sock_put, decide_true]
      cases nonblkOk with
      | false => exact .inl ⟨rfl, close_put t sd _ _ hfree, .inr (.inl rfl)⟩
      | true =>
        simp only [Bool.true_eq_false, if_false]
        by_cases hc : conn = .error
        · rw [if_pos hc]
          exact .inl ⟨rfl, close_put t sd _ _ hfree, .inr (.inr hc)⟩
        · rw [if_neg hc]
          exact .inr ⟨h0, rfl, .inr trivial, hc, rfl⟩

example : (coda_listen std ⟨some 3, true, true, true, true, true⟩ 16777343 8080 128 1).1 = 3 ∧
    (coda_listen std ⟨some 3, true, true, true, true, true⟩ 16777343 8080 128 1).2 3 =
      some (.sock { nonblk := true, reuse := true, bound := some (16777343, 8080), backlog := some 128 }) := by decide

/-- C91 is false: the port number is cut to 16 bits: port 65616 is port 80. -/
theorem C91_refuted : (coda_listen std ⟨some 3, true, true, true, true, true⟩ 16777343 65616 128 0).2 3 =
      some (.sock { reuse := true, bound := some (16777343, 80), backlog := some 128 }) := by decide

/-- C91, partial: port numbers below 65536 are used as they are. -/
theorem C91_port_partial (t : Table) (e : ListenEnv) (addr port : Nat) (backlog nonblock : Int) (hnew : ∀ d, e.new = some d → Free t d)
    (hport : port < 65536) (hr : 0 ≤ (coda_listen t e addr port backlog nonblock).1) :
    ∃ s, (coda_listen t e addr port backlog nonblock).2 (coda_listen t e addr port backlog nonblock).1 = some (.sock s) ∧ s.bound = some (addr, port) := by
  rcases C70_listen t e addr port backlog nonblock hnew with ⟨h, _⟩ | ⟨_, _, _, _, _, _, h⟩
  · rw [h] at hr; exact absurd hr (by omega)
  · rw [h]
    exact ⟨_, put_self _ _ _, by rw [Nat.mod_eq_of_lt hport]⟩

/-- C91, partial: the same for coda_connect. -/
theorem C91_connect_partial (t : Table) (new : Option Int) (nonblkOk closeOk : Bool) (conn : Conn) (addr port : Nat) (nonblock : Int)
    (hnew : ∀ d, new = some d → Free t d) (hport : port < 65536) (hr : 0 ≤ (coda_connect t new nonblkOk closeOk conn addr port nonblock).1) :
    ∃ s, (coda_connect t new nonblkOk closeOk conn addr port nonblock).2 (coda_connect t new nonblkOk closeOk conn addr port nonblock).1 = some (.sock s) ∧
      s.peer = some (addr, port) := by
  rcases C70_connect t new nonblkOk closeOk conn addr port nonblock hnew with ⟨h, _⟩ | ⟨_, _, _, _, h⟩
  · rw [h] at hr; exact absurd hr (by omega)
  · rw [h]
    exact ⟨_, put_self _ _ _, by rw [Nat.mod_eq_of_lt hport]⟩

/-- C91 is false for all port numbers from 65536 on: coda_listen succeeds, but on another port, the number modulo 65536. -/
theorem C91_refuted_all (t : Table) (e : ListenEnv) (addr port : Nat) (backlog nonblock : Int) (hnew : ∀ d, e.new = some d → Free t d)
    (hport : 65536 ≤ port) (hr : 0 ≤ (coda_listen t e addr port backlog nonblock).1) :
    ∃ s p, (coda_listen t e addr port backlog nonblock).2 (coda_listen t e addr port backlog nonblock).1 = some (.sock s) ∧
      s.bound = some (addr, p) ∧ p = port % 65536 ∧ p ≠ port := by
  rcases C70_listen t e addr port backlog nonblock hnew with ⟨h, _⟩ | ⟨_, _, _, _, _, _, h⟩
  · rw [h] at hr; exact absurd hr (by omega)
  · rw [h]
    exact ⟨_, port % 65536, put_self _ _ _, rfl, rfl, by omega⟩

/-- C91 is false for all port numbers from 65536 on: coda_connect connects to another port. -/
theorem C91_connect_refuted_all (t : Table) (new : Option Int) (nonblkOk closeOk : Bool) (conn : Conn) (addr port : Nat) (nonblock : Int)
    (hnew : ∀ d, new = some d → Free t d) (hport : 65536 ≤ port) (hr : 0 ≤ (coda_connect t new nonblkOk closeOk conn addr port nonblock).1) :
    ∃ s p, (coda_connect t new nonblkOk closeOk conn addr port nonblock).2 (coda_connect t new nonblkOk closeOk conn addr port nonblock).1 = some (.sock s) ∧
      s.peer = some (addr, p) ∧ p = port % 65536 ∧ p ≠ port := by
  rcases C70_connect t new nonblkOk closeOk conn addr port nonblock hnew with ⟨h, _⟩ | ⟨_, _, _, _, h⟩
  · rw [h] at hr; exact absurd hr (by omega)
  · rw [h]
    exact ⟨_, port % 65536, put_self _ _ _, rfl, rfl, by omega⟩

/-! coda_mmap -/

theorem mmapTail_fds (w : World) (fd : Int) (file size : Nat) (e : MmapEnv) :
    (mmapTail w fd file size e).2.1.fds = (close w.fds fd e.closeOk).2 := by
  unfold mmapTail mmap
  by_cases h : size = 0 ∨ e.mmapOk = false
  · simp only [h, if_true]
  · simp only [h, if_false]

/-- C70: coda_mmap leaves the table of descriptors as it was, whether it succeeds or fails. -/
theorem C70_mmap (w : World) (area : Area) (write : Bool) (file : Option Nat) (e : MmapEnv) (hnew : ∀ d, e.new = some d → Free w.fds d) :
    (coda_mmap w area write file e).2.1.fds = w.fds := by
  unfold coda_mmap
  cases file with
  | none =>
    simp only [mmap]
    split <;> rfl
  | some f =>
    cases hn : e.new with
    | none => rfl
    | some fd =>
      obtain ⟨_, hfree⟩ := hnew fd hn
      simp only []
      split
      · split
        · exact close_put w.fds fd _ _ hfree
        · rw [mmapTail_fds]; exact close_put w.fds fd _ _ hfree
      · split
        · exact close_put w.fds fd _ _ hfree
        · rw [mmapTail_fds]; exact close_put w.fds fd _ _ hfree

theorem mmapTail_ok (w : World) (fd : Int) (file size : Nat) (e : MmapEnv) (h : (mmapTail w fd file size e).1 = 0) :
    0 < size ∧ (mmapTail w fd file size e).2.2 = ⟨size, some w.maps.length⟩ ∧
      (mmapTail w fd file size e).2.1.maps = w.maps ++ [(size, some file)] ∧ (mmapTail w fd file size e).2.1.size = w.size := by
  unfold mmapTail mmap at h ⊢
  by_cases hs : size = 0 ∨ e.mmapOk = false
  · rw [if_pos hs] at h
    exact absurd (show (-1 : Int) = 0 from h) (by omega)
  · rw [if_neg hs]
    exact ⟨by omega, rfl, rfl, rfl⟩

theorem mmap_noopen (w : World) (area : Area) (write : Bool) (f : Nat) (e : MmapEnv) (hn : e.new = none) :
    coda_mmap w area write (some f) e = (-1, w, area) := by
  unfold coda_mmap; rw [hn]

theorem mmap_notrunc (w : World) (area : Area) (write : Bool) (f : Nat) (e : MmapEnv) (fd : Int) (hn : e.new = some fd)
    (ha : area.size ≠ 0) (hb : write = false ∨ e.truncOk = false) :
    coda_mmap w area write (some f) e = (-1, { w with fds := (close (w.fds.put fd (.file f)) fd e.closeOk).2 }, area) := by
  unfold coda_mmap; rw [hn]; simp only []; rw [if_pos ha, if_pos hb]

theorem mmap_trunc (w : World) (area : Area) (write : Bool) (f : Nat) (e : MmapEnv) (fd : Int) (hn : e.new = some fd)
    (ha : area.size ≠ 0) (hb : ¬ (write = false ∨ e.truncOk = false)) :
    coda_mmap w area write (some f) e =
      mmapTail { w with fds := w.fds.put fd (.file f), size := fun g => if g = f then area.size else w.size g } fd f area.size e := by
  unfold coda_mmap; rw [hn]; simp only []; rw [if_pos ha, if_neg hb]

theorem mmap_nostat (w : World) (area : Area) (write : Bool) (f : Nat) (e : MmapEnv) (fd : Int) (hn : e.new = some fd)
    (ha : ¬ area.size ≠ 0) (hb : e.statOk = false) :
    coda_mmap w area write (some f) e = (-1, { w with fds := (close (w.fds.put fd (.file f)) fd e.closeOk).2 }, area) := by
  unfold coda_mmap; rw [hn]; simp only []; rw [if_neg ha, if_pos hb]

theorem mmap_stat (w : World) (area : Area) (write : Bool) (f : Nat) (e : MmapEnv) (fd : Int) (hn : e.new = some fd)
    (ha : ¬ area.size ≠ 0) (hb : ¬ e.statOk = false) :
    coda_mmap w area write (some f) e = mmapTail { w with fds := w.fds.put fd (.file f) } fd f (w.size f) e := by
  unfold coda_mmap; rw [hn]; simp only []; rw [if_neg ha, if_neg hb]

/-- C90, partial: after a success there is exactly one new mapping, of the whole area and of the file; the file has exactly the size of the
area, which is what was asked for, or the size that the file had if 0 was asked for; no other file changes. -/
theorem C90_mmap_partial (w : World) (area : Area) (write : Bool) (f : Nat) (e : MmapEnv)
    (h : (coda_mmap w area write (some f) e).1 = 0) :
    let r := coda_mmap w area write (some f) e
    0 < r.2.2.size ∧ r.2.2.size = (if area.size = 0 then w.size f else area.size) ∧ r.2.2.data = some w.maps.length ∧
    r.2.1.maps = w.maps ++ [(r.2.2.size, some f)] ∧ r.2.1.size f = r.2.2.size ∧ ∀ g, g ≠ f → r.2.1.size g = w.size g := by
  have no : ¬ ((-1 : Int) = 0) := by omega
  cases hn : e.new with
  | none => rw [mmap_noopen w area write f e hn] at h; exact absurd h no
  | some fd =>
    by_cases ha : area.size ≠ 0
    · by_cases hb : write = false ∨ e.truncOk = false
      · rw [mmap_notrunc w area write f e fd hn ha hb] at h; exact absurd h no
      · rw [mmap_trunc w area write f e fd hn ha hb] at h ⊢
        obtain ⟨h1, h2, h3, h4⟩ := mmapTail_ok _ fd f area.size e h
        simp only []
        rw [h2, h3, h4, if_neg ha]
        refine ⟨h1, rfl, rfl, rfl, ?_, ?_⟩
        · simp
        · intro g hg; simp [hg]
    · by_cases hb : e.statOk = false
      · rw [mmap_nostat w area write f e fd hn ha hb] at h; exact absurd h no
      · rw [mmap_stat w area write f e fd hn ha hb] at h ⊢
        obtain ⟨h1, h2, h3, h4⟩ := mmapTail_ok _ fd f (w.size f) e h
        simp only []
        rw [h2, h3, h4, if_pos (by omega)]
        exact ⟨h1, rfl, rfl, rfl, rfl, fun g _ => rfl⟩

/-- C90: coda_mmap_file (reading, size 0 asked for) of a file that is not empty succeeds if no call fails. -/
theorem C90_mmap_file (w : World) (d : Option Nat) (f : Nat) (fd : Int) (hs : 0 < w.size f) :
    (coda_mmap w ⟨0, d⟩ false (some f) ⟨some fd, true, true, true, true⟩).1 = 0 := by
  have hz : ¬ w.size f = 0 := by omega
  simp [coda_mmap, mmapTail, mmap, close, put_self, hz]

/-- C90 is false: if close fails, -1 is returned but the mapping stays. -/
theorem C90_refuted (w : World) (d : Option Nat) (f : Nat) (fd : Int) (hs : 0 < w.size f) :
    (coda_mmap w ⟨0, d⟩ false (some f) ⟨some fd, true, true, true, false⟩).1 = -1 ∧
    (coda_mmap w ⟨0, d⟩ false (some f) ⟨some fd, true, true, true, false⟩).2.1.maps = w.maps ++ [(w.size f, some f)] := by
  have hz : ¬ w.size f = 0 := by omega
  simp [coda_mmap, mmapTail, mmap, close, put_self, hz]

/-- C90: a failure leaves no mapping, unless it is that of the last close. -/
theorem C90_failure (w : World) (area : Area) (write : Bool) (file : Option Nat) (e : MmapEnv) (hc : e.closeOk = true)
    (h : (coda_mmap w area write file e).1 ≠ 0) : (coda_mmap w area write file e).2.1.maps = w.maps := by
  have tail : ∀ (w : World) (fd : Int) (f size : Nat) (o : Obj), w.fds fd = some o → (mmapTail w fd f size e).1 ≠ 0 → (mmapTail w fd f size e).2.1.maps = w.maps := by
    intro w fd f size o ho h
    unfold mmapTail mmap at h ⊢
    by_cases hs : size = 0 ∨ e.mmapOk = false
    · simp only [hs, if_true]
    · simp only [hs, if_false, close, ho, hc, if_true] at h
      exact absurd rfl h
  cases file with
  | none =>
    unfold coda_mmap mmap at h ⊢
    by_cases hs : area.size = 0 ∨ e.mmapOk = false
    · simp only [hs, if_true]
    · simp only [hs, if_false] at h
      exact absurd rfl h
  | some f =>
    cases hn : e.new with
    | none => rw [mmap_noopen w area write f e hn]
    | some fd =>
      by_cases ha : area.size ≠ 0
      · by_cases hb : write = false ∨ e.truncOk = false
        · rw [mmap_notrunc w area write f e fd hn ha hb]
        · rw [mmap_trunc w area write f e fd hn ha hb] at h ⊢
          exact tail _ fd f _ (.file f) (put_self _ _ _) h
      · by_cases hb : e.statOk = false
        · rw [mmap_nostat w area write f e fd hn ha hb]
        · rw [mmap_stat w area write f e fd hn ha hb] at h ⊢
          exact tail _ fd f _ (.file f) (put_self _ _ _) h

/-- C90: for reading only, a size can never be asked for: the call fails for every file and whatever the system does. -/
theorem C90_readonly_size (w : World) (n : Nat) (d : Option Nat) (f : Nat) (e : MmapEnv) (hn : n ≠ 0) :
    (coda_mmap w ⟨n, d⟩ false (some f) e).1 = -1 := by
  unfold coda_mmap
  cases he : e.new with
  | none => rfl
  | some fd => simp [hn]

/-- C90: an empty file cannot be mapped. -/
theorem C90_empty_file (w : World) (d : Option Nat) (write : Bool) (f : Nat) (e : MmapEnv) (hs : w.size f = 0) :
    (coda_mmap w ⟨0, d⟩ write (some f) e).1 = -1 := by
  unfold coda_mmap
  cases he : e.new with
  | none => rfl
  | some fd =>
    simp only [ne_eq, not_true_eq_false, if_false]
    split
    · rfl
    · simp [mmapTail, mmap, hs]

example : (coda_mmap ⟨std, fun _ => 100, []⟩ ⟨0, none⟩ false (some 5) ⟨some 3, true, true, true, true⟩).2.2 = ⟨100, some 0⟩ := by decide
example : (coda_mmap ⟨std, fun _ => 100, []⟩ ⟨40, none⟩ true (some 5) ⟨some 3, true, true, true, true⟩).2.1.size 5 = 40 := by decide

/-! coda_random_init -/

/-- C88, partial: if reading works, the first call seeds with the four bytes read, later calls do nothing; no descriptor stays open.
Missing: `C88_refuted`, `C88_short`. -/
theorem C88_random_partial (t : Table) (r : Rand) (e : RandomEnv) (hnew : ∀ d, e.new = some d → Free t d)
    (b : List UInt8) (hread : e.read = some b) (hlen : b.length = 4) :
    let x := coda_random_init t r e
    x.2.1 = t ∧ (r.inited = true → x.1 = 0 ∧ x.2.2 = r) ∧
    (r.inited = false → e.new = none → x.1 = -1 ∧ x.2.2 = r) ∧
    (r.inited = false → e.new ≠ none → x.1 = 0 ∧ x.2.2 = ⟨true, some (b.map some)⟩) := by
  obtain ⟨inited, seed⟩ := r
  obtain ⟨new, read, cl⟩ := e
  simp only at hread hnew
  subst hread
  unfold coda_random_init
  cases inited with
  | true => exact ⟨rfl, fun _ => ⟨rfl, rfl⟩, fun h => absurd h (by simp), fun h => absurd h (by simp)⟩
  | false =>
    cases new with
    | none => exact ⟨rfl, fun h => absurd h (by simp), fun _ _ => ⟨rfl, rfl⟩, fun _ h => absurd rfl h⟩
    | some fd =>
      obtain ⟨_, hfree⟩ := hnew fd rfl
      have hb : (b.take 4) = b := List.take_of_length_le (by omega)
      refine ⟨?_, fun h => absurd h (by simp), fun _ h => absurd h (by simp), fun _ _ => ⟨rfl, ?_⟩⟩
      · exact close_put t fd _ _ hfree
      · simp [hb, hlen]

/-- C88 is false: if read fails, the descriptor stays open – one more with every call. -/
theorem C88_refuted (t : Table) (s : Option (List (Option UInt8))) (fd : Int) (closeOk : Bool) :
    coda_random_init t ⟨false, s⟩ ⟨some fd, none, closeOk⟩ = (-1, t.put fd .urandom, ⟨false, s⟩) := rfl

/-- C88 is false: if fewer than four bytes are read, srandom is called with an indeterminate value and 0 is returned. -/
theorem C88_short : (coda_random_init std ⟨false, none⟩ ⟨some 3, some [], true⟩).1 = 0 ∧
    (coda_random_init std ⟨false, none⟩ ⟨some 3, some [], true⟩).2.2.seed = some [none, none, none, none] := by decide

/-- C88 is false whenever fewer than four bytes are read: 0 is returned and nothing is read again later, but what srandom is given has indeterminate
bytes, one for every byte missing. -/
theorem C88_short_all (t : Table) (s : Option (List (Option UInt8))) (fd : Int) (closeOk : Bool) (b : List UInt8) (hb : b.length < 4) :
    (coda_random_init t ⟨false, s⟩ ⟨some fd, some b, closeOk⟩).1 = 0 ∧
    (coda_random_init t ⟨false, s⟩ ⟨some fd, some b, closeOk⟩).2.2 = ⟨true, some (b.map some ++ List.replicate (4 - b.length) none)⟩ ∧
    none ∈ b.map some ++ List.replicate (4 - b.length) (none : Option UInt8) := by
  have ht : b.take 4 = b := List.take_of_length_le (by omega)
  refine ⟨rfl, ?_, ?_⟩
  · simp only [coda_random_init, ht]; rfl
  · rw [List.mem_append, List.mem_replicate]
    exact Or.inr ⟨by omega, rfl⟩

/-! coda_daemon_fork -/

/-- C89, partial: if the daemonised process goes on successfully, its standard input and output are /dev/null, and every other descriptor
is as before – except that /dev/null is standard error if that was closed.  Missing: failures (`C89_refuted`). -/
theorem C89_daemon_partial (t : Table) (e : DaemonEnv) (hnew : ∀ d, e.null = some d → Free t d) (t' : Table)
    (h : coda_daemon_fork t e = .ret 0 t') :
    t' 0 = some .null ∧ t' 1 = some .null ∧ (∀ d, d ≠ 0 → d ≠ 1 → d ≠ 2 → t' d = t d) ∧ (t' 2 = t 2 ∨ (t 2 = none ∧ e.null = some 2 ∧ t' 2 = some .null)) := by
  obtain ⟨fk, si, nu, d0, d1, cl⟩ := e
  unfold coda_daemon_fork at h
  cases fk with
  | error => simp at h
  | parent => simp at h
  | child =>
    cases si with
    | false => simp at h
    | true =>
      cases nu with
      | none => simp at h
      | some fd =>
        obtain ⟨hge, hfree⟩ := hnew fd rfl
        cases d0 with
        | false => simp [dup2, put_self] at h
        | true =>
          have hq : ((t.put fd .null).put 0 .null) fd = some .null := by
            unfold Table.put
            by_cases hz : fd = 0
            · rw [if_pos hz]
            · rw [if_neg hz, if_pos rfl]
          cases d1 with
          | false => simp [dup2, put_self, hq] at h
          | true =>
            have hq1 : (((t.put fd .null).put 0 .null).put 1 .null) fd = some .null := by
              unfold Table.put
              by_cases hz : fd = 1
              · rw [if_pos hz]
              · rw [if_neg hz]
                exact hq
            by_cases hfd : fd > 2
            · cases cl with
              | false => simp [dup2, put_self, hq, hq1, hfd, close] at h
              | true =>
                simp [dup2, put_self, hq, hq1, hfd, close] at h
                subst h
                refine ⟨?_, ?_, ?_, .inl ?_⟩
                · simp [Table.drop, Table.put]; omega
                · simp [Table.drop, Table.put]; omega
                · intro d h0 h1 h2
                  by_cases he : d = fd
                  · simp [Table.drop, he, hfree]
                  · simp [Table.drop, Table.put, he, h0, h1]
                · have he : ¬ (2 : Int) = fd := by omega
                  simp [Table.drop, Table.put, he]
            · simp [dup2, put_self, hq, hq1, hfd, close] at h
              subst h
              refine ⟨?_, ?_, ?_, ?_⟩
              · simp [Table.put]
              · simp [Table.put]
              · intro d h0 h1 h2
                have he : ¬ d = fd := by omega
                simp [Table.put, he, h0, h1]
              · by_cases he : fd = 2
                · subst he
                  exact .inr ⟨hfree, rfl, by simp [Table.put]⟩
                · have he' : ¬ (2 : Int) = fd := fun x => he x.symm
                  exact .inl (by simp [Table.put, he'])

/-- C89: the parent never returns from coda_daemon_fork; a failure to fork or to start a session changes no descriptor. -/
theorem C89_parent (t : Table) (e : DaemonEnv) :
    (e.fork = .parent → coda_daemon_fork t e = .exited) ∧ (e.fork = .error → coda_daemon_fork t e = .ret (-1) t) ∧
    (e.fork = .child → e.setsidOk = false → coda_daemon_fork t e = .ret (-1) t) := by
  refine ⟨?_, ?_, ?_⟩
  · intro h; unfold coda_daemon_fork; rw [h]
  · intro h; unfold coda_daemon_fork; rw [h]
  · intro h h2; unfold coda_daemon_fork; rw [h]; simp [h2]

/-- C89 is false: if dup2 fails, the descriptor of /dev/null stays open. -/
theorem C89_refuted : ∃ t', coda_daemon_fork std ⟨.child, true, some 3, false, true, true⟩ = .ret (-1) t' ∧ std 3 = none ∧ t' 3 = some .null :=
  ⟨_, rfl, by decide, by decide⟩

/-- C89 is false whatever is open: if one of the two calls of dup2 fails, the descriptor that open gave for
/dev/null stays open. -/
theorem C89_refuted_all (t : Table) (e : DaemonEnv) (fd : Int) (hf : e.fork = .child) (hs : e.setsidOk = true) (hn : e.null = some fd)
    (hfree : Free t fd) (hd : e.dup0Ok = false ∨ e.dup1Ok = false) :
    ∃ t', coda_daemon_fork t e = .ret (-1) t' ∧ t fd = none ∧ t' fd = some .null := by
  have h0 : (t.put fd .null) fd = some .null := put_self _ _ _
  unfold coda_daemon_fork
  rw [hf]
  simp only [hs, hn]
  rw [if_neg (by simp)]
  cases h1 : e.dup0Ok with
  | false =>
    have hdup : dup2 (t.put fd .null) fd 0 false = (-1, t.put fd .null) := by unfold dup2; rw [h0]; rfl
    simp only [hdup]
    exact ⟨_, if_pos (by omega), hfree.2, h0⟩
  | true =>
    have h2 : e.dup1Ok = false := by rcases hd with h | h; exact absurd h (by simp [h1]); exact h
    have hdup : dup2 (t.put fd .null) fd 0 true = (0, (t.put fd .null).put 0 .null) := by unfold dup2; rw [h0]; rfl
    have h3 : ((t.put fd .null).put 0 .null) fd = some .null := by
      unfold Table.put; by_cases hz : fd = 0 <;> simp [hz]
    have hdup1 : dup2 ((t.put fd .null).put 0 .null) fd 1 false = (-1, (t.put fd .null).put 0 .null) := by unfold dup2; rw [h3]; rfl
    simp only [hdup, h2, hdup1]
    rw [if_neg (by omega)]
    exact ⟨_, if_pos (by omega), hfree.2, h3⟩

example : Free std 3 := by unfold Free; decide

example : ∃ t', coda_daemon_fork std ⟨.child, true, some 3, true, true, true⟩ = .ret 0 t' ∧ t' 0 = some .null ∧ t' 3 = none ∧ t' 2 = some (.file 2) :=
  ⟨_, rfl, by decide, by decide, by decide⟩

/-- C89: coda_daemon_fork returns 0 or -1 or not at all. -/
theorem C89_values (t : Table) (e : DaemonEnv) : (∃ t', coda_daemon_fork t e = .ret 0 t' ∨ coda_daemon_fork t e = .ret (-1) t') ∨ coda_daemon_fork t e = .exited := by
  unfold coda_daemon_fork
  split
  · exact Or.inl ⟨_, Or.inr rfl⟩
  · exact Or.inr rfl
  · split
    · exact Or.inl ⟨_, Or.inr rfl⟩
    · split
      · exact Or.inl ⟨_, Or.inr rfl⟩
      · dsimp only
        split
        · exact Or.inl ⟨_, Or.inr rfl⟩
        · split
          · exact Or.inl ⟨_, Or.inr rfl⟩
          · split
            · split
              · exact Or.inl ⟨_, Or.inr rfl⟩
              · exact Or.inl ⟨_, Or.inl rfl⟩
            · exact Or.inl ⟨_, Or.inl rfl⟩

theorem mmapTail_values (w : World) (fd : Int) (file size : Nat) (e : MmapEnv) : (mmapTail w fd file size e).1 = 0 ∨ (mmapTail w fd file size e).1 = -1 := by
  unfold mmapTail
  dsimp only
  split
  · exact Or.inr rfl
  · dsimp only
    split
    · exact Or.inr rfl
    · exact Or.inl rfl

/-- C90: coda_mmap returns 0 or -1. -/
theorem C90_values (w : World) (area : Area) (write : Bool) (file : Option Nat) (e : MmapEnv) : (coda_mmap w area write file e).1 = 0 ∨ (coda_mmap w area write file e).1 = -1 := by
  unfold coda_mmap
  split
  · dsimp only
    split
    · exact Or.inr rfl
    · exact Or.inl rfl
  · split
    · exact Or.inr rfl
    · dsimp only
      split
      · split
        · exact Or.inr rfl
        · exact mmapTail_values _ _ _ _ _
      · split
        · exact Or.inr rfl
        · exact mmapTail_values _ _ _ _ _

end Verif.Fd
