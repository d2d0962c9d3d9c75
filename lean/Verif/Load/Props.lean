/-
  C124: coda_daemon_load; C125: log_die.
-/
import Verif.Load.Model
import Verif.Daemon.Props
import Verif.Fd.Props

namespace Verif.Load

open Daemon (Getopt Proc coda_signal_init deliverAll flagSignals quiet)
open Fd (Table coda_daemon_fork Free)

/-! C124 -/

theorem writePid_ok {opt : Getopt} {e : Env} {pid q : Nat} {p p' : Proc} {t t' : Table} {file f' : Option (List UInt8)}
    (h : writePid opt e pid p t file = (.ret q 0 p' t', f')) :
    q = pid ∧ p' = p ∧ t' = t ∧ (opt.pid ≠ none → f' = some (Pidfile.text pid)) ∧ (opt.pid = none → f' = file) := by
  unfold writePid at h
  cases ho : opt.pid with
  | none =>
    rw [ho] at h
    injection h with h1 h2
    injection h1 with a b c d
    exact ⟨a.symm, c.symm, d.symm, fun h => absurd rfl h, fun _ => h2.symm⟩
  | some x =>
    rw [ho] at h
    simp only [] at h
    unfold coda_mkpidf at h
    by_cases hk : e.pidOk = false
    · rw [if_pos hk, if_pos (show (0 : Int) > -1 by decide)] at h
      injection h with h1 _
      injection h1 with _ h3
      exact absurd h3 (by decide)
    · rw [if_neg hk] at h
      match file with
      | some (c :: r) =>
        simp only [] at h
        rw [if_pos (by decide)] at h
        injection h with h1 _
        injection h1 with _ h3
        exact absurd h3 (by decide)
      | none =>
        simp only [] at h
        rw [if_neg (by decide)] at h
        injection h with h1 h2
        injection h1 with a b c d
        exact ⟨a.symm, c.symm, d.symm, fun _ => h2.symm, fun h => by cases h⟩
      | some [] =>
        simp only [] at h
        rw [if_neg (by decide)] at h
        injection h with h1 h2
        injection h1 with a b c d
        exact ⟨a.symm, c.symm, d.symm, fun _ => h2.symm, fun h => by cases h⟩

theorem afterFork_ok {opt : Getopt} {e : Env} {pid q : Nat} {p p' : Proc} {t' : Table} {f : Fd.Forked} {file f' : Option (List UInt8)}
    (h : afterFork opt e pid p f file = (.ret q 0 p' t', f')) :
    q = pid ∧ p' = p ∧ (∃ r, ¬ 0 > r ∧ f = .ret r t') ∧ (opt.pid ≠ none → f' = some (Pidfile.text pid)) ∧ (opt.pid = none → f' = file) := by
  unfold afterFork at h
  cases f with
  | exited =>
    simp only [] at h
    injection h with h1 _
    cases h1
  | ret r t =>
    simp only [] at h
    by_cases hr : 0 > r
    · rw [if_pos hr] at h
      injection h with h1 _
      injection h1 with _ h3
      exact absurd h3 (by decide)
    · rw [if_neg hr] at h
      obtain ⟨a, b, c, d, e⟩ := writePid_ok h
      exact ⟨a, b, ⟨r, hr, by rw [c]⟩, d, e⟩

theorem fork_ret {t t' : Table} {e : Fd.DaemonEnv} {r : Int} (h : coda_daemon_fork t e = .ret r t') : r = 0 ∨ r = -1 := by
  rcases Fd.C89_values t e with ⟨t1, h1 | h1⟩ | h1
  · rw [h] at h1; injection h1 with h1 _; exact Or.inl h1
  · rw [h] at h1; injection h1 with h1 _; exact Or.inr h1
  · rw [h] at h1; cases h1

/-- **C124, first part.**  Where coda_daemon_load returns 0, everything is in place: the process is the one in the background if that was asked for,
its standard input and output are then /dev/null; the pid file holds the number of this very process; and none of the listed signals ends it. -/
theorem C124_loaded_partial (opt : Getopt) (e : Env) (pid : Nat) (p : Proc) (t : Table) (file : Option (List UInt8))
    (hnew : ∀ d, e.null = some d → Free t d) (q : Nat) (p' : Proc) (t' : Table)
    (h : .ret q 0 p' t' ∈ (coda_daemon_load opt e pid p t file).1) :
    (opt.daemon = true → e.fork = some q ∧ t' 0 = some .null ∧ t' 1 = some .null) ∧ (opt.daemon = false → q = pid ∧ t' = t) ∧
    (opt.pid ≠ none → (coda_daemon_load opt e pid p t file).2 = some (Pidfile.text q)) ∧
    (opt.pid = none → (coda_daemon_load opt e pid p t file).2 = file) ∧
    (∀ l : List Nat, (∀ s ∈ l, s ∈ flagSignals .terminate ++ flagSignals .changecfg ++ flagSignals .rotatelog ++ flagSignals .changebin ++ quiet) →
      ∃ r, deliverAll p' l = some r) := by
  unfold coda_daemon_load at h ⊢
  simp only [] at h ⊢
  by_cases hs : 0 > (coda_signal_init e.sig p).1
  · rw [if_pos hs] at h
    simp only [List.mem_singleton] at h
    injection h with _ h2
    exact absurd h2 (by decide)
  rw [if_neg hs] at h ⊢
  have hsig : (coda_signal_init e.sig p).1 = 0 := by
    have gen : ∀ (l : List (Nat × Daemon.Hand)) (p : Proc), (Daemon.install e.sig l p).1 = 0 ∨ (Daemon.install e.sig l p).1 = -1 := by
      intro l
      induction l with
      | nil => intro p; exact Or.inl rfl
      | cons x l ih =>
        intro p
        obtain ⟨n, hd⟩ := x
        show (if e.sig n = false then ((-1 : Int), p) else _).1 = 0 ∨ (if e.sig n = false then ((-1 : Int), p) else _).1 = -1
        by_cases hn : e.sig n = false
        · rw [if_pos hn]; exact Or.inr rfl
        · rw [if_neg hn]; exact ih _
    rcases gen Daemon.sigList p with h0 | h0
    · exact h0
    · exact absurd (show (0 : Int) > (Daemon.install e.sig Daemon.sigList p).1 by rw [h0]; decide) hs
  have hdel : ∀ l : List Nat, (∀ s ∈ l, s ∈ flagSignals .terminate ++ flagSignals .changecfg ++ flagSignals .rotatelog ++ flagSignals .changebin ++ quiet) →
      ∃ r, deliverAll (coda_signal_init e.sig p).2 l = some r := by
    intro l hl
    obtain ⟨r, h1, _⟩ := Daemon.C93_flags e.sig p hsig l hl
    exact ⟨r, h1⟩
  by_cases hd : opt.daemon = true
  · rw [if_pos hd] at h ⊢
    cases hf : e.fork with
    | none =>
      rw [hf] at h
      simp only [List.mem_singleton] at h ⊢
      obtain ⟨_, _, ⟨r, hr, g⟩, _⟩ := afterFork_ok (Prod.ext_iff.mpr ⟨h.symm, rfl⟩)
      unfold coda_daemon_fork Env.daemon at g
      simp only [] at g
      injection g with g _
      rw [← g] at hr
      exact absurd (by decide) hr
    | some kid =>
      rw [hf] at h
      simp only [List.mem_cons, List.not_mem_nil, or_false] at h ⊢
      rcases h with h | h
      · obtain ⟨_, _, ⟨r, _, g⟩, _⟩ := afterFork_ok (Prod.ext_iff.mpr ⟨h.symm, rfl⟩)
        unfold coda_daemon_fork Env.daemon at g
        simp only [] at g
        cases g
      · obtain ⟨a, b, ⟨r, hr, g⟩, c, d⟩ := afterFork_ok (Prod.ext_iff.mpr ⟨h.symm, rfl⟩)
        have hr0 : r = 0 := by rcases fork_ret g with h0 | h0 <;> omega
        rw [hr0] at g
        obtain ⟨g1, g2, _⟩ := Fd.C89_daemon_partial t (e.daemon .child) hnew t' g
        subst a; subst b
        refine ⟨fun _ => ⟨rfl, g1, g2⟩, fun hn => ?_, c, ?_, hdel⟩
        · rw [hd] at hn; cases hn
        · intro hp
          exact d hp
  · rw [if_neg hd] at h ⊢
    simp only [List.mem_singleton] at h ⊢
    obtain ⟨a, b, c, d, f⟩ := writePid_ok (Prod.ext_iff.mpr ⟨h.symm, rfl⟩)
    subst a; subst b; subst c
    exact ⟨fun hn => absurd hn hd, fun _ => ⟨rfl, rfl⟩, d, f, hdel⟩

/-- Standard descriptors on a terminal. -/
def term : Table := fun d => if 0 ≤ d ∧ d ≤ 2 then some (.file 7) else none

def fine (kid : Nat) : Env := ⟨fun _ => true, some kid, true, some 3, true, true, true, true⟩

example : (coda_daemon_load { pid := some [47, 112], daemon := true } (fine 42) 41 Daemon.initProc term none).2 = some (Pidfile.text 42) := by
  rfl

example : ∃ p t, End.ret 42 0 p t ∈ (coda_daemon_load { pid := some [47, 112], daemon := true } (fine 42) 41 Daemon.initProc term none).1 :=
  ⟨_, _, List.mem_cons_of_mem _ (List.mem_cons_self ..)⟩

theorem writePid_ends (opt : Getopt) (e : Env) (pid : Nat) (p : Proc) (t : Table) (file : Option (List UInt8)) :
    ∃ r, (writePid opt e pid p t file).1 = .ret pid r p t ∧ (r = 0 ∨ r = -1) := by
  unfold writePid
  cases opt.pid with
  | none => exact ⟨0, rfl, Or.inl rfl⟩
  | some x =>
    simp only []
    split
    · exact ⟨-1, rfl, Or.inr rfl⟩
    · exact ⟨0, rfl, Or.inl rfl⟩

theorem afterFork_ends (opt : Getopt) (e : Env) (pid : Nat) (p : Proc) (f : Fd.Forked) (file : Option (List UInt8)) :
    (f = .exited ∧ (afterFork opt e pid p f file) = (.exit pid 0, file)) ∨ ∃ r t, (afterFork opt e pid p f file).1 = .ret pid r p t ∧ (r = 0 ∨ r = -1) := by
  cases f with
  | exited => exact Or.inl ⟨rfl, rfl⟩
  | ret r t =>
    simp only [afterFork]
    split
    · exact Or.inr ⟨-1, t, rfl, Or.inr rfl⟩
    · obtain ⟨r, h1, h2⟩ := writePid_ends opt e pid p t file
      exact Or.inr ⟨r, t, h1, h2⟩

theorem fork_child {t : Table} {e : Fd.DaemonEnv} (he : e.fork = .child) (h : coda_daemon_fork t e = .exited) : False := by
  unfold coda_daemon_fork at h
  rw [he] at h
  simp only at h
  by_cases h1 : e.setsidOk = false
  · rw [if_pos h1] at h; exact Fd.Forked.noConfusion h
  · rw [if_neg h1] at h
    cases hn : e.null with
    | none => rw [hn] at h; exact Fd.Forked.noConfusion h
    | some fd =>
      rw [hn] at h
      simp only at h
      by_cases h2 : 0 > (Fd.dup2 (t.put fd .null) fd 0 e.dup0Ok).1
      · rw [if_pos h2] at h; exact Fd.Forked.noConfusion h
      · rw [if_neg h2] at h
        by_cases h3 : 0 > (Fd.dup2 (Fd.dup2 (t.put fd .null) fd 0 e.dup0Ok).2 fd 1 e.dup1Ok).1
        · rw [if_pos h3] at h; exact Fd.Forked.noConfusion h
        · rw [if_neg h3] at h
          by_cases h4 : fd > 2
          · rw [if_pos h4] at h
            by_cases h5 : 0 > (Fd.close (Fd.dup2 (Fd.dup2 (t.put fd .null) fd 0 e.dup0Ok).2 fd 1 e.dup1Ok).2 fd e.closeOk).1
            · rw [if_pos h5] at h; exact Fd.Forked.noConfusion h
            · rw [if_neg h5] at h; exact Fd.Forked.noConfusion h
          · rw [if_neg h4] at h; exact Fd.Forked.noConfusion h

/-- **C124: the results.**  coda_daemon_load returns 0 or -1 in the process that called it or in the new one, and ends no other than the process that called
it, with status 0; that only if there is a new one. -/
theorem C124_results_partial (opt : Getopt) (e : Env) (pid : Nat) (p : Proc) (t : Table) (file : Option (List UInt8)) :
    (∀ q r p' t', .ret q r p' t' ∈ (coda_daemon_load opt e pid p t file).1 → (r = 0 ∨ r = -1) ∧ (q = pid ∨ e.fork = some q)) ∧
    ∀ q s, .exit q s ∈ (coda_daemon_load opt e pid p t file).1 → q = pid ∧ s = 0 ∧ ∃ kid r p' t', e.fork = some kid ∧ .ret kid r p' t' ∈ (coda_daemon_load opt e pid p t file).1 := by
  unfold coda_daemon_load
  simp only []
  split
  · simp only [List.mem_singleton]
    refine ⟨fun q r p' t' h => ?_, fun q s h => by cases h⟩
    injection h with h1 h2 _ _
    subst h1; subst h2
    exact ⟨Or.inr rfl, Or.inl rfl⟩
  · split
    · cases hf : e.fork with
      | none =>
        simp only [List.mem_singleton]
        rcases afterFork_ends opt e pid (coda_signal_init e.sig p).2 (coda_daemon_fork t (e.daemon .error)) file with ⟨h, _⟩ | ⟨r, t1, h1, h2⟩
        · cases h
        · rw [h1]
          refine ⟨fun q r p' t' h => ?_, fun q s h => by cases h⟩
          injection h with h1 h3 _ _
          subst h1; subst h3
          exact ⟨h2, Or.inl rfl⟩
      | some kid =>
        simp only []
        have hp : afterFork opt e pid (coda_signal_init e.sig p).2 (coda_daemon_fork t (e.daemon .parent)) file = (.exit pid 0, file) := rfl
        rw [hp]
        simp only [List.mem_cons, List.not_mem_nil, or_false]
        rcases afterFork_ends opt e kid (coda_signal_init e.sig p).2 (coda_daemon_fork t (e.daemon .child)) file with ⟨h, _⟩ | ⟨r, t1, h1, h2⟩
        · exact (fork_child rfl h).elim
        · rw [h1]
          refine ⟨fun q r p' t' h => ?_, fun q s h => ?_⟩
          · rcases h with h | h
            · cases h
            · injection h with h1 h3 _ _
              subst h1; subst h3
              exact ⟨h2, Or.inr rfl⟩
          · rcases h with h | h
            · injection h with h3 h4
              exact ⟨h3, h4, kid, r, _, t1, rfl, Or.inr rfl⟩
            · cases h
    · simp only [List.mem_singleton]
      obtain ⟨r, h1, h2⟩ := writePid_ends opt e pid (coda_signal_init e.sig p).2 t file
      rw [h1]
      refine ⟨fun q r p' t' h => ?_, fun q s h => by cases h⟩
      injection h with h1 h3 _ _
      subst h1; subst h3
      exact ⟨h2, Or.inl rfl⟩

theorem install_all (ok : Nat → Bool) (h : ∀ n, ok n = true) : ∀ (l : List (Nat × Daemon.Hand)) (p : Proc), (Daemon.install ok l p).1 = 0
  | [], _ => rfl
  | (n, _) :: r, p => by
    rw [Daemon.install, if_neg (by rw [h n]; decide)]
    exact install_all ok h r _

/-- **C124: it comes up.**  If all system calls work, and the pid file is not there or empty, or none was asked for, coda_daemon_load returns 0: in the
process that called it, or in the new one if a daemon was asked for. -/
theorem C124_comes_up_partial (opt : Getopt) (e : Env) (pid kid : Nat) (p : Proc) (t : Table) (file : Option (List UInt8)) (d : Int) (hsig : ∀ n, e.sig n = true) (hfork : e.fork = some kid)
    (hsid : e.setsidOk = true) (hnull : e.null = some d) (hd : 0 ≤ d) (h0 : e.dup0Ok = true) (h1 : e.dup1Ok = true) (hc : e.closeOk = true) (hpid : e.pidOk = true)
    (hfile : opt.pid = none ∨ file = none ∨ file = some []) :
    ∃ p' t', .ret (if opt.daemon then kid else pid) 0 p' t' ∈ (coda_daemon_load opt e pid p t file).1 := by
  have hs : (coda_signal_init e.sig p).1 = 0 := install_all _ hsig _ _
  have hw : ∀ q p t, (writePid opt e q p t file).1 = .ret q 0 p t := by
    intro q p t
    unfold writePid
    cases ho : opt.pid with
    | none => rfl
    | some x =>
      rw [ho] at hfile
      simp only [coda_mkpidf, hpid]
      rcases hfile with h | rfl | rfl
      · cases h
      · rfl
      · rfl
  have hk : ∃ t1, coda_daemon_fork t (e.daemon .child) = .ret 0 t1 := by
    simp only [coda_daemon_fork, Env.daemon, hsid, hnull, h0, h1, hc, Fd.dup2, Table.put, if_true]
    simp only [Bool.true_eq_false, if_false]
    by_cases hd0 : d = 0
    · subst hd0; exact ⟨_, rfl⟩
    · by_cases hd1 : d = 1
      · subst hd1; exact ⟨_, rfl⟩
      · simp only [if_neg hd0, if_true, Fd.close, gt_iff_lt, Int.lt_irrefl, if_false, show ¬ (1 : Int) < 0 by decide]
        have hput : (((t.put d .null).put 0 .null).put 1 .null : Table) d = some .null := by
          simp only [Table.put, if_neg hd0, if_neg hd1, if_true]
        split
        · rw [hput]; exact ⟨_, rfl⟩
        · exact ⟨_, rfl⟩
  unfold coda_daemon_load
  simp only []
  rw [if_neg (by rw [hs]; decide)]
  cases hdm : opt.daemon with
  | false =>
    simp only [Bool.false_eq_true, if_false]
    exact ⟨_, t, List.mem_singleton.mpr (hw ..).symm⟩
  | true =>
    simp only [if_true, hfork]
    obtain ⟨t1, ht1⟩ := hk
    refine ⟨(coda_signal_init e.sig p).2, t1, List.mem_cons_of_mem _ (List.mem_singleton.mpr ?_)⟩
    rw [ht1]
    exact (hw kid _ t1).symm

/-- Its conditions can be met. -/
example : ∃ p' t', .ret 42 0 p' t' ∈ (coda_daemon_load { pid := some [47, 112], daemon := true } (fine 42) 41 Daemon.initProc term (some [])).1 :=
  C124_comes_up_partial { pid := some [47, 112], daemon := true } (fine 42) 41 42 Daemon.initProc term (some []) 3 (fun _ => rfl) rfl rfl rfl (by decide) rfl rfl rfl rfl (Or.inr (Or.inr rfl))

/-- **C124 is false as to the status of the command**: whenever the fork works, the process that was started ends with status 0, whatever happens
afterwards; so it does when the daemon does not come up, for example because the pid file belongs to one that runs already: then no process is
left that has succeeded. -/
theorem C124_refuted (opt : Getopt) (e : Env) (pid kid : Nat) (p : Proc) (t : Table) (c : UInt8) (r : List UInt8) (hd : opt.daemon = true)
    (hp : opt.pid ≠ none) (hf : e.fork = some kid) (hs : (coda_signal_init e.sig p).1 = 0) :
    .exit pid 0 ∈ (coda_daemon_load opt e pid p t (some (c :: r))).1 ∧
    ∀ q s p' t', .ret q s p' t' ∈ (coda_daemon_load opt e pid p t (some (c :: r))).1 → s = -1 := by
  have hns : ¬ (0 : Int) > (coda_signal_init e.sig p).1 := by rw [hs]; decide
  have hpar : ∀ x, afterFork opt e pid x (coda_daemon_fork t (e.daemon .parent)) (some (c :: r)) = (.exit pid 0, some (c :: r)) := by
    intro x; rfl
  unfold coda_daemon_load
  simp only []
  rw [if_neg hns, if_pos hd, hf]
  simp only [hpar]
  refine ⟨List.mem_cons_self .., ?_⟩
  intro q s p' t' hm
  simp only [List.mem_cons, List.not_mem_nil, or_false] at hm
  rcases hm with hm | hm
  · cases hm
  · unfold afterFork at hm
    cases hfk : coda_daemon_fork t (e.daemon .child) with
    | exited => rw [hfk] at hm; cases hm
    | ret x tt =>
      rw [hfk] at hm
      simp only [] at hm
      by_cases hx : 0 > x
      · rw [if_pos hx] at hm
        injection hm with _ h2
      · rw [if_neg hx] at hm
        unfold writePid at hm
        cases ho : opt.pid with
        | none => exact absurd ho hp
        | some z =>
          rw [ho] at hm
          simp only [] at hm
          have : coda_mkpidf kid (some (c :: r)) e.pidOk = (-1, some (c :: r)) := by
            unfold coda_mkpidf
            by_cases hk : e.pidOk = false
            · rw [if_pos hk]
            · rw [if_neg hk]
          rw [this] at hm
          simp only [] at hm
          rw [if_pos (by decide)] at hm
          injection hm with _ h2

/-- Its conditions can be met. -/
example : (coda_signal_init (fine 42).sig Daemon.initProc).1 = 0 := by decide

/-! C125 -/

/-- **C125, where it holds**: on its own, or in braces, log_die logs one message of level emerg and ends the program with status 1; what follows is not
executed. -/
theorem C125_die_partial (r : Run) (hr : r.status = none) (rest : List Stmt) :
    exec r (log_die ++ rest) = { r with logged := r.logged ++ [.emerg], status := some 1 } := by
  have h1 : exec r (log_die ++ rest) = exec (exec1 (exec1 r (.log .emerg)) (.exit EXIT_FAILURE)) rest := by
    show (if r.status.isSome then r else if (exec1 r (.log .emerg)).status.isSome then _ else _) = _
    rw [hr, if_neg (by decide), if_neg (show ¬ (exec1 r (.log .emerg)).status.isSome = true by simp [exec1, hr])]
    rfl
  rw [h1]
  cases rest with
  | nil => rfl
  | cons s l =>
    rw [exec, if_pos (show (exec1 (exec1 r (.log .emerg)) (.exit EXIT_FAILURE)).status.isSome = true from rfl)]
    rfl

/-- **C125 is false** after an `if` without braces: the program ends whether or not the condition holds. -/
theorem C125_refuted (c : Bool) (r : Run) (hr : r.status = none) (rest : List Stmt) :
    (exec r (ifThen c log_die ++ rest)).status = some 1 ∧
    (c = false → (exec r (ifThen c log_die ++ rest)).logged = r.logged ∧ (exec r (ifThen c log_die ++ rest)).nexts = r.nexts) := by
  have h1 : exec r (ifThen c log_die ++ rest) = exec (exec1 (exec1 r (.ite c (.log .emerg))) (.exit EXIT_FAILURE)) rest := by
    show (if r.status.isSome then r else if (exec1 r (.ite c (.log .emerg))).status.isSome then _ else _) = _
    rw [hr, if_neg (by decide), if_neg (by cases c <;> simp [exec1, hr])]
    rfl
  have h2 : ∀ x : Run, x.status.isSome = true → exec x rest = x := by
    intro x hx
    cases rest with
    | nil => rfl
    | cons s l => rw [exec, if_pos hx]
  rw [h1, h2 _ rfl]
  refine ⟨rfl, fun hc => ?_⟩
  subst hc
  exact ⟨rfl, rfl⟩

/-- Without it the statement that follows is executed. -/
example : exec {} [.next, .ite false (.log .emerg), .next] = { nexts := 2 } := by decide

example : exec {} (ifThen false log_die ++ [.next]) = { status := some 1 } := by decide

end Verif.Load
