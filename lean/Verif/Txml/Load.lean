/-
  Loading of an element equals the specification.
-/
import Verif.Txml.Lemmas

set_option linter.unusedSimpArgs false
set_option linter.unusedVariables false

namespace Verif.Txml
open Spec

/-! ### Machines that always succeed and leave the levels alone -/

section
variable {α : Type} (g : Text → α → α)

def detTotal : Det α := fun t s stk => .ok (g t s, stk)

theorem total_probe (s : St α) (kv : Text × Text) : probe (detTotal g) s kv = .ok ⟨g kv.2 s.obj, s.levels, kv.2⟩ := by
  simp [probe, detTotal]

theorem total_probes (as : List (Text × Text)) : ∀ s : St α, ∃ o c, probes (detTotal g) s as = .ok ⟨o, s.levels, c⟩ := by
  induction as with
  | nil => intro s; exact ⟨s.obj, s.cur, rfl⟩
  | cons kv as ih =>
    intro s
    obtain ⟨o, c, h⟩ := ih ⟨g kv.2 s.obj, s.levels, kv.2⟩
    exact ⟨o, c, by simp only [probes, total_probe, Res.ok_bind, h]⟩

theorem probes_last (D : Det α) (as : List (Text × Text)) (s s' : St α) (h : probes D s (as ++ [([], [])]) = .ok s') : s'.cur = [] := by
  rw [probes_append] at h
  cases h1 : probes D s as with
  | ub => rw [h1] at h; cases h
  | ok s1 =>
    rw [h1] at h
    simp only [Res.ok_bind, probes, probe] at h
    cases h2 : D [] s1.obj (s1.levels ++ [⟨[], false⟩]) with
    | ub => rw [h2] at h; cases h
    | ok x =>
      obtain ⟨o, ls⟩ := x
      rw [h2] at h
      simp only [Res.ok_bind, Res.ok.injEq] at h
      rw [← h]

mutual
theorem total_events : ∀ (e : Elem) (s : St α), ∃ o, run (detTotal g) s (events e) = .ok ⟨o, s.levels, []⟩
  | .mk n as c, s => by
    obtain ⟨o1, c1, h1⟩ := total_probes g (as ++ [([], [])]) ⟨s.obj, s.levels ++ [⟨n, false⟩], s.cur⟩
    have hc := probes_last _ _ _ _ h1
    simp only at hc
    subst hc
    obtain ⟨o2, h2⟩ := total_nodes c ⟨o1, s.levels ++ [⟨n, false⟩], []⟩
    refine ⟨g (lastText [] c) o2, ?_⟩
    rw [run_events (detTotal g) s n as c (g (lastText [] c) o2) (s.levels ++ [⟨n, false⟩]) ?_]
    · simp
    · simp only [whole, h1, Res.ok_bind, h2]
      rfl
theorem total_nodes : ∀ (c : Nodes) (s : St α), ∃ o, run (detTotal g) s (nodeEvents c) = .ok ⟨o, s.levels, lastText s.cur c⟩
  | .nil, s => ⟨s.obj, rfl⟩
  | .text t ns, s => by
    obtain ⟨o, h⟩ := total_nodes ns ⟨s.obj, s.levels, s.cur ++ t⟩
    exact ⟨o, by simp only [nodeEvents, run, step, Res.ok_bind, h, lastText]⟩
  | .elem e ns, s => by
    obtain ⟨o1, h1⟩ := total_events e s
    obtain ⟨o, h⟩ := total_nodes ns ⟨o1, s.levels, []⟩
    exact ⟨o, by simp only [nodeEvents, run_append, h1, Res.ok_bind, h, lastText]⟩
end

theorem total_whole (as : List (Text × Text)) (c : Nodes) (s : St α) :
    ∃ o, whole (detTotal g) s (as ++ [([], [])]) c = .ok (g (lastText [] c) o, s.levels) := by
  obtain ⟨o1, c1, h1⟩ := total_probes g (as ++ [([], [])]) s
  have hc := probes_last _ _ _ _ h1
  simp only at hc
  subst hc
  obtain ⟨o2, h2⟩ := total_nodes g c ⟨o1, s.levels, []⟩
  exact ⟨o2, by simp only [whole, h1, Res.ok_bind, h2]; rfl⟩
end

/-! ### Members -/

theorem pick (k : Text) : ∀ (fs : Flds), GoodFlds fs → HasKey k fs → ∃ v, Good v ∧ (k = [] → ∃ x, v = .leaf x) ∧ upd k (fun _ => v) fs = fs ∧
    ∀ f, upd k f fs = upd k (fun _ => f v) fs
  | .nil, _, hk => hk.elim
  | .cons k1 v fs, hg, hk => by
    obtain ⟨h1, h2, h3, h4⟩ := hg
    by_cases h : k1 = k
    · subst h
      refine ⟨v, h1, h3, ?_, fun f => ?_⟩
      · simp only [upd, if_true]
        rw [upd_none k1 _ fs h2]
      · simp only [upd, if_true]
        rw [upd_none k1 _ fs h2, upd_none k1 _ fs h2]
    · obtain ⟨w, a1, a2, a3, a4⟩ := pick k fs h4 (hk.resolve_left h)
      refine ⟨w, a1, a2, ?_, fun f => ?_⟩
      · simp only [upd]; rw [if_neg h, a3]
      · simp only [upd]; rw [if_neg h, if_neg h, a4 f]

theorem good_upd (k : Text) (f : Val → Val) (hf : ∀ v, Good v → Good (f v)) (hl : k = [] → ∀ x, ∃ y, f (.leaf x) = .leaf y) :
    ∀ (fs : Flds), GoodFlds fs → GoodFlds (upd k f fs)
  | .nil, _ => by simp only [upd, GoodFlds]
  | .cons k1 v fs, hg => by
    obtain ⟨h1, h2, h3, h4⟩ := hg
    have ih := good_upd k f hf hl fs h4
    simp only [upd]
    split
    · rename_i h
      refine ⟨hf v h1, by rw [hasKey_upd]; exact h2, fun he => ?_, ih⟩
      obtain ⟨x, rfl⟩ := h3 he
      exact hl (h ▸ he) x
    · exact ⟨h1, by rw [hasKey_upd]; exact h2, h3, ih⟩

theorem good_put (f : Val → Val) (hf : ∀ v, Good v → Good (f v)) (v : Val) (h : Good v) : Good (put f v) := by
  cases v with
  | leaf x => exact hf _ h
  | str fs => exact hf _ h
  | seq d items => exact h

theorem good_fillText (t : Text) (v : Val) (h : Good v) : Good (fillText t v) := by
  cases v with
  | leaf x => trivial
  | str fs => exact good_upd [] (fun _ => Val.leaf (some _)) (fun _ _ => by simp only [Good]) (fun _ x => ⟨_, rfl⟩) fs h
  | seq d items => exact h

theorem good_attrTo (fs : Flds) (kv : Text × Text) (h : GoodFlds fs) : GoodFlds (attrTo fs kv) :=
  good_upd _ _ (fun v hv => good_put _ (fun v hv => good_fillText _ v hv) v hv) (fun _ x => ⟨_, rfl⟩) fs h

theorem good_attrs (as : List (Text × Text)) : ∀ (fs : Flds), GoodFlds fs → GoodFlds (as.foldl attrTo fs) := by
  induction as with
  | nil => intro fs h; exact h
  | cons kv as ih => intro fs h; exact ih _ (good_attrTo fs kv h)

mutual
theorem good_fill : ∀ (e : Elem) (v : Val), Good v → Good (fill e v)
  | .mk _ as c, .leaf _, _ => by simp only [fill, Good]
  | .mk _ as c, .str fs, h => by
    simp only [fill, Good]
    exact good_upd [] (fun _ => Val.leaf (some _)) (fun _ _ => by simp only [Good]) (fun _ x => ⟨_, rfl⟩) _ (good_fillNodes c _ (good_attrs as fs h))
  | .mk _ as c, .seq d items, h => by simp only [fill]; exact h
theorem good_fillNodes : ∀ (c : Nodes) (fs : Flds), GoodFlds fs → GoodFlds (fillNodes c fs)
  | .nil, fs, h => by simp only [fillNodes]; exact h
  | .text _ ns, fs, h => by simp only [fillNodes]; exact good_fillNodes ns fs h
  | .elem e ns, fs, h => by
    simp only [fillNodes]
    refine good_fillNodes ns _ (good_upd _ _ (fun v hv => good_put _ (fun v hv => good_fill e v hv) v hv) (fun _ x => ?_) fs h)
    cases e with
    | mk n as c => exact ⟨_, rfl⟩
end

theorem upd_upd (k : Text) (f g : Val → Val) : ∀ (fs : Flds), upd k f (upd k g fs) = upd k (fun v => f (g v)) fs
  | .nil => rfl
  | .cons k1 v fs => by
    by_cases h : k1 = k
    · simp only [upd, if_pos h, upd_upd k f g fs]
    · simp only [upd, if_neg h, upd_upd k f g fs]

theorem upd_comm (k k' : Text) (hne : k ≠ k') (f g : Val → Val) : ∀ (fs : Flds), upd k f (upd k' g fs) = upd k' g (upd k f fs)
  | .nil => rfl
  | .cons k1 v fs => by
    by_cases h : k1 = k
    · have h' : k1 ≠ k' := fun h2 => hne (h.symm.trans h2)
      simp only [upd, if_pos h, if_neg h', upd_comm k k' hne f g fs]
    · by_cases h' : k1 = k'
      · simp only [upd, if_neg h, if_pos h', upd_comm k k' hne f g fs]
      · simp only [upd, if_neg h, if_neg h', upd_comm k k' hne f g fs]

theorem fillNodes_upd (g : Val → Val) : ∀ (c : Nodes) (fs : Flds), NamedNodes c → fillNodes c (upd [] g fs) = upd [] g (fillNodes c fs)
  | .nil, fs, _ => by simp only [fillNodes]
  | .text _ ns, fs, h => by simp only [fillNodes]; exact fillNodes_upd g ns fs h
  | .elem e ns, fs, h => by
    simp only [fillNodes]
    have hn : e.name ≠ [] := by
      cases e with
      | mk n as c => exact h.1.1
    rw [upd_comm _ _ hn, fillNodes_upd g ns _ h.2]

/-! ### determine with an attribute, and at the end of an element -/

theorem detFlds_end (t : Text) : ∀ (fs : Flds) (p : Option Level), GoodFlds fs → detFlds t fs p [] = .ok (upd [] (fun _ => .leaf (some t)) fs, p, [])
  | .nil, p, _ => by simp only [detFlds, upd]
  | .cons k v fs, p, h => by
    obtain ⟨h1, h2, h3, h4⟩ := h
    have ih := detFlds_end t fs p h4
    by_cases hk : k = []
    · obtain ⟨x, rfl⟩ := h3 hk
      simp only [detFlds]
      rw [if_neg (by simpa using hk)]
      simp only [setVal, Res.ok_bind, ih, upd, if_pos hk]
    · simp only [detFlds]
      rw [if_pos hk]
      simp only [ih, Res.ok_bind, upd, if_neg hk]

theorem setVal_end (t : Text) (v : Val) (l : Level) (h : Good v) (hs : ∀ d i, v ≠ .seq d i) : setVal t v (some l) [] = .ok (fillText t v, some l, []) := by
  cases v with
  | leaf x => rfl
  | str fs =>
    simp only [setVal]
    rw [detFlds_end t fs _ h]
    rfl
  | seq d i => exact absurd rfl (hs d i)

theorem setVal_put (t : Text) (v : Val) (k : Text) (h : Good v) : ∃ l', l'.key = k ∧ setVal t v (some ⟨k, false⟩) [] = .ok (put (fillText t) v, some l', []) := by
  cases v with
  | leaf x => exact ⟨_, rfl, rfl⟩
  | str fs => exact ⟨_, rfl, setVal_end t _ _ h (by simp)⟩
  | seq d i =>
    refine ⟨⟨k, true⟩, rfl, ?_⟩
    simp only [setVal, if_true]
    rw [setVal_end t d _ h.1 h.2]
    rfl

theorem probe_fs (fs : Flds) (p : Option Level) (cur : Text) (kv : Text × Text) (hg : GoodFlds fs) :
    probe detFs ⟨(fs, p), [], cur⟩ kv = .ok ⟨(attrTo fs kv, p), [], kv.2⟩ := by
  simp only [probe, detFs, List.nil_append]
  by_cases hk : HasKey kv.1 fs
  · obtain ⟨v, h1, -, h3, h4⟩ := pick kv.1 fs hg hk
    obtain ⟨l', hl', hs⟩ := setVal_put kv.2 v kv.1 h1
    have := detFlds_upd kv.2 kv.1 p ⟨kv.1, false⟩ l' rfl hl' [] [] v _ hs fs hg hk
    rw [h3] at this
    rw [this]
    simp only [Res.ok_bind, attrTo]
    rw [← h4]
    rfl
  · rw [detFlds_other _ _ _ fs p hk]
    simp only [Res.ok_bind, attrTo]
    rw [upd_none _ _ fs hk]
    rfl

theorem probes_fs (as : List (Text × Text)) : ∀ (fs : Flds) (p : Option Level) (cur : Text), GoodFlds fs →
    ∃ c, probes detFs ⟨(fs, p), [], cur⟩ as = .ok ⟨(as.foldl attrTo fs, p), [], c⟩ := by
  induction as with
  | nil => intro fs p cur _; exact ⟨cur, rfl⟩
  | cons kv as ih =>
    intro fs p cur hg
    obtain ⟨c, h⟩ := ih (attrTo fs kv) p kv.2 (good_attrTo fs kv hg)
    exact ⟨c, by simp only [probes, probe_fs fs p cur kv hg, Res.ok_bind, h, List.foldl_cons]⟩

theorem attr_empty (fs : Flds) (t : Text) (hg : GoodFlds fs) : attrTo fs ([], t) = upd [] (fun _ => .leaf (some t)) fs := by
  by_cases hk : HasKey [] fs
  · obtain ⟨v, h1, h2, h3, h4⟩ := pick [] fs hg hk
    obtain ⟨x, rfl⟩ := h2 rfl
    unfold attrTo
    rw [h4]
    rfl
  · unfold attrTo
    rw [upd_none _ _ fs hk, upd_none _ _ fs hk]

/-! ### Elements -/

/-- An object, given how its content is loaded. -/
theorem whole_fs (as : List (Text × Text)) (c : Nodes) (hc : NamedNodes c)
    (ih : ∀ (fs : Flds) (p : Option Level) (cur : Text), GoodFlds fs → run detFs ⟨(fs, p), [], cur⟩ (nodeEvents c) = .ok ⟨(fillNodes c fs, p), [], lastText cur c⟩)
    (fs : Flds) (p : Option Level) (cur : Text) (hg : GoodFlds fs) :
    whole detFs ⟨(fs, p), [], cur⟩ (as ++ [([], [])]) c
      = .ok ((upd [] (fun _ => .leaf (some (lastText [] c))) (fillNodes c (as.foldl attrTo fs)), p), []) := by
  obtain ⟨c1, h1⟩ := probes_fs (as ++ [([], [])]) fs p cur hg
  have hcur := probes_last _ _ _ _ h1
  simp only at hcur
  subst hcur
  simp only [List.foldl_append, List.foldl_cons, List.foldl_nil] at h1
  have hg1 := good_attrs as fs hg
  rw [attr_empty _ _ hg1] at h1
  have hg2 : GoodFlds (upd [] (fun _ => Val.leaf (some [])) (as.foldl attrTo fs)) :=
    good_upd [] (fun _ => Val.leaf (some _)) (fun _ _ => by simp only [Good]) (fun _ x => ⟨_, rfl⟩) _ hg1
  simp only [whole, h1, Res.ok_bind, ih _ p [] hg2, detFs]
  rw [detFlds_end _ _ p (good_fillNodes c _ hg2)]
  simp only [Res.ok_bind]
  rw [fillNodes_upd _ c _ hc, upd_upd]

/-- A variable that is not a list. -/
theorem whole_val (n : Text) (as : List (Text × Text)) (c : Nodes) (hc : NamedNodes c)
    (ih : ∀ (fs : Flds) (p : Option Level) (cur : Text), GoodFlds fs → run detFs ⟨(fs, p), [], cur⟩ (nodeEvents c) = .ok ⟨(fillNodes c fs, p), [], lastText cur c⟩)
    (v : Val) (hv : Good v) (hs : ∀ d i, v ≠ .seq d i) (l : Level) (cur : Text) :
    whole detVal ⟨(v, l), [], cur⟩ (as ++ [([], [])]) c = .ok ((fill (.mk n as c) v, l), []) := by
  cases v with
  | leaf x =>
    have H : Sim detVal (detTotal (fun t (_ : Option Text) => some t)) (fun x => (.leaf x, l)) (fun _ => []) (fun _ => True) := by
      constructor
      intro t s stk s' stk' _ h
      simp only [detTotal, Res.ok.injEq, Prod.mk.injEq] at h
      obtain ⟨rfl, rfl⟩ := h
      exact ⟨sim_leaf l t s stk, trivial, rfl⟩
    obtain ⟨o, h⟩ := total_whole (fun t (_ : Option Text) => some t) as c ⟨x, [], cur⟩
    have := (sim_whole H _ _ _ _ _ trivial h).1
    simpa [emb, fill] using this
  | str fs =>
    have h := whole_fs as c hc ih fs (some l) cur hv
    have := (sim_whole sim_str _ _ _ _ _ (by simp) h).1
    simpa [emb, fill] using this
  | seq d i => exact absurd rfl (hs d i)

theorem seq_probe (d : Val) (items : Vals) (n : Text) (cur : Text) (kv : Text × Text) (s' : St (Val × Level))
    (h : probe detVal ⟨(d, ⟨n, true⟩), [], cur⟩ kv = .ok s') :
    probe detVal ⟨(.seq d items, ⟨n, false⟩), [], cur⟩ kv = .ok ⟨(.seq d (items.snoc s'.obj.1), s'.obj.2), s'.levels, s'.cur⟩ ∧ s'.obj.2.pushed = true := by
  simp only [probe, List.nil_append] at h ⊢
  cases h1 : detVal kv.2 (d, ⟨n, true⟩) [⟨kv.1, false⟩] with
  | ub => rw [h1] at h; cases h
  | ok x =>
    obtain ⟨⟨o, l⟩, ls⟩ := x
    rw [h1] at h
    simp only [Res.ok_bind, Res.ok.injEq] at h
    subst h
    rw [detVal_ok] at h1
    have h2 : detVal kv.2 (.seq d items, ⟨n, false⟩) [⟨kv.1, false⟩] = .ok ((.seq d (items.snoc o), l), ls) := by
      rw [detVal_ok]
      simp only [setVal, if_true, h1, Res.ok_bind]
    rw [h2]
    exact ⟨rfl, (setVal_le _ _ _ _ _ _ _ h1).1.2 rfl⟩

/-- Any variable. -/
theorem whole_put (n : Text) (as : List (Text × Text)) (c : Nodes) (hc : NamedNodes c)
    (ih : ∀ (fs : Flds) (p : Option Level) (cur : Text), GoodFlds fs → run detFs ⟨(fs, p), [], cur⟩ (nodeEvents c) = .ok ⟨(fillNodes c fs, p), [], lastText cur c⟩)
    (v : Val) (hv : Good v) (cur : Text) :
    ∃ l', whole detVal ⟨(v, ⟨n, false⟩), [], cur⟩ (as ++ [([], [])]) c = .ok ((put (fill (.mk n as c)) v, l'), []) := by
  cases v with
  | leaf x => exact ⟨_, whole_val n as c hc ih _ hv (by simp) _ cur⟩
  | str fs => exact ⟨_, whole_val n as c hc ih _ hv (by simp) _ cur⟩
  | seq d items =>
    have h := whole_val n as c hc ih d hv.1 hv.2 ⟨n, true⟩ cur
    have hsplit : ∃ kv more, as ++ [([], [])] = kv :: more := by
      cases as with
      | nil => exact ⟨_, _, rfl⟩
      | cons kv as => exact ⟨_, _, rfl⟩
    obtain ⟨kv, more, hm⟩ := hsplit
    rw [hm] at h ⊢
    simp only [whole, probes] at h
    cases h1 : probe detVal ⟨(d, ⟨n, true⟩), [], cur⟩ kv with
    | ub => rw [h1] at h; cases h
    | ok s1 =>
      rw [h1] at h
      simp only [Res.ok_bind] at h
      obtain ⟨e1, e2⟩ := seq_probe d items n cur kv s1 h1
      have h2 : whole detVal s1 more c = .ok ((fill (.mk n as c) d, ⟨n, true⟩), []) := h
      have h3 := (sim_whole (sim_seq d items) s1 more c _ _ e2 h2).1
      refine ⟨⟨n, true⟩, ?_⟩
      simp only [whole, probes, e1, Res.ok_bind]
      exact h3

mutual
theorem load_elem : ∀ (e : Elem), Named e → ∀ (fs : Flds) (p : Option Level) (cur : Text), GoodFlds fs →
    run detFs ⟨(fs, p), [], cur⟩ (events e) = .ok ⟨(upd e.name (put (fill e)) fs, p), [], []⟩
  | .mk n as c, hn, fs, p, cur, hg => by
    by_cases hk : HasKey n fs
    · obtain ⟨v, h1, -, h3, h4⟩ := pick n fs hg hk
      obtain ⟨l', h⟩ := whole_put n as c hn.2.2 (fun fs p cur hg => load_nodes c hn.2.2 fs p cur hg) v h1 cur
      have H := (sim_whole (sim_fld n fs p hg hk) ⟨(v, ⟨n, false⟩), [], cur⟩ _ _ _ _ rfl h).1
      simp only [emb, h3, List.append_nil] at H
      rw [run_events detFs ⟨(fs, p), [], cur⟩ n as c _ _ H]
      simp only [Elem.name, List.dropLast_singleton]
      rw [← h4]
    · obtain ⟨o, h⟩ := total_whole (fun _ (s : Unit) => s) as c ⟨(), [], cur⟩
      have H := (sim_whole (sim_other ⟨n, false⟩ fs p hk) ⟨(), [], cur⟩ _ _ _ _ trivial h).1
      simp only [emb, List.append_nil] at H
      rw [run_events detFs ⟨(fs, p), [], cur⟩ n as c _ _ H]
      simp only [Elem.name]
      rw [upd_none _ _ fs hk]
      rfl
theorem load_nodes : ∀ (c : Nodes), NamedNodes c → ∀ (fs : Flds) (p : Option Level) (cur : Text), GoodFlds fs →
    run detFs ⟨(fs, p), [], cur⟩ (nodeEvents c) = .ok ⟨(fillNodes c fs, p), [], lastText cur c⟩
  | .nil, _, fs, p, cur, _ => by simp only [nodeEvents, run, fillNodes, lastText]
  | .text t ns, hn, fs, p, cur, hg => by
    simp only [nodeEvents, run, step, Res.ok_bind, fillNodes, lastText]
    exact load_nodes ns hn fs p (cur ++ t) hg
  | .elem e ns, hn, fs, p, cur, hg => by
    simp only [nodeEvents, run_append, load_elem e hn.1 fs p cur hg, Res.ok_bind, fillNodes, lastText]
    refine load_nodes ns hn.2 _ p [] (good_upd _ _ (fun v hv => good_put _ (fun v hv => good_fill e v hv) v hv) (fun _ x => ?_) fs hg)
    cases e with
    | mk n as c => exact ⟨_, rfl⟩
end

/-- The whole object. -/
theorem sim_root : Sim detRoot detFs (fun s => s.1) (fun _ => []) (fun s => s.2 = none) := by
  constructor
  rintro t ⟨fs, p⟩ stk ⟨fs', p'⟩ stk' hp h
  simp only at hp
  subst hp
  unfold detFs at h
  cases h1 : detFlds t fs none stk with
  | ub => simp only [h1] at h; cases h
  | ok x =>
    obtain ⟨a, b, c⟩ := x
    simp only [h1, Res.ok_bind, Res.ok.injEq, Prod.mk.injEq] at h
    obtain ⟨⟨rfl, rfl⟩, rfl⟩ := h
    obtain ⟨e1, e2⟩ := detFlds_le t fs _ _ _ _ _ h1
    refine ⟨by simp only [detRoot, List.nil_append, h1, Res.ok_bind], ?_, e2⟩
    cases b with
    | none => rfl
    | some l => exact e1.elim

theorem load_root (e : Elem) (hn : Named e) (fs : Flds) (hg : GoodFlds fs) :
    run detRoot (start fs) (events e) = .ok ⟨loaded e fs, [], []⟩ := by
  have h := load_elem e hn fs none [] hg
  have hf : fits (0 : Nat) (events e) := by
    have := (fits_events 0 e []).mpr trivial
    simpa using this
  have := (sim_run sim_root _ ⟨(fs, none), [], []⟩ _ rfl hf h).1
  exact this

end Verif.Txml
