/-
  C99-C104: loading of objects from XML.
-/
import Verif.Txml.Load
import Verif.Txml.ConvLemmas

set_option linter.unusedSimpArgs false
set_option linter.unusedVariables false

namespace Verif.Txml
open Spec

def bytes (s : String) : Text := s.toList.map (fun c => UInt8.ofNat c.toNat)

/-! ## C99, C100: documents -/

/-- **C99.** Loading a document puts every element, attribute and text into the member at its place, each element for a list into a new item at its end, and leaves
everything else as it was; it does so for every document and every object whose keys differ. -/
theorem C99_load_document (e : Elem) (hn : Named e) (fs : Flds) (hg : GoodFlds fs) :
    run detRoot (start fs) (events e) = .ok ⟨loaded e fs, [], []⟩ :=
  load_root e hn fs hg

/-- A member whose key is not the name of the root element is not touched. -/
theorem C99_other_member (e : Elem) (k : Text) (v : Val) (fs : Flds) (h : k ≠ e.name) : loaded e (.cons k v fs) = .cons k v (loaded e fs) := by
  simp only [loaded, upd, if_neg h]

/-- A second document is loaded into the object that the first one has left: lists grow, other members are replaced. -/
theorem C99_load_again (e e' : Elem) (hn : Named e) (hn' : Named e') (fs : Flds) (hg : GoodFlds fs) :
    ∃ s, run detRoot (start fs) (events e) = .ok s ∧ run detRoot (start s.obj) (events e') = .ok ⟨loaded e' (loaded e fs), [], []⟩ := by
  refine ⟨_, load_root e hn fs hg, load_root e' hn' _ ?_⟩
  refine good_upd _ _ (fun v hv => good_put _ (fun v hv => good_fill e v hv) v hv) (fun _ x => ?_) fs hg
  cases e with
  | mk n as c => exact ⟨_, rfl⟩

/-- Text is put together, however it is cut into pieces. -/
theorem C99_text_pieces (cur t u : Text) (c : Nodes) : lastText cur (.text t (.text u c)) = lastText cur (.text (t ++ u) c) := by
  simp only [lastText, List.append_assoc]

/-- The text of an element that has text only is all of it. -/
theorem C99_text_only (ts : List Text) : lastText [] (ts.foldr Nodes.text Nodes.nil) = ts.flatten := by
  have : ∀ cur, lastText cur (ts.foldr Nodes.text Nodes.nil) = cur ++ ts.flatten := by
    induction ts with
    | nil => intro cur; simp [lastText]
    | cons t ts ih => intro cur; simp only [List.foldr_cons, lastText, ih, List.flatten_cons, List.append_assoc]
  exact this []

/-- The code drops text that is followed by a child element: with `<a>one<b/>two</a>` the member gets "two". -/
theorem C99_refuted_mixed_text :
    loaded (.mk (bytes "a") [] (.text (bytes "one") (.elem (.mk (bytes "b") [] .nil) (.text (bytes "two") .nil)))) (.cons (bytes "a") (.leaf none) .nil)
      = .cons (bytes "a") (.leaf (some (bytes "two"))) .nil := by
  rfl

/-- **C99 is false for all elements with text before a child**: a text or number gets only the text after the last child, whatever came before. -/
theorem C99_refuted_mixed_all (k t1 t2 : Text) (as : List (Text × Text)) (e : Elem) (x : Option Text) (hn : Named (.mk k as (.text t1 (.elem e (.text t2 .nil))))) :
    ∃ s, run detRoot (start (.cons k (.leaf x) .nil)) (events (.mk k as (.text t1 (.elem e (.text t2 .nil))))) = .ok s ∧ s.obj = .cons k (.leaf (some t2)) .nil := by
  refine ⟨_, C99_load_document _ hn _ ?_, ?_⟩
  · simp [GoodFlds, Good, HasKey]
  · simp [loaded, upd, put, fill, lastText, Elem.name]

example : Named (.mk (bytes "a") [(bytes "id", [])] (.text (bytes "one") (.elem (.mk (bytes "b") [] .nil) (.text (bytes "two") .nil)))) := by
  simp only [Named, NamedNodes]
  decide +kernel

/-- `<conf name="x"><item id="1">first</item><skip><item/></skip><item id="2">second</item></conf>` -/
def exampleDoc : Elem :=
  .mk (bytes "conf") [(bytes "name", bytes "x")]
    (.elem (.mk (bytes "item") [(bytes "id", bytes "1")] (.text (bytes "fir") (.text (bytes "st") .nil)))
    (.elem (.mk (bytes "skip") [] (.elem (.mk (bytes "item") [] .nil) .nil))
    (.elem (.mk (bytes "item") [(bytes "id", bytes "2")] (.text (bytes "second") .nil)) .nil)))

/-- struct item { id, text }; struct conf { name, list<item> item, other } -/
def exampleItem : Val := .str (.cons (bytes "id") (.leaf none) (.cons [] (.leaf none) .nil))
def exampleObj : Flds :=
  .cons (bytes "conf") (.str (.cons (bytes "name") (.leaf none) (.cons (bytes "item") (.seq exampleItem .nil) (.cons (bytes "other") (.leaf (some (bytes "kept"))) .nil)))) .nil

example : Named exampleDoc := by
  simp only [exampleDoc, Named, NamedNodes]
  decide

theorem example_good : GoodFlds exampleObj := by
  simp only [exampleObj, exampleItem, GoodFlds, Good, HasKey]
  have hk : ∀ (k : Text) (v : Val), k ≠ [] → (k = [] → ∃ x, v = .leaf x) := fun k v h h' => absurd h' h
  refine ⟨⟨trivial, by decide, hk _ _ (by decide), ⟨⟨trivial, by decide, hk _ _ (by decide), trivial, by decide, fun _ => ⟨_, rfl⟩, trivial⟩, by simp⟩, by decide,
    hk _ _ (by decide), trivial, by decide, hk _ _ (by decide), trivial⟩, by decide, hk _ _ (by decide), trivial⟩

example : loaded exampleDoc exampleObj =
    .cons (bytes "conf") (.str (.cons (bytes "name") (.leaf (some (bytes "x")))
      (.cons (bytes "item") (.seq exampleItem
          (.cons (.str (.cons (bytes "id") (.leaf (some (bytes "1"))) (.cons [] (.leaf (some (bytes "first"))) .nil)))
          (.cons (.str (.cons (bytes "id") (.leaf (some (bytes "2"))) (.cons [] (.leaf (some (bytes "second"))) .nil))) .nil)))
      (.cons (bytes "other") (.leaf (some (bytes "kept"))) .nil)))) .nil := by
  rfl

/-- **C100, partial.** Whenever a document breaks off (an error in the file, or in a later part of the document), nothing undefined has happened: for objects whose
keys differ and that have no list directly in a list.  Missing: other objects, for which it is false. -/
theorem C100_any_prefix_defined_partial (e : Elem) (hn : Named e) (fs : Flds) (hg : GoodFlds fs) (es rest : List Ev) (h : es ++ rest = events e) :
    ∃ s, run detRoot (start fs) es = .ok s := by
  have hl := load_root e hn fs hg
  rw [← h, run_append] at hl
  cases hr : run detRoot (start fs) es with
  | ub => rw [hr] at hl; cases hl
  | ok s => exact ⟨s, rfl⟩

/-- At the beginning of the document the object is as before, and it changes by whole calls: loading the rest of the document from there gives the loaded object. -/
theorem C100_resume (e : Elem) (hn : Named e) (fs : Flds) (hg : GoodFlds fs) (es rest : List Ev) (h : es ++ rest = events e) :
    ∃ s, run detRoot (start fs) es = .ok s ∧ run detRoot s rest = .ok ⟨loaded e fs, [], []⟩ := by
  have hl := load_root e hn fs hg
  rw [← h, run_append] at hl
  cases hr : run detRoot (start fs) es with
  | ub => rw [hr] at hl; cases hl
  | ok s => rw [hr] at hl; exact ⟨s, rfl, hl⟩

/-- The first call for an element of a vector of vectors takes the last item of an empty vector. -/
theorem C100_refuted_list_in_list :
    run detRoot (start (.cons (bytes "a") (.seq (.seq (.leaf none) .nil) .nil) .nil)) (events (.mk (bytes "a") [] .nil)) = .ub := by
  rfl

/-- So does the second of two lists with the same key. -/
theorem C100_refuted_same_key :
    run detRoot (start (.cons (bytes "a") (.seq (.leaf none) .nil) (.cons (bytes "a") (.seq (.leaf none) .nil) .nil))) (events (.mk (bytes "a") [] .nil)) = .ub := by
  rfl

/-- The first member with the key k is a list of lists. -/
def ListOfLists (k : Text) : Flds → Prop
  | .nil => False
  | .cons k' v fs => (k' = k ∧ ∃ d items, v = .seq (.seq d .nil) items) ∨ (k' ≠ k ∧ ListOfLists k fs)

/-- The first two members with the key k are lists, of texts or numbers the first one, and empty the second one. -/
def TwoLists (k : Text) : Flds → Prop
  | .nil => False
  | .cons k' v fs => (k' = k ∧ ∃ x items d fs', v = .seq (.leaf x) items ∧ fs = .cons k (.seq d .nil) fs') ∨ (k' ≠ k ∧ TwoLists k fs)

theorem det_listOfLists (t k : Text) (prev : Option Level) (r : List Level) : ∀ (fs : Flds), ListOfLists k fs → detFlds t fs prev (⟨k, false⟩ :: r) = .ub := by
  intro fs
  match fs with
  | .nil => intro h; exact h.elim
  | .cons k' v fs =>
    rintro (⟨rfl, d, items, rfl⟩ | ⟨hk, h⟩)
    · simp only [detFlds, setVal, setBack, if_true]
      rfl
    · simp only [detFlds]
      rw [if_neg hk, det_listOfLists t k prev r fs h]
      rfl

theorem det_twoLists (t k : Text) (prev : Option Level) (r : List Level) : ∀ (fs : Flds), TwoLists k fs → detFlds t fs prev (⟨k, false⟩ :: r) = .ub := by
  intro fs
  match fs with
  | .nil => intro h; exact h.elim
  | .cons k' v fs =>
    rintro (⟨rfl, x, items, d, fs', rfl, rfl⟩ | ⟨hk, h⟩)
    · simp only [detFlds, setVal, setBack, if_true]
      show (detFlds t (.cons k' (.seq d .nil) fs') prev (⟨k', true⟩ :: r) >>= _) = _
      have : detFlds t (.cons k' (.seq d .nil) fs') prev (⟨k', true⟩ :: r) = .ub := by
        simp only [detFlds, setVal, setBack, if_true]
        rfl
      rw [this]
      rfl
    · simp only [detFlds]
      rw [if_neg hk, det_twoLists t k prev r fs h]
      rfl

/-- **C100 is false for all objects with a list of lists, and for all with two lists of the same key**: loading any document whose root element has that key is undefined. -/
theorem C100_refuted_all (k : Text) (fs : Flds) (h : ListOfLists k fs ∨ TwoLists k fs) (as : List (Text × Text)) (c : Nodes) : run detRoot (start fs) (events (.mk k as c)) = .ub := by
  have hd : ∀ t r, detFlds t fs none (⟨k, false⟩ :: r) = .ub := fun t r => h.elim (det_listOfLists t k none r fs) (det_twoLists t k none r fs)
  have hp : ∀ kv cur, probe detRoot ⟨fs, [⟨k, false⟩], cur⟩ kv = .ub := by
    intro kv cur
    simp only [probe, detRoot, List.cons_append, List.nil_append]
    rw [hd]
    rfl
  have hs : step detRoot (start fs) (.beg k as) = .ub := by
    simp only [step, start, List.nil_append]
    cases as with
    | nil =>
      simp only [probes]
      exact hp ([], []) []
    | cons kv as =>
      simp only [probes]
      rw [hp kv []]
      rfl
  simp only [events, run]
  rw [hs]
  rfl

example : ListOfLists (bytes "a") (.cons (bytes "b") (.leaf none) (.cons (bytes "a") (.seq (.seq (.leaf none) .nil) .nil) .nil)) :=
  Or.inr ⟨by decide +kernel, Or.inl ⟨rfl, _, _, rfl⟩⟩

example : TwoLists (bytes "a") (.cons (bytes "a") (.seq (.leaf none) .nil) (.cons (bytes "a") (.seq (.leaf none) .nil) .nil)) := Or.inl ⟨rfl, _, _, _, _, rfl, rfl⟩

example : ∃ es rest, es ++ rest = events exampleDoc ∧ es.length = 3 := by
  refine ⟨(events exampleDoc).take 3, (events exampleDoc).drop 3, List.take_append_drop _ _, ?_⟩
  rfl

/-! ## C101: files -/

/-- **C101.** load_from_file opens the file once and closes it exactly once, last, however it ends.  It ends well only after the XML parser has been given exactly the
bytes of the file in pieces of at most 4096, the last one and no other marked as the last; otherwise it ends with an error: the parser has rejected the piece it was
given last, or a read has failed, and then no piece was marked as the last. -/
theorem C101_load_from_file {σ : Type} (P : σ → List UInt8 → Bool → Option σ) (x : σ) (content : List UInt8) (failIn : Option Nat) :
    ∃ cs, (loadFile P x (some content) failIn).1 = acts cs ∧ (cs.map (·.1)).flatten <+: content ∧ (∀ c ∈ cs, c.1.length ≤ 4096) ∧
      (((loadFile P x (some content) failIn).2.1 = .done ∧
          (∃ (pre : List (List UInt8)) (last : List UInt8), cs = pre.map (fun c => (c, false)) ++ [(last, true)] ∧ pre.flatten ++ last = content) ∧
          feed P x cs = some (loadFile P x (some content) failIn).2.2) ∨
       ((loadFile P x (some content) failIn).2.1 = .badXml ∧ feed P x cs = none ∧ feed P x cs.dropLast = some (loadFile P x (some content) failIn).2.2) ∨
       ((loadFile P x (some content) failIn).2.1 = .cantRead ∧ (∀ c ∈ cs, c.2 = false) ∧ feed P x cs = some (loadFile P x (some content) failIn).2.2 ∧ failIn ≠ none)) :=
  loop_spec P (content.length + 2) x ⟨content, false, failIn⟩ rfl (Nat.le_refl _)

/-- A file that cannot be opened is not read, not parsed and not closed. -/
theorem C101_cannot_open {σ : Type} (P : σ → List UInt8 → Bool → Option σ) (x : σ) (failIn : Option Nat) : loadFile P x none failIn = ([], .cantOpen, x) := rfl

/-- Without errors it ends well. -/
theorem C101_succeeds {σ : Type} (P : σ → List UInt8 → Bool → Option σ) (hP : ∀ x c fin, P x c fin ≠ none) (x : σ) (content : List UInt8) :
    (loadFile P x (some content) none).2.1 = .done := by
  obtain ⟨cs, -, -, -, h⟩ := C101_load_from_file P x content none
  rcases h with h | ⟨-, h, -⟩ | ⟨-, -, -, h⟩
  · exact h.1
  · exfalso
    have : ∀ (cs : List (List UInt8 × Bool)) (x : σ), feed P x cs ≠ none := by
      intro cs
      induction cs with
      | nil => intro x; simp [feed]
      | cons c cs ih =>
        intro x
        obtain ⟨c, fin⟩ := c
        simp only [feed]
        cases hq : P x c fin with
        | none => exact absurd hq (hP x c fin)
        | some x' => exact ih x'
    exact this cs x h
  · exact absurd rfl h

/-- A parser that collects the bytes, and rejects a byte 0. -/
def exampleParser (x : List UInt8) (c : List UInt8) (_ : Bool) : Option (List UInt8) := if c.contains 0 then none else some (x ++ c)

example : loadFile exampleParser [] (some (bytes "<a/>")) none = ([.parse (bytes "<a/>") true, .close], .done, bytes "<a/>") := by rfl
example : loadFile exampleParser [] (some [60, 0]) none = ([.parse [60, 0] true, .close], .badXml, []) := by rfl
example : loadFile exampleParser [] (some [60, 0]) (some 0) = ([.close], .cantRead, []) := by rfl
/-- A file of 4096 bytes: the last piece is empty. -/
example (c : List UInt8) (h : c.length = 4096) : loadFile (fun (n : Nat) c fin => some (n + c.length + if fin then 1000000 else 0)) 0 (some c) none
    = ([.parse c false, .parse [] true, .close], .done, 1004096) := by
  have h1 : c.take 4096 = c := List.take_of_length_le (by omega)
  have h2 : c.drop 4096 = [] := List.drop_eq_nil_of_le (by omega)
  simp only [loadFile, h]
  show loop _ (4095 + 1 + 1 + 1) _ _ = _
  generalize 4095 = n
  simp [loop, fread, BUFSZ, h, h1, h2]

/-! ## C104: strings -/

/-- **C104, partial.** load_from_string gives all of the string to the XML parser if it is shorter than 2^31 bytes.  Missing: longer strings, for which it is false. -/
theorem C104_whole_string_partial (s : List UInt8) (h : s.length < 2 ^ 31) : stringChunk s = some s := by
  have hp : parseLen s.length = s.length := by
    unfold parseLen
    rw [Nat.mod_eq_of_lt (by omega)]
    exact Int.bmod_eq_of_le (by omega) (by omega)
  unfold stringChunk
  rw [hp, if_neg (by omega), Int.toNat_natCast, List.take_length]

/-- Of a string of 2^32 bytes or more a part only is parsed, as if it were the whole, or nothing at all. -/
theorem C104_refuted_long_string (s : List UInt8) (h : 2 ^ 32 ≤ s.length) : stringChunk s ≠ some s := by
  unfold stringChunk
  split
  · simp
  · intro hs
    simp only [Option.some.injEq] at hs
    have := congrArg List.length hs
    rw [List.length_take] at this
    have hb : parseLen s.length < 2 ^ 31 := by
      unfold parseLen
      have := Int.bmod_lt (x := ((s.length % 2 ^ 32 : Nat) : Int)) (m := 2 ^ 32) (by decide)
      omega
    omega

/-- From 2^31 to 2^32 - 1 bytes the parser gets a negative length. -/
theorem C104_refuted_negative_length (s : List UInt8) (h1 : 2 ^ 31 ≤ s.length) (h2 : s.length < 2 ^ 32) : stringChunk s = none := by
  have hp : parseLen s.length = (s.length : Int) - 2 ^ 32 := by
    unfold parseLen
    rw [Nat.mod_eq_of_lt h2]
    rw [Int.bmod_def]
    split <;> omega
  unfold stringChunk
  rw [hp, if_pos (by omega)]

example : stringChunk (bytes "<a>x</a>") = some (bytes "<a>x</a>") := by decide +kernel
example : ∃ s : List UInt8, 2 ^ 32 ≤ s.length := ⟨List.replicate (2 ^ 32) 0, by rw [List.length_replicate]; exact Nat.le_refl _⟩
example : ∃ s : List UInt8, 2 ^ 31 ≤ s.length ∧ s.length < 2 ^ 32 := ⟨List.replicate (2 ^ 31) 0, by rw [List.length_replicate]; decide⟩

/-! ## C102: switches -/

/-- **C102.** A bool member becomes true exactly if the text begins with a number other than 0, or is "true", "on" or "yes" or one of their beginnings, in large or small
letters; every other text makes it false.  (XML texts have no byte 0.) -/
theorem C102_switch (t : Text) (hz : ∀ c ∈ t, c ≠ 0) : setBool t = true ↔ SwitchedOn t := by
  unfold setBool strtobool SwitchedOn
  rw [cstr_noz t hz]
  have p0 := caseEq_prefix t [48] hz (by decide)
  have p1 := caseEq_prefix t [116, 114, 117, 101] hz (by decide)
  have p2 := caseEq_prefix t [102, 97, 108, 115, 101] hz (by decide)
  have p3 := caseEq_prefix t [111, 110] hz (by decide)
  have p4 := caseEq_prefix t [111, 102, 102] hz (by decide)
  have p5 := caseEq_prefix t [121, 101, 115] hz (by decide)
  have hnum : strtol t ≠ 0 ↔ ∃ n, Denotes t n ∧ n ≠ 0 := by
    constructor
    · intro h
      cases hs : scanSigned (skipSpace (cstr t)) with
      | mk neg m =>
        rw [strtol_scan t neg m hs, ne_eq, near64_zero] at h
        have hm : m ≠ 0 := by
          rintro rfl
          apply h
          unfold signed
          split <;> rfl
        exact ⟨_, denotes_scan t neg m hs hm, h⟩
    · rintro ⟨n, h1, h2⟩
      obtain ⟨neg, m, h3, rfl⟩ := scan_denotes t n h1
      rw [strtol_scan t neg m h3, ne_eq, near64_zero]
      exact h2
  rw [← hnum]
  by_cases hn : strtol t = 0
  · rw [if_neg (by simpa using hn)]
    have hne : ¬ strtol t ≠ 0 := by simpa using hn
    simp only [hne, false_or]
    generalize small t = l at *
    simp only [p0, p1, p2, p3, p4, p5]
    constructor
    · intro h
      by_cases h0 : l <+: [48]
      · rw [if_pos h0] at h; cases h
      · rw [if_neg h0] at h
        have hl : l ≠ [] := by rintro rfl; exact h0 (List.nil_prefix)
        by_cases h1 : l <+: [116, 114, 117, 101]
        · simp only [List.prefix_cons_iff, List.prefix_nil, hl, false_or] at h1
          obtain ⟨_, rfl, rfl | ⟨_, rfl, rfl | ⟨_, rfl, rfl | ⟨_, rfl, rfl⟩⟩⟩⟩ := h1 <;> decide
        · rw [if_neg h1] at h
          by_cases h2 : l <+: [102, 97, 108, 115, 101]
          · rw [if_pos h2] at h; cases h
          · rw [if_neg h2] at h
            by_cases h3 : l <+: [111, 110]
            · simp only [List.prefix_cons_iff, List.prefix_nil, hl, false_or] at h3
              obtain ⟨_, rfl, rfl | ⟨_, rfl, rfl⟩⟩ := h3 <;> decide
            · rw [if_neg h3] at h
              by_cases h4 : l <+: [111, 102, 102]
              · rw [if_pos h4] at h; cases h
              · rw [if_neg h4] at h
                by_cases h5 : l <+: [121, 101, 115]
                · simp only [List.prefix_cons_iff, List.prefix_nil, hl, false_or] at h5
                  obtain ⟨_, rfl, rfl | ⟨_, rfl, rfl | ⟨_, rfl, rfl⟩⟩⟩ := h5 <;> decide
                · rw [if_neg h5] at h
                  split at h <;> cases h
    · intro h
      simp only [onWords, List.mem_cons, List.not_mem_nil, or_false] at h
      rcases h with rfl | rfl | rfl | rfl | rfl | rfl | rfl | rfl | rfl <;> simp [List.prefix_cons_iff]
  · rw [if_pos hn]
    simp [hn]

/-- White space makes the words false: `<debug> true </debug>` is off. -/
theorem C102_white_space : setBool (bytes " true") = false ∧ setBool (bytes "true\n") = false ∧ setBool (bytes " 1 ") = true := by decide +kernel

example : SwitchedOn (bytes "Yes") := .inr (by decide +kernel)
example : SwitchedOn (bytes " -7 apples") :=
  .inl ⟨-7, ⟨[32], [45], [55], bytes " apples", by decide +kernel, by simp [White], by simp, by simp [Digit], by simp [bytes, Digit], .inr ⟨rfl, by decide⟩⟩, by decide⟩
example : setBool (bytes "off") = false ∧ setBool (bytes "0") = false ∧ setBool (bytes "") = false ∧ setBool (bytes "maybe") = false ∧ setBool (bytes "ON") = true := by decide +kernel

/-! ## C103: numbers -/

/-- **C103, partial.** A member of an integer type gets the number that the text begins with (after white space, with an optional sign), if the type has that number.
Missing: numbers that the type does not have; for them the member should not silently become another number, but it does. -/
theorem C103_number_partial (t : Text) (n : Int) (h : Denotes t n) :
    (-(2 ^ 31) ≤ n → n < 2 ^ 31 → setI32 t = n) ∧ (-(2 ^ 63) ≤ n → n < 2 ^ 63 → setI64 t = n) ∧
    (0 ≤ n → n < 2 ^ 32 → (setU32 t : Int) = n) ∧ (0 ≤ n → n < 2 ^ 64 → (setU64 t : Int) = n) ∧ (0 ≤ n → n < 2 ^ 8 → (setU8 t : Int) = n) := by
  obtain ⟨neg, m, h3, rfl⟩ := scan_denotes t n h
  have hl := strtol_scan t neg m h3
  have hu := (strtoul_scan t neg m h3).1
  generalize signed neg m = n at *
  refine ⟨fun a b => ?_, fun a b => ?_, fun a b => ?_, fun a b => ?_, fun a b => ?_⟩
  · have : near64 n = n := by unfold near64; rw [if_neg (by omega), if_neg (by omega)]
    unfold setI32
    rw [hl, this]
    exact Int.bmod_eq_of_le (by omega) (by omega)
  · have : near64 n = n := by unfold near64; rw [if_neg (by omega), if_neg (by omega)]
    unfold setI64
    rw [hl, this]
  · have := hu a (by omega)
    unfold setU32
    omega
  · exact hu a b
  · have := hu a (by omega)
    unfold setU8
    omega

/-- A text that does not begin with a number gives 0. -/
theorem C103_no_number (t : Text) (h : ¬ ∃ n, Denotes t n) : setI32 t = 0 ∧ setI64 t = 0 ∧ setU32 t = 0 ∧ setU64 t = 0 ∧ setU8 t = 0 := by
  cases hs : scanSigned (skipSpace (cstr t)) with
  | mk neg m =>
    have hm : m = 0 := by
      by_cases hm : m = 0
      · exact hm
      · exact absurd ⟨_, denotes_scan t neg m hs hm⟩ h
    subst hm
    have h0 : signed neg 0 = 0 := by unfold signed; split <;> rfl
    have hl := strtol_scan t neg 0 hs
    have hu := (strtoul_scan t neg 0 hs).1
    rw [h0] at hl hu
    have hu' := hu (by decide) (by decide)
    have hl' : strtol t = 0 := hl.trans (by decide)
    have hu0 : strtoul t = 0 := by omega
    unfold setI32 setI64 setU32 setU64 setU8
    rw [hl', hu0]
    decide

/-- The 64 bit types take the nearest number they have, for a number that is too large; a negative number for an unsigned type is taken modulo 2^64. -/
theorem C103_out_of_range (t : Text) (n : Int) (h : Denotes t n) :
    (2 ^ 63 ≤ n → setI64 t = 2 ^ 63 - 1) ∧ (n < -(2 ^ 63) → setI64 t = -(2 ^ 63)) ∧ (2 ^ 64 ≤ n → setU64 t = 2 ^ 64 - 1) ∧
    (n < 0 → -(2 ^ 64) < n → (setU64 t : Int) = 2 ^ 64 + n) := by
  obtain ⟨neg, m, h3, rfl⟩ := scan_denotes t n h
  have hl := strtol_scan t neg m h3
  obtain ⟨-, hu1, hu2⟩ := strtoul_scan t neg m h3
  generalize signed neg m = n at *
  refine ⟨fun a => ?_, fun a => ?_, hu1, hu2⟩
  · unfold setI64; rw [hl]; unfold near64; rw [if_neg (by omega), if_pos (by omega)]
  · unfold setI64; rw [hl]; unfold near64; rw [if_pos a]

/-- The smaller types wrap around: 4294967297 is read as 1, 256 as 0, -1 as 255, and a number above 2^63 as -1. -/
theorem C103_refuted_wraps :
    setI32 (bytes "4294967297") = 1 ∧ setU8 (bytes "256") = 0 ∧ setU8 (bytes "-1") = 255 ∧ setU32 (bytes "4294967296") = 0 ∧ setI32 (bytes "99999999999999999999") = -1 := by
  decide +kernel

/-- What the smaller types make of every number that has 64 bits: they wrap around, so the member becomes another number for all those that the type does not have. -/
theorem C103_refuted_all (t : Text) (n : Int) (h : Denotes t n) :
    (-(2 ^ 63) ≤ n → n < 2 ^ 63 → setI32 t = Int.bmod n (2 ^ 32) ∧ (n < -(2 ^ 31) ∨ 2 ^ 31 ≤ n → setI32 t ≠ n)) ∧
    (-(2 ^ 64) < n → n < 2 ^ 64 → (setU32 t : Int) = n % 2 ^ 32 ∧ (setU8 t : Int) = n % 2 ^ 8 ∧
      (n < 0 ∨ 2 ^ 32 ≤ n → (setU32 t : Int) ≠ n) ∧ (n < 0 ∨ 2 ^ 8 ≤ n → (setU8 t : Int) ≠ n)) := by
  obtain ⟨neg, m, h3, rfl⟩ := scan_denotes t n h
  have hl := strtol_scan t neg m h3
  obtain ⟨hu, -, hu2⟩ := strtoul_scan t neg m h3
  generalize signed neg m = n at *
  refine ⟨fun a b => ?_, fun a b => ?_⟩
  · have : near64 n = n := by unfold near64; rw [if_neg (by omega), if_neg (by omega)]
    unfold setI32
    rw [hl, this]
    refine ⟨rfl, fun ho he => ?_⟩
    have h1 := Int.le_bmod (x := n) (m := 2 ^ 32) (by decide)
    have h2 := Int.bmod_lt (x := n) (m := 2 ^ 32) (by decide)
    rw [he] at h1 h2
    omega
  · unfold setU32 setU8
    by_cases hn : n < 0
    · have := hu2 hn a
      omega
    · have := hu (by omega) b
      omega

example : Denotes (bytes "\n  +42;") 42 :=
  ⟨bytes "\n  ", [43], bytes "42", [59], by decide +kernel, by simp [bytes, White], by simp [bytes], by simp [bytes, Digit], by simp [Digit], .inl ⟨.inr rfl, by decide⟩⟩
example : ¬ ∃ n, Denotes (bytes "x1") n := by
  rintro ⟨n, h⟩
  obtain ⟨ws, sign, ds, tail, h1, h2, h3, h4, h5, h6⟩ := h
  cases ws with
  | cons w ws =>
    have := h2 w (by simp)
    simp [bytes] at h1
    obtain ⟨rfl, -⟩ := h1
    simp [White] at this
  | nil =>
    rcases h6 with ⟨rfl | rfl, -⟩ | ⟨rfl, -⟩
    · cases ds with
      | nil => exact h3 rfl
      | cons d ds =>
        have := h4 d (by simp)
        simp [bytes] at h1
        obtain ⟨rfl, -⟩ := h1
        simp [Digit] at this
    · simp [bytes] at h1
    · simp [bytes] at h1

end Verif.Txml
