import Verif.Props.Main

/-!
# C85: the program on P-automata in JSON
-/

namespace Verif.Props

open Verif Verif.Json Verif.Instance

section
variable {e : ProgEnv} {w : World} {o : ProgOpts} {pda : List JEv}

theorem read_docs {da db : List JEv} (hh : Holds e w o pda (.json da db)) (hf : SameWord o.format "pdaaal") {k : WKind} (hw : getWeightType o.weight = some k)
    {p : NPda String String k.Carrier} (hp : parsePda k.io o.names pda = some p) :
    readInstance e w o = (parseJInstance o.names p da db).bind fun x => .ok ⟨k, o.names, x.1, x.2.1, x.2.2⟩ := by
  rw [read_pda hh hf hw hp]
  obtain ⟨hj, ⟨s, h1, h2⟩, s', h3, h4⟩ := hh.automata
  have hi : readAutomaton e w o o.initial p = parseJAut o.names p da := by
    unfold readAutomaton
    rw [h1, hj]
    simp only [if_true, h2]
  have hfin : ∀ p : NPda String String k.Carrier, readAutomaton e w o o.final p = parseJAut o.names p db := by
    intro p
    unfold readAutomaton
    rw [h3, hj]
    simp only [if_true, h4]
  unfold parseJInstance
  rw [hi]
  cases parseJAut o.names p da with
  | error => rfl
  | undefined => rfl
  | ok x =>
    simp only [SaxRes.bind, hfin]
    cases parseJAut o.names x.1 db <;> rfl

/-- C85, the whole program with trace type none or any on P-automata in JSON: it ends with status 0 and writes a JSON object that tells whether a
configuration that the first document describes reaches one that the second describes, and a run if it is asked for one. The full statement is
for all documents, without the number of labels, the limit on states, and the order of rules with signed weights; see C75. -/
theorem c85_json_partial (hk : Works o) (hc : CanPrint w o) {fs gs : List JField} (hh : Holds e w o pda (.json (autEvents fs) (autEvents gs)))
    (hf : SameWord o.format "pdaaal") {k : WKind} (hw : getWeightType o.weight = some k) (ho : IsObject pda) {p p' : NPda String String k.Carrier}
    (hp : parsePda k.io o.names pda = some p) (hpi : Doc.Pure o.names p fs) (hsi : Doc.Small p fs) (hpf : Doc.Pure o.names p gs) (hsf : Doc.Small p gs)
    (hli : Doc.Legal o.names p fs) (hlf : Doc.Legal o.names p gs) {a b : NAut k.Carrier}
    (hi : parseJInstance o.names p (autEvents fs) (autEvents gs) = .ok (p', a, b)) (hl : p'.labels.length < epsilon) (he : 1 ≤ o.engine ∧ o.engine ≤ 3)
    (hr : o.engine = 1 ∨ k ≠ .int ∨ p.core.LookupOK) {any : Bool} (ht : o.trace = if any then .any else .none)
    (hm : any = true → StatesFit (searched e.order p'.core a.toAut b.toAut o.engine)) :
    (prog e w o).ending = .code 0 ∧ ∃ r out, (prog e w o).out = some out ∧
      Tells (· ∈ p'.allRules) (DocSet o.names p fs) (DocSet o.names p gs) (["post*", "pre*", "dual*"].getD (o.engine - 1) "") any r ∧
      JText (JTree.ofEntries (parsingEntry e o ++ reportEntries e.val (e.num k) e.time ⟨r.engine, r.result, none, r.trace⟩)) out := by
  obtain ⟨w1, w2, w3⟩ := c77_wellformed k.io ho hp
  have hlook : o.engine = 1 ∨ p.core.LookupOK := hr.imp_right fun h => h.elim (lookup_read hp) id
  obtain ⟨r, h1, h2⟩ := c75_report_partial e.order e.order' w3 w1 w2 hpi hsi hpf hsf hli hlf hi hl o.engine he hlook any hm
  have hread : readInstance e w o = .ok ⟨k, o.names, p', a, b⟩ := by
    rw [read_docs hh hf hw hp, hi]
    rfl
  have hv : progVerify e o ⟨k, o.names, p', a, b⟩ = some (.report ⟨r.engine, r.result, none, r.trace⟩) := by
    unfold runJson at h1
    rw [hi] at h1
    simp only [] at h1
    unfold progVerify
    cases any <;> rw [ht] <;> simp only [Bool.false_eq_true, if_false, if_true] <;> rw [h1] <;> rfl
  obtain ⟨e1, _, e2⟩ := c85_output hk hc hread (.inr (by cases any <;> rw [ht] <;> simp))
  obtain ⟨out, h3, h4⟩ := e2 _ hv
  exact ⟨e1.2 (.inr ⟨_, hv⟩), r, out, h3, h2, h4⟩

/-- C85: a document that is not one of a P-automaton is refused, and nothing is written; others are read. The full statement is for all documents;
see C74. -/
theorem c85_json_refused_partial (hk : Works o) {fs gs : List JField} (hh : Holds e w o pda (.json (autEvents fs) (autEvents gs)))
    (hf : SameWord o.format "pdaaal") {k : WKind} (hw : getWeightType o.weight = some k) (ho : IsObject pda) {p : NPda String String k.Carrier}
    (hp : parsePda k.io o.names pda = some p) (hsi : Doc.Small p fs) (hsf : Doc.Small p gs) :
    (¬ Doc.OK o.names p fs ∨ ¬ Doc.OK o.names p gs → prog e w o = ⟨.thrown, some [], w.files⟩) ∧
    (Doc.OK o.names p fs → Doc.OK o.names p gs → ∃ i, readInstance e w o = .ok i ∧ i.kind = k ∧ i.names = o.names) := by
  obtain ⟨-, -, w3⟩ := c77_wellformed k.io ho hp
  rcases parseJInstance_any w3 hsi hsf with ⟨⟨g1, g2⟩, p1, p2, a1, b1, h1, -, -⟩ | ⟨g, h1⟩
  · refine ⟨fun h => (h.elim (absurd g1) (absurd g2)), fun _ _ => ⟨⟨k, o.names, p2, a1, b1⟩, ?_, rfl, rfl⟩⟩
    rw [read_docs hh hf hw hp, h1]
    rfl
  · refine ⟨fun _ => prog_error hk ?_, fun h h' => absurd ⟨h, h'⟩ g⟩
    rw [read_docs hh hf hw hp, h1]
    rfl

/-- C85: with `--json-automata`, an initial automaton that is no JSON is refused, and nothing is written. -/
theorem c85_json_malformed (hk : Works o) (hs : Separate o) (hj : o.jsonAutomata = true) {s : List Char} (hi : w.files o.initial = some s)
    (hn : e.read false s = none) : prog e w o = ⟨.thrown, some [], w.files⟩ := by
  refine prog_error hk ?_
  rw [read_sep hs]
  unfold readSeparate
  cases getFormat o.format with
  | none => rfl
  | some f =>
    cases getWeightType o.weight with
    | none => rfl
    | some k =>
      simp only []
      cases (if o.pda = "-" then some w.stdin else w.files o.pda) with
      | none => rfl
      | some text =>
        cases f with
        | moped => rfl
        | pdaaal =>
          simp only []
          cases (e.read false text).bind (parsePda k.io o.names) with
          | none => rfl
          | some p =>
            simp only []
            have : readAutomaton e w o o.initial p = .error := by
              unfold readAutomaton
              rw [hi, hj]
              simp only [if_true, hn]
            rw [this]
            rfl

/-! ## One document -/

/-- The document is in the file given with `--input`, or on standard input. -/
def Given (e : ProgEnv) (w : World) (o : ProgOpts) (doc : List JEv) : Prop :=
  ∃ s, e.read o.msgpack s = some doc ∧
    ((o.input ≠ "" ∧ o.input ≠ "-" ∧ w.files o.input = some s) ∨
      ((o.input = "-" ∨ (o.input = "" ∧ o.pda = "" ∧ o.initial = "" ∧ o.final = "")) ∧ w.stdin = s))

theorem read_given {doc : List JEv} (hg : Given e w o doc) : readInstance e w o = parseInstDoc doc := by
  obtain ⟨s, h1, ⟨h2, h3, h4⟩ | ⟨h2, h3⟩⟩ := hg
  · rw [read_input h2, if_neg h3, h4]
    unfold readStream
    simp only [h1]
  · have : readInstance e w o = readStream e o (some w.stdin) := by
      rcases h2 with h2 | ⟨h2, h4, -⟩
      · rw [read_input (by rw [h2]; decide), if_pos h2]
      · exact read_stdin h2 (.inl h4) e w
    rw [this, h3]
    unfold readStream
    simp only [h1]

section
variable {q : List JEv} {ts : List TField} {names : Bool} {k : WKind} {p p' : NPda String String k.Carrier} {fs gs : List JField}

/-- C85, the whole program with trace type none or any on one document: it ends with status 0 and writes a JSON object that tells whether a
configuration of the first automaton reaches one of the second, and a run if it is asked for one. The full statement is for all documents, without
the number of labels, the limit on states, and the order of rules with signed weights; see C77. -/
theorem c85_document_partial (hk : Works o) (hc : CanPrint w o) (hg : Given e w o (instEvents (typeEvents ts) q (autInner fs) (autInner gs)))
    (hq : IsObject q) (htype : typeOf ts = some (names, k)) (hp : parsePda k.io names (pdaDoc q) = some p)
    (hpi : Doc.Pure names p fs) (hsi : Doc.Small p fs) (hpf : Doc.Pure names p gs) (hsf : Doc.Small p gs)
    (hli : Doc.Legal names p fs) (hlf : Doc.Legal names p gs) {a b : NAut k.Carrier}
    (hi : parseInstDoc (instEvents (typeEvents ts) q (autInner fs) (autInner gs)) = .ok ⟨k, names, p', a, b⟩) (hl : p'.labels.length < epsilon)
    (he : 1 ≤ o.engine ∧ o.engine ≤ 3) (hr : o.engine = 1 ∨ k ≠ .int ∨ p.core.LookupOK) {any : Bool} (ht : o.trace = if any then .any else .none)
    (hm : any = true → StatesFit (searched e.order p'.core a.toAut b.toAut o.engine)) :
    (prog e w o).ending = .code 0 ∧ ∃ r out, (prog e w o).out = some out ∧
      Tells (· ∈ p'.allRules) (DocSet names p fs) (DocSet names p gs) (["post*", "pre*", "dual*"].getD (o.engine - 1) "") any r ∧
      JText (JTree.ofEntries (parsingEntry e o ++ reportEntries e.val (e.num k) e.time ⟨r.engine, r.result, none, r.trace⟩)) out := by
  obtain ⟨r, h1, h2⟩ := c77_report_partial e.order e.order' hq htype hp hpi hsi hpf hsf hli hlf hi hl o.engine he hr any hm
  have hread : readInstance e w o = .ok ⟨k, names, p', a, b⟩ := (read_given hg).trans hi
  have hv : progVerify e o ⟨k, names, p', a, b⟩ = some (.report ⟨r.engine, r.result, none, r.trace⟩) := by
    unfold runInst at h1
    rw [hi] at h1
    simp only [] at h1
    unfold progVerify
    cases any <;> rw [ht] <;> simp only [Bool.false_eq_true, if_false, if_true] <;> rw [h1] <;> rfl
  obtain ⟨e1, _, e2⟩ := c85_output hk hc hread (.inr (by cases any <;> rw [ht] <;> simp))
  obtain ⟨out, h3, h4⟩ := e2 _ hv
  exact ⟨e1.2 (.inr ⟨_, hv⟩), r, out, h3, h2, h4⟩

/-- C85: a document is refused, and nothing is written, exactly if an automaton is not well-formed. The full statement is for all documents; see
C77. -/
theorem c85_document_refused_partial (hk : Works o) (hg : Given e w o (instEvents (typeEvents ts) q (autInner fs) (autInner gs)))
    (hq : IsObject q) (htype : typeOf ts = some (names, k)) (hp : parsePda k.io names (pdaDoc q) = some p)
    (hsi : Doc.Small p fs) (hsf : Doc.Small p gs) :
    (¬ Doc.Inner names p fs ∨ ¬ Doc.Inner names p gs → prog e w o = ⟨.thrown, some [], w.files⟩) ∧
    (Doc.Inner names p fs → Doc.Inner names p gs → ∃ i, readInstance e w o = .ok i ∧ i.kind = k ∧ i.names = names) := by
  rcases inst_any hq htype hp hsi hsf with ⟨⟨g1, g2⟩, p1, p2, a1, b1, h1, -, -⟩ | ⟨g, h1⟩
  · exact ⟨fun h => (h.elim (absurd g1) (absurd g2)), fun _ _ => ⟨_, (read_given hg).trans h1, rfl, rfl⟩⟩
  · exact ⟨fun _ => prog_error hk ((read_given hg).trans h1), fun h h' => absurd ⟨h, h'⟩ g⟩

end

/-- C85: a document is refused, and nothing is written, if it is no JSON, or if its first two elements are not the type and a PDA of that type. -/
theorem c85_document_malformed (hk : Works o) :
    (∀ s, o.input ≠ "" → o.input ≠ "-" → w.files o.input = some s → e.read o.msgpack s = none → prog e w o = ⟨.thrown, some [], w.files⟩) ∧
    (∀ (ts : List TField) (q a b : List JEv), IsObject q → IsObject a → IsObject b → Given e w o (instEvents (typeEvents ts) q a b) →
      (∀ names k, typeOf ts = some (names, k) → parsePda k.io names (pdaDoc q) = none) → prog e w o = ⟨.thrown, some [], w.files⟩) := by
  constructor
  · intro s h1 h2 h3 h4
    refine prog_error hk ?_
    rw [read_input h1, if_neg h2, h3]
    unfold readStream
    simp only [h4]
  · intro ts q a b hq ha hb hg hr
    refine prog_error hk ((read_given hg).trans ?_)
    rw [parse_inst ts hq ha hb]
    cases ht : typeOf ts with
    | none => rfl
    | some x =>
      obtain ⟨names, k⟩ := x
      have := hr names k ht
      unfold pdaDoc at this
      simp only [SaxRes.of, SaxRes.bind]
      rw [this]

end

/-! ## Cases -/

/-- A library that reads `P` as the PDA, `J` and `K` as the automata of C75, `N` as a document without accepting states, and nothing else. -/
def jsonEnv : ProgEnv :=
  { sumEnv 0 with read := fun _ s => if s = ['P'] then some (pdaDoc sumDoc) else if s = ['J'] then some (autEvents jsonIni) else
      if s = ['K'] then some (autEvents jsonFin) else if s = ['N'] then some (autEvents [.edges [], .initial []]) else none }

/-- The file `i` contains `c`. -/
def jsonWorld (c : Char) : World where
  files := fun f => if f = "p" then some ['P'] else if f = "i" then some [c] else if f = "f" then some ['K'] else none
  stdin := []
  writable := fun _ => false

def jsonOpts (engine : Nat) (t : TraceOpt) : ProgOpts :=
  { pda := "p", initial := "i", final := "f", weight := "uint".toList, jsonAutomata := true, engine := engine, trace := t }

theorem json_holds (engine : Nat) (t : TraceOpt) {c : Char} {es : List JEv} (hc : jsonEnv.read false [c] = some es) :
    Holds jsonEnv (jsonWorld c) (jsonOpts engine t) (pdaDoc sumDoc) (.json es (autEvents jsonFin)) where
  sep := ⟨rfl, (by decide : "p" ≠ ""), (by decide : "i" ≠ ""), (by decide : "f" ≠ "")⟩
  pda := ⟨['P'], (if_neg (by decide : "p" ≠ "-")).trans rfl, rfl⟩
  automata := ⟨rfl, ⟨[c], rfl, hc⟩, ['K'], rfl, rfl⟩

theorem sumFile_two : sumFilePda.states.length = 2 := by decide +kernel

theorem sum_legal {fs : List JField} {es : List (JRef × String × JRef)} (h : fs.filterMap (fun | .edges l => some l | _ => none) = [es])
    (he : ∀ x ∈ es, x.2.1 ≠ "" ∧ ∃ n, x.2.2 = .num n ∧ 2 ≤ n) : Doc.Legal false sumFilePda fs := by
  intro r l r' hE
  obtain ⟨h1, n, rfl, h2⟩ := he _ ((edge_iff es fs h r r' l).1 hE)
  exact ⟨h1, fun c hc => by obtain ⟨_, rfl, hc⟩ := hc; rw [sumFile_two] at hc; omega⟩

def docSumPda : NPda String String ℤ := { sumFilePda with labels := ["a", "b", "c"] }
def docSumA : NAut ℤ := { acc := [false, false, true], edges := [(⟨0, 0, 2⟩, (Trace.null, 0))] }
def docSumB : NAut ℤ := { acc := [false, false, true], edges := [(⟨1, 2, 2⟩, (Trace.null, 0)), (⟨1, 0, 2⟩, (Trace.null, 0))] }

theorem sum_json : parseJInstance (W := ℤ) false sumFilePda (autEvents jsonIni) (autEvents jsonFin) = .ok (docSumPda, docSumA, docSumB) := rfl

theorem sum_json_fit (engine : Nat) (he : 1 ≤ engine ∧ engine ≤ 3) : StatesFit (searched HashOrder.id docSumPda.core docSumA.toAut docSumB.toAut engine) := by
  obtain rfl | rfl | rfl : engine = 1 ∨ engine = 2 ∨ engine = 3 := by omega
  · exact ⟨by decide +kernel, by decide +kernel, by decide +kernel⟩
  · exact ⟨by decide +kernel, by decide +kernel, by decide +kernel⟩
  · exact ⟨by decide +kernel, by decide +kernel, by decide +kernel⟩

/-- Non-vacuity of `c85_json_partial`: every engine reports a run. -/
example (engine : Nat) (he : 1 ≤ engine ∧ engine ≤ 3) : (prog jsonEnv (jsonWorld 'J') (jsonOpts engine .any)).ending = .code 0 :=
  (c85_json_partial (e := jsonEnv) (w := jsonWorld 'J') (o := jsonOpts engine .any) (k := .uint) (any := true) (p' := docSumPda) (a := docSumA) (b := docSumB) ⟨rfl, rfl⟩
    ⟨fun h => absurd rfl h, fun h => absurd rfl h⟩ (json_holds engine .any rfl) sum_format rfl (object_in sumDoc_object "pda") sumDoc_read
    (fun h => by cases h) (by unfold Doc.Small; decide +kernel) (fun h => by cases h) (by unfold Doc.Small; decide +kernel)
    (sum_legal (es := [(.num 0, "a", .num 9)]) rfl (by simp)) (sum_legal (es := [(.num 1, "a", .num 5), (.num 1, "c", .num 5)]) rfl (by simp)) sum_json (by decide) he
    (.inr (.inl (by decide))) rfl fun _ => sum_json_fit engine he).1

/-- A document without accepting states is refused. -/
example : prog jsonEnv (jsonWorld 'N') (jsonOpts 1 .none) = ⟨.thrown, some [], (jsonWorld 'N').files⟩ :=
  (c85_json_refused_partial (k := .uint) ⟨rfl, rfl⟩ (json_holds 1 .none (c := 'N') rfl) sum_format rfl (object_in sumDoc_object "pda") sumDoc_read
    (by unfold Doc.Small; decide +kernel) (by unfold Doc.Small; decide +kernel)).1
    (.inl fun h => by have := h.entries.length_eq; cases this)

/-- `x` is no JSON. -/
example : prog jsonEnv (jsonWorld 'x') (jsonOpts 1 .none) = ⟨.thrown, some [], (jsonWorld 'x').files⟩ :=
  c85_json_malformed ⟨rfl, rfl⟩ ⟨rfl, (by decide : "p" ≠ ""), (by decide : "i" ≠ ""), (by decide : "f" ≠ "")⟩ rfl (s := ['x']) rfl rfl

/-- A library that reads `D` as the instance of C77, `E` as one without accepting states, `T` as one
with an empty type, and nothing else. -/
def docEnv : ProgEnv :=
  { sumEnv 0 with read := fun _ s => if s = ['D'] then some (instEvents (typeEvents instType) instText (autInner instIni) (autInner instFin)) else
      if s = ['E'] then some (instEvents (typeEvents instType) instText (autInner [.edges []]) (autInner instFin)) else
      if s = ['T'] then some (instEvents (typeEvents []) instText (autInner instIni) (autInner instFin)) else none }

def docWorld (c : Char) : World := ⟨fun f => if f = "d" then some [c] else none, [c], fun _ => false⟩

/-- On standard input: every engine reports a run. -/
example (engine : Nat) (he : 1 ≤ engine ∧ engine ≤ 3) : (prog docEnv (docWorld 'D') { engine := engine, trace := .any }).ending = .code 0 :=
  (c85_document_partial (e := docEnv) (w := docWorld 'D') (o := { engine := engine, trace := .any }) (ts := instType) (k := .none) (any := true) ⟨rfl, rfl⟩
    ⟨fun h => absurd rfl h, fun h => absurd rfl h⟩ ⟨['D'], rfl, .inr ⟨.inr ⟨rfl, rfl, rfl, rfl⟩, rfl⟩⟩ instText_object rfl inst_pdaRead
    (fun h => by cases h) (by unfold Doc.Small; decide) (fun h => by cases h) (by unfold Doc.Small; decide) instIni_legal instFin_legal inst_read (by decide)
    he (.inr (.inl (by decide))) rfl fun _ => inst_fit engine he).1

/-- In a file: an automaton without accepting states is refused. -/
example : prog docEnv (docWorld 'E') { input := "d", engine := 1 } = ⟨.thrown, some [], (docWorld 'E').files⟩ :=
  (c85_document_refused_partial (ts := instType) (k := .none) ⟨rfl, rfl⟩ ⟨['E'], rfl, .inl ⟨(by decide : "d" ≠ ""), (by decide : "d" ≠ "-"), rfl⟩⟩ instText_object
    rfl inst_pdaRead (by unfold Doc.Small; decide) (by unfold Doc.Small; decide)).1
    (.inl fun h => by have := h.entries.length_eq; cases this)

/-- In a file: `x` is no JSON. -/
example : prog docEnv (docWorld 'x') { input := "d", engine := 1 } = ⟨.thrown, some [], (docWorld 'x').files⟩ :=
  (c85_document_malformed ⟨rfl, rfl⟩).1 ['x'] (by decide : "d" ≠ "") (by decide : "d" ≠ "-") rfl rfl

/-- On standard input: an empty type. -/
example : prog docEnv (docWorld 'T') { engine := 1 } = ⟨.thrown, some [], (docWorld 'T').files⟩ :=
  (c85_document_malformed ⟨rfl, rfl⟩).2 [] instText (autInner instIni) (autInner instFin) instText_object (autInner_object _) (autInner_object _)
    ⟨['T'], rfl, .inr ⟨.inr ⟨rfl, rfl, rfl, rfl⟩, rfl⟩⟩ fun _ _ h => by cases h

end Verif.Props
