import Verif.Proofs.JsonWF
import Verif.Proofs.JsonWeights
import Verif.Proofs.JsonMoves
import Verif.Props.JsonReport

/-! # C77: solver instances in JSON -/

namespace Verif.Props

open Verif Verif.Instance

/-! ## Texts -/

theorem completes_iff (es : List JEv) : ∀ f, Completes f es ↔ es.foldlM JFrame.after f = some [] := by
  induction es with
  | nil =>
    intro f
    simp only [List.foldlM_nil]
    constructor
    · intro h; cases h; rfl
    · intro h; cases h; exact .done
  | cons e es ih =>
    intro f
    rw [List.foldlM_cons]
    constructor
    · intro h
      cases h with
      | step h1 h2 => rw [h1]; exact (ih _).1 h2
    · intro h
      obtain ⟨f', h1, h2⟩ := Option.bind_eq_some_iff.1 h
      exact .step h1 ((ih f').2 h2)

theorem isObject_iff (es : List JEv) : IsObject (.startObj :: es) ↔ es.foldlM JFrame.after [.key] = some [] := by
  rw [← completes_iff]
  constructor
  · rintro ⟨es', h, h1⟩
    cases h
    exact h1
  · exact fun h => ⟨es, rfl, h⟩

theorem refs_after (l : List JRef) (f : List JFrame) : (l.map JRef.event).foldlM JFrame.after (.arr :: f) = some (.arr :: f) := by
  induction l with
  | nil => rfl
  | cons r l ih =>
    rw [List.map_cons, List.foldlM_cons]
    cases r <;> exact ih

theorem edges_after (l : List (JRef × String × JRef)) (f : List JFrame) : (l.flatMap edgeEvents).foldlM JFrame.after (.arr :: f) = some (.arr :: f) := by
  induction l with
  | nil => rfl
  | cons e l ih =>
    rw [List.flatMap_cons, List.foldlM_append]
    obtain ⟨r, s, r'⟩ := e
    have : (edgeEvents (r, s, r')).foldlM JFrame.after (.arr :: f) = some (.arr :: f) := by cases r <;> cases r' <;> rfl
    rw [this]
    exact ih

theorem fields_after (fs : List JField) (f : List JFrame) : (fs.flatMap JField.events).foldlM JFrame.after (.key :: f) = some (.key :: f) := by
  induction fs with
  | nil => rfl
  | cons x l ih =>
    rw [List.flatMap_cons, List.foldlM_append]
    have : x.events.foldlM JFrame.after (.key :: f) = some (.key :: f) := by
      cases x with
      | initial l =>
        show ((l.map JRef.event) ++ [JEv.endArr]).foldlM JFrame.after (.arr :: .key :: f) = _
        rw [List.foldlM_append, refs_after]
        rfl
      | accepting l =>
        show ((l.map JRef.event) ++ [JEv.endArr]).foldlM JFrame.after (.arr :: .key :: f) = _
        rw [List.foldlM_append, refs_after]
        rfl
      | edges l =>
        show ((l.flatMap edgeEvents) ++ [JEv.endArr]).foldlM JFrame.after (.arr :: .key :: f) = _
        rw [List.foldlM_append, edges_after]
        rfl
    rw [this]
    exact ih

theorem autInner_object (fs : List JField) : IsObject (autInner fs) := by
  refine (isObject_iff _).2 ?_
  show (fs.flatMap JField.events ++ [JEv.endObj]).foldlM JFrame.after [.key] = _
  rw [List.foldlM_append, fields_after]
  rfl

theorem after_append {f f' : List JFrame} {e : JEv} (g : List JFrame) (h : JFrame.after f e = some f') : JFrame.after (f ++ g) e = some (f' ++ g) := by
  cases f with
  | nil => cases e <;> cases h
  | cons x r => cases x <;> cases e <;> cases h <;> rfl

theorem completes_append {f g : List JFrame} {es rest : List JEv} (h : Completes f es) (hg : Completes g rest) : Completes (f ++ g) (es ++ rest) := by
  induction h with
  | done => exact hg
  | step h1 _ ih => exact .step (after_append g h1) ih

/-- More around an object. -/
theorem object_in {es : List JEv} (h : IsObject es) (k : String) : IsObject ([.startObj, .key k] ++ es ++ [.endObj]) := by
  obtain ⟨es', rfl, h⟩ := h
  refine ⟨[.key k, .startObj] ++ (es' ++ [.endObj]), by simp, ?_⟩
  exact .step rfl (.step rfl (completes_append (g := [.key]) h (.step rfl .done)))

/-! ## The four elements -/

/-- The PDA alone, as a document. -/
def pdaDoc (q : List JEv) : List JEv := [.startObj, .key "pda"] ++ q ++ [.endObj]

/-- The automaton alone, as a document. -/
def autDoc (a : List JEv) : List JEv := [.startObj, .key "P-automaton"] ++ a ++ [.endObj]

/-- C77, the elements: an instance is read like four documents, one for each element, whatever texts the objects of the PDA and of the
automata are. The type determines how the PDA is read. The automata need not give their initial states. -/
theorem c77_elements (ts : List TField) {q a b : List JEv} (hq : IsObject q) (ha : IsObject a) (hb : IsObject b) (i : Inst) :
    parseInstDoc (instEvents (typeEvents ts) q a b) = .ok i ↔
      typeOf ts = some (i.names, i.kind) ∧ ∃ p p1, parsePda i.kind.io i.names (pdaDoc q) = some p ∧
        parseJAutR false i.names p (autDoc a) = .ok (p1, i.ini) ∧ parseJAutR false i.names p1 (autDoc b) = .ok (i.pda, i.fin) := by
  have ok : ∀ {α β : Type} (x : SaxRes α) (f : α → SaxRes β) (y : β), x.bind f = .ok y ↔ ∃ z, x = .ok z ∧ f z = .ok y := by
    intro α β x f y
    cases x <;> simp [SaxRes.bind]
  have of : ∀ {α : Type} (x : Option α) (y : α), SaxRes.of x = .ok y ↔ x = some y := by
    intro α x y
    cases x <;> simp [SaxRes.of]
  rw [parse_inst ts hq ha hb]
  simp only [ok, of]
  constructor
  · rintro ⟨⟨names, k⟩, h1, p, h2, ⟨p1, a1⟩, h3, ⟨p2, b1⟩, h4, h5⟩
    cases h5
    exact ⟨h1, p, p1, h2, h3, h4⟩
  · rintro ⟨h1, p, p1, h2, h3, h4⟩
    exact ⟨_, h1, p, h2, _, h3, _, h4, rfl⟩

variable {ts : List TField} {q : List JEv} {names : Bool} {k : WKind} {p p' : NPda String String k.Carrier} {fs gs : List JField}

theorem inner_congr {W : Type} {p p' : NPda String String W} (hs : p'.states = p.states) (hm : p'.names = p.names) : Doc.Inner names p' fs ↔ Doc.Inner names p fs := by
  constructor
  · rintro ⟨h1, h2, h3⟩
    exact ⟨h1, fun r hr => (h2 r hr).imp fun c => (denotes_congr hs hm r c).1, h3⟩
  · rintro ⟨h1, h2, h3⟩
    exact ⟨h1, fun r hr => (h2 r hr).imp fun c => (denotes_congr hs hm r c).2, h3⟩

/-- C77: every JSON object that is read as a PDA gives a well-formed one. No label and no state name is there twice, every state has a
name if names are used, and the labels and states of the rules exist. -/
theorem c77_wellformed {W : Type} [LinearOrder W] (io : WeightIO W) {es : List JEv} (hes : IsObject es) {p : NPda String String W}
    (h : parsePda io names es = some p) : p.labels.Nodup ∧ p.core.WF ∧ NamesOK names p := by
  have := JsonWF.parsePda_good hes h
  exact ⟨this.nodup, this.wf, fun hn => ⟨this.nm, this.len hn⟩⟩

/-- The numbers that can be in a weight. -/
def _root_.Verif.WKind.Allows : WKind → Int → Prop
  | .none, _ => False
  | .uint, z => 0 ≤ z ∧ z < 4294967295
  | .uints, z => 0 ≤ z ∧ z < 4294967295
  | .int, z => -2147483648 < z ∧ z < 2147483647
  | .ints, z => -2147483648 < z ∧ z < 2147483647

theorem puts_scalar (k : NumT) (P : Int → Prop) (h0 : P 0) (h : ∀ z, 0 ≤ z ∨ k.signed = true → WeightIO.inRange k z = true → P z) :
    JsonWeights.Puts (fun w => ∀ z ∈ (WeightIO.scalar k).nums w, P z) (WeightIO.scalar k) := by
  refine ⟨fun z hz => by rw [List.mem_singleton.1 hz]; exact h0, fun w z w' hz _ he => ?_⟩
  simp only [WeightIO.scalar] at hz he
  split at he
  · rename_i hc
    cases he
    intro y hy
    rw [List.mem_singleton.1 hy]
    exact h z hz hc
  · cases he

theorem puts_vector (k : NumT) (P : Int → Prop) (h : ∀ z, 0 ≤ z ∨ k.signed = true → WeightIO.inRange k z = true → P z) :
    JsonWeights.Puts (fun w => ∀ z ∈ (WeightIO.vector k).nums w, P z) (WeightIO.vector k) := by
  refine ⟨fun z hz => (by cases hz), fun w z w' hz hw he => ?_⟩
  simp only [WeightIO.vector] at hz he hw
  split at he
  · rename_i hc
    cases he
    intro y hy
    rcases List.mem_append.1 hy with hy | hy
    · exact hw y hy
    · rw [List.mem_singleton.1 hy]
      exact h z hz hc
  · cases he

theorem puts_allows : (k : WKind) → JsonWeights.Puts (fun w => ∀ z ∈ k.io.nums w, k.Allows z) k.io
  | .none => ⟨fun z hz => (by cases hz), fun w z w' _ _ h => (by cases h)⟩
  | .uint => puts_scalar (.uint 32) _ ⟨by decide, by decide⟩ fun z hz hc => by
      simp [WeightIO.inRange, NumT.uint] at hc hz
      exact ⟨hz, of_decide_eq_true hc⟩
  | .int => puts_scalar (.sint 32) _ ⟨by decide, by decide⟩ fun z hz hc => by
      simp [WeightIO.inRange, NumT.sint] at hc
      exact ⟨by omega, by omega⟩
  | .uints => puts_vector (.uint 32) _ fun z hz hc => by
      simp [WeightIO.inRange, NumT.uint] at hc hz
      exact ⟨hz, of_decide_eq_true hc⟩
  | .ints => puts_vector (.sint 32) _ fun z hz hc => by
      simp [WeightIO.inRange, NumT.sint] at hc
      exact ⟨by omega, by omega⟩

/-- C77: the numbers in the weights of a PDA that was read lie between the bounds of the type. -/
theorem c77_weights {k : WKind} {es : List JEv} (hes : IsObject es) {p : NPda String String k.Carrier} (h : parsePda k.io names es = some p) {r : TRule String k.Carrier}
    (hr : r ∈ p.allRules) : ∀ z ∈ k.io.nums r.weight, k.Allows z := by
  obtain ⟨u, hu, rfl⟩ := (TPda.mem_allRules p.toTPda r).1 hr
  obtain ⟨⟨ls, hls, _⟩, _⟩ := (Verif.Json.covers_has (JsonWF.parsePda_good hes h).wf u).1 hu
  exact JsonWeights.parsePda_weights (puts_allows k) h _ _ hls

/-- Without negative weights no rule is missed by the lookup of the rules into a state. -/
theorem lookup_read {k : WKind} {es : List JEv} {p : NPda String String k.Carrier} (h : parsePda k.io names es = some p) (hk : k ≠ .int) : p.core.LookupOK := by
  intro i x hx _ _ hn
  have hw := JsonWeights.parsePda_weights (puts_allows k) h i x hx
  cases k with
  | none => cases hn
  | uint =>
    have h0 : (0 : Int) ≤ x.1.weight := (hw x.1.weight (List.mem_singleton.2 rfl)).1
    exact absurd hn (Int.not_lt.2 h0)
  | int => exact hk rfl
  | uints => exact absurd hn (List.not_lt_nil (x.1.weight : List Int))
  | ints => exact absurd hn (List.not_lt_nil (x.1.weight : List Int))

/-- What is read from an instance whose type and PDA are accepted. -/
theorem inst_spec (hq : IsObject q) (ht : typeOf ts = some (names, k)) (hp : parsePda k.io names (pdaDoc q) = some p)
    (hpi : Doc.Pure names p fs) (hsi : Doc.Small p fs) (hpf : Doc.Pure names p gs) (hsf : Doc.Small p gs) :
    ((Doc.Inner names p fs ∧ Doc.Inner names p gs) ∧ ∃ p1 p2 a b ν μ, parseInstDoc (instEvents (typeEvents ts) q (autInner fs) (autInner gs)) = .ok ⟨k, names, p2, a, b⟩ ∧
      Reads names p fs p1 a.toAut ν ∧ Reads names p1 gs p2 b.toAut μ) ∨
    (¬ (Doc.Inner names p fs ∧ Doc.Inner names p gs) ∧ parseInstDoc (instEvents (typeEvents ts) q (autInner fs) (autInner gs)) = .error) := by
  obtain ⟨_, _, hn⟩ := c77_wellformed _ (object_in hq "pda") hp
  have e : ∀ fs, [JEv.startObj, .key "P-automaton"] ++ autInner fs ++ [.endObj] = autEvents fs := by
    intro fs
    simp [autInner, autEvents]
  rw [parse_inst ts hq (autInner_object fs) (autInner_object gs), ht]
  simp only [SaxRes.of, SaxRes.bind, e]
  have hp : parsePda k.io names ([.startObj, .key "pda"] ++ q ++ [.endObj]) = some p := hp
  rw [hp]
  simp only
  rcases parse_readsR false hn hpi hsi with ⟨h1, p1, a, ν, h2, h3⟩ | ⟨h1, h2⟩
  · rw [h2]
    have hn1 : NamesOK names p1 := fun h => by rw [h3.sameNames, h3.states]; exact hn h
    have hp1 : Doc.Pure names p1 gs := fun h => by rw [h3.sameNames]; exact hpf h
    have hs1 : Doc.Small p1 gs := by unfold Doc.Small; rw [h3.states]; exact hsf
    rcases parse_readsR false hn1 hp1 hs1 with ⟨k1, p2, b, μ, k2, k3⟩ | ⟨k1, k2⟩
    · refine .inl ⟨⟨h1, (inner_congr h3.states h3.sameNames).1 k1⟩, p1, p2, a, b, ν, μ, ?_, h3, k3⟩
      simp only [k2]
    · refine .inr ⟨fun h => k1 ((inner_congr h3.states h3.sameNames).2 h.2), ?_⟩
      simp only [k2]
  · rw [h2]
    exact .inr ⟨fun h => h1 h.1, rfl⟩

/-- The same, without the automata, for any automata. -/
theorem inst_any (hq : IsObject q) (ht : typeOf ts = some (names, k)) (hp : parsePda k.io names (pdaDoc q) = some p)
    (hsi : Doc.Small p fs) (hsf : Doc.Small p gs) :
    ((Doc.Inner names p fs ∧ Doc.Inner names p gs) ∧ ∃ p1 p2 a b, parseInstDoc (instEvents (typeEvents ts) q (autInner fs) (autInner gs)) = .ok ⟨k, names, p2, a, b⟩ ∧
      AddsLabels p fs p1 ∧ AddsLabels p1 gs p2) ∨
    (¬ (Doc.Inner names p fs ∧ Doc.Inner names p gs) ∧ parseInstDoc (instEvents (typeEvents ts) q (autInner fs) (autInner gs)) = .error) := by
  obtain ⟨_, _, hn⟩ := c77_wellformed _ (object_in hq "pda") hp
  have e : ∀ fs, [JEv.startObj, .key "P-automaton"] ++ autInner fs ++ [.endObj] = autEvents fs := by
    intro fs
    simp [autInner, autEvents]
  rw [parse_inst ts hq (autInner_object fs) (autInner_object gs), ht]
  simp only [SaxRes.of, SaxRes.bind, e]
  have hp : parsePda k.io names ([.startObj, .key "pda"] ++ q ++ [.endObj]) = some p := hp
  rw [hp]
  simp only
  rcases parse_anyR false hn hsi with ⟨h1, p1, a, h2, h3⟩ | ⟨h1, h2⟩
  · rw [h2]
    have hn1 : NamesOK names p1 := fun h => by rw [h3.sameNames, h3.states]; exact hn h
    have hs1 : Doc.Small p1 gs := by unfold Doc.Small; rw [h3.states]; exact hsf
    rcases parse_anyR false hn1 hs1 with ⟨k1, p2, b, k2, k3⟩ | ⟨k1, k2⟩
    · refine .inl ⟨⟨h1, (inner_congr h3.states h3.sameNames).1 k1⟩, p1, p2, a, b, ?_, h3, k3⟩
      simp only [k2]
    · refine .inr ⟨fun h => k1 ((inner_congr h3.states h3.sameNames).2 h.2), ?_⟩
      simp only [k2]
  · rw [h2]
    exact .inr ⟨fun h => h1 h.1, rfl⟩

/-- C77, the PDA that is analysed: the states, their names and the rules are those of the PDA alone, and the labels of the automata are
added. -/
theorem c77_labels_partial (hq : IsObject q) (ht : typeOf ts = some (names, k)) (hp : parsePda k.io names (pdaDoc q) = some p)
    (hsi : Doc.Small p fs) (hsf : Doc.Small p gs) {a b : NAut k.Carrier}
    (hi : parseInstDoc (instEvents (typeEvents ts) q (autInner fs) (autInner gs)) = .ok ⟨k, names, p', a, b⟩) :
    p'.states = p.states ∧ p'.names = p.names ∧ p.labels <+: p'.labels ∧
      ∀ l, l ∈ p'.labels ↔ l ∈ p.labels ∨ (l ≠ "" ∧ ∃ r r', Doc.Edge fs r l r' ∨ Doc.Edge gs r l r') := by
  rcases inst_any hq ht hp hsi hsf with ⟨_, p1, p2, a1, b1, h1, h2, h3⟩ | ⟨_, h1⟩
  · rw [hi] at h1
    cases h1
    refine ⟨h3.states.trans h2.states, h3.sameNames.trans h2.sameNames, h2.known.trans h3.known, fun l => ?_⟩
    rw [h3.labels, h2.labels]
    simp only [exists_or]
    constructor
    · rintro ((h | ⟨h, k⟩) | ⟨h, k⟩)
      · exact .inl h
      · exact .inr ⟨h, .inl k⟩
      · exact .inr ⟨h, .inr k⟩
    · rintro (h | ⟨h, k | k⟩)
      · exact .inl (.inl h)
      · exact .inl (.inr ⟨h, k⟩)
      · exact .inr ⟨h, k⟩
  · rw [hi] at h1
    cases h1

/-- C77, errors: the program fails if the type is not one of those known, or if the PDA is not read on its own. -/
theorem c77_refused (h h' : HashOrder) (ts : List TField) {a b : List JEv} (hq : IsObject q) (ha : IsObject a) (hb : IsObject b)
    (hr : ∀ names k, typeOf ts = some (names, k) → parsePda k.io names (pdaDoc q) = none) (engine : Nat) (any : Bool) :
    runInst h h' (instEvents (typeEvents ts) q a b) engine any = .error := by
  unfold runInst
  rw [parse_inst ts hq ha hb]
  cases ht : typeOf ts with
  | none => rfl
  | some x =>
    obtain ⟨names, k⟩ := x
    have := hr names k ht
    simp only [SaxRes.of, SaxRes.bind]
    unfold pdaDoc at this
    rw [this]

/-- C77, errors: otherwise it fails exactly if an automaton is not well-formed or the engine does not exist. -/
theorem c77_errors_partial (h h' : HashOrder) (hq : IsObject q) (ht : typeOf ts = some (names, k)) (hp : parsePda k.io names (pdaDoc q) = some p)
    (hsi : Doc.Small p fs) (hsf : Doc.Small p gs) (engine : Nat) (any : Bool) :
    (runInst h h' (instEvents (typeEvents ts) q (autInner fs) (autInner gs)) engine any = .error ↔
      ¬ Doc.Inner names p fs ∨ ¬ Doc.Inner names p gs ∨ 3 < engine) ∧
    (runInst h h' (instEvents (typeEvents ts) q (autInner fs) (autInner gs)) engine any = .nothing ↔
      Doc.Inner names p fs ∧ Doc.Inner names p gs ∧ engine = 0) := by
  unfold runInst
  rcases inst_any hq ht hp hsi hsf with ⟨⟨g1, g2⟩, p1, p2, a1, b1, h1, h2, h3⟩ | ⟨g, h1⟩
  · rw [h1]
    dsimp only
    rw [(verifyPlain_error ..).1, (verifyPlain_error ..).2]
    simp [g1, g2]
  · rw [h1]
    dsimp only
    refine ⟨⟨fun _ => ?_, fun _ => rfl⟩, ⟨fun h => (by cases h), fun h => absurd ⟨h.1, h.2.1⟩ g⟩⟩
    by_cases hc : Doc.Inner names p fs
    · exact .inr (.inl fun h => g ⟨hc, h⟩)
    · exact .inl hc

/-- C77: the report names the engine, its result says whether some configuration of the first automaton reaches one of the second in
the PDA of the document, and its trace is a run that shows it. The full statement is without the condition `Doc.Legal`; see
`c75_illegal`. -/
theorem c77_report_partial (h h' : HashOrder) (hq : IsObject q) (ht : typeOf ts = some (names, k)) (hp : parsePda k.io names (pdaDoc q) = some p)
    (hpi : Doc.Pure names p fs) (hsi : Doc.Small p fs) (hpf : Doc.Pure names p gs) (hsf : Doc.Small p gs)
    (hli : Doc.Legal names p fs) (hlf : Doc.Legal names p gs) {a b : NAut k.Carrier}
    (hi : parseInstDoc (instEvents (typeEvents ts) q (autInner fs) (autInner gs)) = .ok ⟨k, names, p', a, b⟩) (hl : p'.labels.length < epsilon)
    (engine : Nat) (he : 1 ≤ engine ∧ engine ≤ 3) (hk : engine = 1 ∨ k ≠ .int ∨ p.core.LookupOK) (any : Bool)
    (hm : any = true → StatesFit (searched h p'.core a.toAut b.toAut engine)) :
    ∃ r, runInst h h' (instEvents (typeEvents ts) q (autInner fs) (autInner gs)) engine any = .report r ∧
      Tells (· ∈ p'.allRules) (DocSet names p fs) (DocSet names p gs) (["post*", "pre*", "dual*"].getD (engine - 1) "") any r := by
  obtain ⟨hd, hw, hn⟩ := c77_wellformed _ (object_in hq "pda") hp
  rcases inst_spec hq ht hp hpi hsi hpf hsf with ⟨_, p1, p2, a1, b1, ν, μ, h1, h2, h3⟩ | ⟨_, h1⟩
  · rw [hi] at h1
    cases h1
    have hs := h3.states.trans h2.states
    have hd1 := h2.nodup hd
    have hd2 := h3.nodup hd1
    have hn1 : NamesOK names p1 := fun h => by rw [h2.sameNames, h2.states]; exact hn h
    have hlf1 := (legal_congr h2.states h2.sameNames).2 hlf
    have hle1 : p1.labels.length ≤ epsilon := Nat.le_trans h3.known.length_le (Nat.le_of_lt hl)
    have hF := h3.meets hn1 hlf1 hd2 (Nat.le_of_lt hl)
    rw [docSet_congr h2.states h2.sameNames] at hF
    unfold runInst
    rw [hi]
    exact verify_tells h h' (wf_labels hs (h2.known.trans h3.known) hw) hd2 hl (core_mono h3.states h3.known (h2.paut hli)) (h3.paut hlf1)
      h2.blank.untraced h3.blank.untraced ((h2.meets hn hli hd1 hle1).more h3.states h3.known hd1 hd2) hF engine he
      (hk.imp id fun hk => lookup_labels hs (hk.elim (lookup_read hp) id)) any hm
  · rw [hi] at h1
    cases h1

/-! ## Cases -/

/-- `{"state-names": false, "weight-type": "none"}` -/
def instType : List TField := [.names false, .weight (.str "none")]

/-- `{"states": [{"*": {"to": 0, "push": "b"}, "b": {"to": 1, "pop": ""}}, {}]}` -/
def instText : List JEv :=
  [.startObj, .key "states", .startArr,
    .startObj, .key "*", .startObj, .key "to", .uns 0, .key "push", .str "b", .endObj,
      .key "b", .startObj, .key "to", .uns 1, .key "pop", .str "", .endObj, .endObj,
    .startObj, .endObj, .endArr, .endObj]

/-- `{"edges": [[0, "a", 9]], "accepting": [9]}` -/
def instIni : List JField := [.edges [(.num 0, "a", .num 9)], .accepting [.num 9]]
/-- `{"accepting": [5], "edges": [[1, "a", 5], [1, "c", 5]]}` -/
def instFin : List JField := [.accepting [.num 5], .edges [(.num 1, "a", .num 5), (.num 1, "c", .num 5)]]

theorem instText_object : IsObject instText := (isObject_iff _).2 rfl

/-- The PDA that is read. -/
def instPda (labels : List String) : NPda String String Unit :=
  { labels := labels, states := (Pda.build 1 [.rule 0 { «to» := 0, op := .push, opLabel := 0, weight := () } true [],
    .rule 0 { «to» := 1, op := .pop, opLabel := epsilon, weight := () } false [0]]).states }

def instA : NAut Unit := { acc := [false, false, true], edges := [(⟨0, 1, 2⟩, (Trace.null, ()))] }
def instB : NAut Unit := { acc := [false, false, true], edges := [(⟨1, 2, 2⟩, (Trace.null, ())), (⟨1, 1, 2⟩, (Trace.null, ()))] }

theorem inst_pdaRead : parsePda WKind.none.io false (pdaDoc instText) = some (instPda ["b"]) := rfl

theorem inst_read : parseInstDoc (instEvents (typeEvents instType) instText (autInner instIni) (autInner instFin)) =
    .ok ⟨.none, false, instPda ["b", "a", "c"], instA, instB⟩ := rfl

theorem instPda_two (l : List String) : (instPda l).states.length = 2 := rfl

/-- The instance is read like its elements. -/
example : ∃ p p1, parsePda WKind.none.io false (pdaDoc instText) = some p ∧ parseJAutR false false p (autDoc (autInner instIni)) = .ok (p1, instA) ∧
    parseJAutR false false p1 (autDoc (autInner instFin)) = .ok (instPda ["b", "a", "c"], instB) :=
  ((c77_elements instType instText_object (autInner_object _) (autInner_object _) ⟨.none, false, instPda ["b", "a", "c"], instA, instB⟩).1 inst_read).2

example : (instPda ["b"]).core.WF := (c77_wellformed _ (object_in instText_object "pda") inst_pdaRead).2.1

example (l : String) : l ∈ (instPda ["b", "a", "c"]).labels ↔ l ∈ (instPda ["b"]).labels ∨
    (l ≠ "" ∧ ∃ r r', Doc.Edge instIni r l r' ∨ Doc.Edge instFin r l r') :=
  (c77_labels_partial (ts := instType) (k := .none) instText_object rfl inst_pdaRead (by unfold Doc.Small; decide)
    (by unfold Doc.Small; decide) inst_read).2.2.2 l

theorem instIni_legal : Doc.Legal false (instPda ["b"]) instIni := by
  intro r l r' h
  rw [edge_iff [(.num 0, "a", .num 9)] instIni rfl, List.mem_singleton] at h
  cases h
  exact ⟨by decide, fun c hc => by obtain ⟨_, rfl, hc⟩ := hc; rw [instPda_two] at hc; omega⟩

theorem instFin_legal : Doc.Legal false (instPda ["b"]) instFin := by
  intro r l r' h
  rw [edge_iff [(.num 1, "a", .num 5), (.num 1, "c", .num 5)] instFin rfl] at h
  simp only [List.mem_cons, List.not_mem_nil, or_false] at h
  rcases h with h | h <;> cases h <;>
    exact ⟨by decide, fun c hc => by obtain ⟨_, rfl, hc⟩ := hc; rw [instPda_two] at hc; omega⟩

theorem inst_fit (engine : Nat) (he : 1 ≤ engine ∧ engine ≤ 3) :
    StatesFit (searched HashOrder.id (instPda ["b", "a", "c"]).core instA.toAut instB.toAut engine) := by
  obtain rfl | rfl | rfl : engine = 1 ∨ engine = 2 ∨ engine = 3 := by omega
  · exact ⟨by decide +kernel, by decide +kernel, by decide +kernel⟩
  · exact ⟨by decide +kernel, by decide +kernel, by decide +kernel⟩
  · exact ⟨by decide +kernel, by decide +kernel, by decide +kernel⟩

/-- All engines find the run from `(0, a)` to `(1, a)`, and show it. -/
example (engine : Nat) (he : 1 ≤ engine ∧ engine ≤ 3) :
    ∃ r, runInst HashOrder.id HashOrder.id (instEvents (typeEvents instType) instText (autInner instIni) (autInner instFin)) engine true = .report r ∧
      r.result = true ∧ NTrace (· ∈ (instPda ["b", "a", "c"]).allRules) (DocSet false (instPda ["b"]) instIni) (DocSet false (instPda ["b"]) instFin) r.trace := by
  obtain ⟨r, h1, h2⟩ := c77_report_partial (ts := instType) (k := .none) HashOrder.id HashOrder.id instText_object rfl inst_pdaRead
    (fun h => by cases h) (by unfold Doc.Small; decide) (fun h => by cases h) (by unfold Doc.Small; decide) instIni_legal instFin_legal inst_read (by decide)
    engine he (.inr (.inl (by decide))) true fun _ => inst_fit engine he
  have h3 := h2.result.2 ⟨0, ["a"], 1, ["a"],
    ⟨.num 0, ⟨rfl, rfl, by decide⟩, .num 9, .cons ((edge_iff _ instIni rfl ..).2 (by simp)) (by decide) (.nil _), _, by simp [instIni]; rfl, by simp⟩,
    .tail (.tail .refl (NStep.mk (R := (· ∈ (instPda ["b", "a", "c"]).allRules)) ⟨0, "a", 0, .push, "b", ()⟩ [] (by decide +kernel)))
      (NStep.mk (R := (· ∈ (instPda ["b", "a", "c"]).allRules)) ⟨0, "b", 1, .pop, default, ()⟩ ["a"] (by decide +kernel)),
    ⟨.num 1, ⟨rfl, rfl, by decide⟩, .num 5, .cons ((edge_iff _ instFin rfl ..).2 (by simp)) (by decide) (.nil _), _, by simp [instFin]; rfl, by simp⟩⟩
  exact ⟨r, h1, h3, h2.run rfl h3⟩

/-- `{"states": [{"a": {"to": 0, "push": "a", "weight": 3}}]}` -/
def instWText : List JEv :=
  [.startObj, .key "states", .startArr, .startObj, .key "a", .startObj, .key "to", .uns 0, .key "push", .str "a", .key "weight", .uns 3,
    .endObj, .endObj, .endArr, .endObj]

theorem instWText_object : IsObject (pdaDoc instWText) := (isObject_iff _).2 rfl

/-- A weight that was read, and one that is too large. -/
example : ∃ p, parsePda WKind.uint.io false (pdaDoc instWText) = some p ∧ p.allRules.map (fun r => (r.weight : Int)) = [3] ∧
    (∀ r ∈ p.allRules, ∀ z ∈ WKind.uint.io.nums r.weight, 0 ≤ z ∧ z < 4294967295) ∧
    parsePda WKind.uint.io false (pdaDoc (instWText.map fun e => if e = .uns 3 then .uns 4294967295 else e)) = none := by
  have h : (parsePda WKind.uint.io false (pdaDoc instWText)).map (fun p => p.allRules.map (fun r => (r.weight : Int))) = some [3] := by decide +kernel
  obtain ⟨p, hp, hw⟩ := Option.map_eq_some_iff.1 h
  exact ⟨p, hp, hw, fun _ hr => c77_weights instWText_object hp hr, by rfl⟩

/-- A rule without a destination is refused, whatever the other elements are. -/
example (engine : Nat) (any : Bool) (fs gs : List JField) :
    runInst HashOrder.id HashOrder.id (instEvents (typeEvents instType)
      [.startObj, .key "states", .startArr, .startObj, .key "b", .startObj, .key "pop", .str "", .endObj, .endObj, .endArr, .endObj]
      (autInner fs) (autInner gs)) engine any = .error :=
  c77_refused _ _ _ ((isObject_iff _).2 rfl) (autInner_object _) (autInner_object _) (fun names k h => by cases h; rfl) engine any

/-- An automaton without accepting states is an error. -/
example (engine : Nat) (any : Bool) :
    runInst HashOrder.id HashOrder.id (instEvents (typeEvents instType) instText (autInner [.edges []]) (autInner instFin)) engine any = .error :=
  (c77_errors_partial (ts := instType) (k := .none) HashOrder.id HashOrder.id instText_object rfl inst_pdaRead (by unfold Doc.Small; decide)
    (by unfold Doc.Small; decide) engine any).1.2 (.inl fun h => by have := h.entries.length_eq; cases this)

/-! ## Where the documents are read differently from what they say -/

/-- The English claim fails in full: a fifth element that is an array of four is accepted, and replaces the instance. -/
theorem c77_fifth : ∃ i j, i.fin.edges.length ≠ j.fin.edges.length ∧
    parseInstDoc (instEvents (typeEvents instType) instText (autInner instIni) (autInner instFin)) = .ok i ∧
    parseInstDoc (instEvents (typeEvents instType) instText (autInner instFin) (autInner instIni)) = .ok j ∧
    parseInstDoc (instEvents (typeEvents instType) instText (autInner instIni) (autInner instFin ++
      ([.startArr] ++ typeEvents instType ++ instText ++ autInner instFin ++ autInner instIni ++ [.endArr]))) = .ok j :=
  ⟨⟨.none, false, instPda ["b", "a", "c"], instA, instB⟩, ⟨.none, false, instPda ["b", "a", "c"], { instB with edges := instB.edges }, instA⟩,
    by decide, rfl, rfl, rfl⟩

/-- The number of weights in a vector cannot be given: `["uint", 2]` is refused. -/
theorem c77_vector_size (n : Nat) (q a b : List JEv) : parseInstDoc (instEvents (typeEvents [.names false, .weight (.arr [.name "uint", .num n])]) q a b) = .error := rfl

/-- A number instead of the type is undefined behaviour. -/
theorem c77_number (n : Nat) (es : List JEv) : parseInstDoc ([.startObj, .key "instance", .startArr, .uns n] ++ es) = .undefined := rfl

/-- Weights given as numbers are ignored without a word if vectors are expected. -/
theorem c77_scalar_ignored : (parsePda WKind.uints.io false (pdaDoc [.startObj, .key "states", .startArr,
    .startObj, .key "a", .startObj, .key "to", .uns 0, .key "pop", .str "", .key "weight", .uns 5, .endObj, .endObj, .endArr, .endObj])).map
      (fun p => p.allRules.map fun r => (r.weight : List Int)) = some [[]] := by decide +kernel

end Verif.Props
