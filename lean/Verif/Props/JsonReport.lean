import Verif.Model.JsonInstance
import Verif.Props.PAutJson

/-! # C75: the report of the command-line tool on P-automata in JSON -/

namespace Verif.Props

open Verif Verif.Instance

variable {W : Type} {names : Bool} {p p' : NPda String String W} {fs gs : List JField}

/-- The configurations that a document describes. -/
def DocSet (names : Bool) (p : NPda String String W) (fs : List JField) (c : Nat) (ls : List String) : Prop :=
  ∃ r, Doc.Denotes names p r c ∧ Doc.Accepts fs r ls

/-! ## More labels do not matter to the document -/

theorem denotes_congr (hs : p'.states = p.states) (hm : p'.names = p.names) (r : JRef) (c : Nat) :
    Doc.Denotes names p' r c ↔ Doc.Denotes names p r c := by
  cases r <;> simp [Doc.Denotes, hs, hm]

theorem ok_congr (hs : p'.states = p.states) (hm : p'.names = p.names) : Doc.OK names p' fs ↔ Doc.OK names p fs := by
  constructor
  · rintro ⟨h1, h2, h3⟩
    exact ⟨h1, fun r hr => (h2 r hr).imp fun c => (denotes_congr hs hm r c).1, h3⟩
  · rintro ⟨h1, h2, h3⟩
    exact ⟨h1, fun r hr => (h2 r hr).imp fun c => (denotes_congr hs hm r c).2, h3⟩

theorem docSet_congr (hs : p'.states = p.states) (hm : p'.names = p.names) : DocSet names p' fs = DocSet names p fs := by
  funext c ls
  exact propext (exists_congr fun r => and_congr (denotes_congr hs hm r c) Iff.rfl)

theorem legal_congr (hs : p'.states = p.states) (hm : p'.names = p.names) : Doc.Legal names p' fs ↔ Doc.Legal names p fs := by
  unfold Doc.Legal
  simp only [denotes_congr hs hm]

theorem denotes_lt (hn : NamesOK names p) {r : JRef} {c : Nat} (hc : Doc.Denotes names p r c) : c < p.states.length := by
  cases r with
  | num n => exact hc.2.2
  | name s =>
    rw [← (hn hc.1).2]
    exact (List.getElem?_eq_some_iff.1 hc.2).1

theorem denotes_some (hn : NamesOK names p) {c : Nat} (hc : c < p.states.length) : ∃ r, Doc.Denotes names p r c := by
  cases hnm : names with
  | false => exact ⟨.num c, rfl, rfl, hc⟩
  | true =>
    have : c < p.names.length := by rw [(hn hnm).2]; exact hc
    exact ⟨.name p.names[c], rfl, List.getElem?_eq_getElem this⟩

/-! ## The automata -/

theorem PAut.word_lt {q : Pda W} {a : Aut W} (h : PAut q a) {i j : Nat} {w : List Nat} (hp : Verif.Path (· ∈ keys a.edges) i w j) :
    ∀ g ∈ w, g < q.nLabels := by
  induction hp with
  | nil => simp
  | cons ht _ ih =>
    intro g hg
    rcases List.mem_cons.1 hg with rfl | hg
    · exact (h.valid _ ht).2.1
    · exact ih g hg

theorem Reads.path_labels [Zero W] {a : Aut W} {ν : JRef → Option Nat} (h : Reads names p fs p' a ν) {r r' : JRef} {ls : List String}
    (hp : Doc.Path fs r ls r') : ∀ l ∈ ls, l ∈ p'.labels := by
  induction hp with
  | nil => simp
  | cons he hl _ ih =>
    intro l hm
    rcases List.mem_cons.1 hm with rfl | hm
    · exact (h.labels l).2 (.inr ⟨hl, _, _, he⟩)
    · exact ih l hm

theorem Reads.meets [Zero W] {a : Aut W} {ν : JRef → Option Nat} (h : Reads names p fs p' a ν) (hn : NamesOK names p)
    (hl : Doc.Legal names p fs) (hd : p'.labels.Nodup) (hle : p'.labels.length ≤ epsilon) : Meets p'.toTPda a (DocSet names p fs) := by
  refine ⟨fun c hc w => ?_, fun c ls hD => ?_⟩
  · rw [h.states] at hc
    constructor
    · intro hL
      obtain ⟨r, hr⟩ := denotes_some hn hc
      have hw : ∀ g ∈ w, g < p'.labels.length := by
        obtain ⟨j, h1, _⟩ := hL
        exact (h.paut hl).word_lt h1
      obtain ⟨ls, h1, h2⟩ := (h.language hd hle ((h.pda r c hc).2 hr) hw).1 hL
      exact ⟨ls, h1, r, hr, h2⟩
    · rintro ⟨ls, h1, r, hr, h2⟩
      exact (h.language hd hle ((h.pda r c hc).2 hr) (numbers_names h1).1).2 ⟨ls, h1, h2⟩
  · obtain ⟨r, hr, r', h1, _⟩ := hD
    rw [h.states]
    exact ⟨denotes_lt hn hr, h.path_labels h1⟩

/-- More labels do not matter to the automaton. -/
theorem Meets.more {L : Type} [DecidableEq L] {t t' : TPda L W} (hs : t'.states = t.states) (hl : t.labels <+: t'.labels) (hd : t.labels.Nodup)
    (hd' : t'.labels.Nodup) {a : Aut W} {D : Nat → List L → Prop} (h : Meets t a D) : Meets t' a D := by
  refine ⟨fun c hc w => ?_, fun c ls hD => ?_⟩
  · rw [h.lang c (by rw [← hs]; exact hc) w]
    refine exists_congr fun ls => and_congr_left fun hD => ?_
    have hin := (h.labels c ls hD).2
    rw [numbers_iff hd, numbers_iff hd']
    have : (ls.map fun l => t'.labels.idxOf l) = ls.map fun l => t.labels.idxOf l :=
      List.map_congr_left fun l hm => idxOf_prefix hl (hin l hm)
    rw [this]
    exact ⟨fun g => ⟨fun l hm => hl.subset (hin l hm), g.2⟩, fun g => ⟨hin, g.2⟩⟩
  · obtain ⟨h1, h2⟩ := h.labels c ls hD
    exact ⟨by rw [hs]; exact h1, fun l hm => hl.subset (h2 l hm)⟩

section
variable [Zero W]

/-- What is read from two documents. -/
theorem parseJInstance_spec (hn : NamesOK names p) (hpi : Doc.Pure names p fs) (hsi : Doc.Small p fs) (hpf : Doc.Pure names p gs)
    (hsf : Doc.Small p gs) :
    ((Doc.OK names p fs ∧ Doc.OK names p gs) ∧ ∃ p1 p2 a b ν μ, parseJInstance names p (autEvents fs) (autEvents gs) = .ok (p2, a, b) ∧
      Reads names p fs p1 a.toAut ν ∧ Reads names p1 gs p2 b.toAut μ) ∨
    (¬ (Doc.OK names p fs ∧ Doc.OK names p gs) ∧ parseJInstance names p (autEvents fs) (autEvents gs) = .error) := by
  unfold parseJInstance
  rcases parse_reads hn hpi hsi with ⟨h1, p1, a, ν, h2, h3⟩ | ⟨h1, h2⟩
  · rw [h2]
    have hn1 : NamesOK names p1 := fun h => by rw [h3.sameNames, h3.states]; exact hn h
    have hp1 : Doc.Pure names p1 gs := fun h => by rw [h3.sameNames]; exact hpf h
    have hs1 : Doc.Small p1 gs := by unfold Doc.Small; rw [h3.states]; exact hsf
    rcases parse_reads hn1 hp1 hs1 with ⟨k1, p2, b, μ, k2, k3⟩ | ⟨k1, k2⟩
    · refine .inl ⟨⟨h1, (ok_congr h3.states h3.sameNames).1 k1⟩, p1, p2, a, b, ν, μ, ?_, h3, k3⟩
      simp only [SaxRes.bind, k2]
    · refine .inr ⟨fun h => k1 ((ok_congr h3.states h3.sameNames).2 h.2), ?_⟩
      simp only [SaxRes.bind, k2]
  · rw [h2]
    exact .inr ⟨fun h => h1 h.1, rfl⟩

/-- The same, without the automata, for any documents. -/
theorem parseJInstance_any (hn : NamesOK names p) (hsi : Doc.Small p fs) (hsf : Doc.Small p gs) :
    ((Doc.OK names p fs ∧ Doc.OK names p gs) ∧ ∃ p1 p2 a b, parseJInstance names p (autEvents fs) (autEvents gs) = .ok (p2, a, b) ∧
      AddsLabels p fs p1 ∧ AddsLabels p1 gs p2) ∨
    (¬ (Doc.OK names p fs ∧ Doc.OK names p gs) ∧ parseJInstance names p (autEvents fs) (autEvents gs) = .error) := by
  unfold parseJInstance parseJAut
  rcases parse_anyR true hn hsi with ⟨h1, p1, a, h2, h3⟩ | ⟨h1, h2⟩
  · rw [h2]
    have hn1 : NamesOK names p1 := fun h => by rw [h3.sameNames, h3.states]; exact hn h
    have hs1 : Doc.Small p1 gs := by unfold Doc.Small; rw [h3.states]; exact hsf
    rcases parse_anyR true hn1 hs1 with ⟨k1, p2, b, k2, k3⟩ | ⟨k1, k2⟩
    · refine .inl ⟨⟨h1, (ok_congr h3.states h3.sameNames).1 k1⟩, p1, p2, a, b, ?_, h3, k3⟩
      simp only [SaxRes.bind, k2]
    · refine .inr ⟨fun h => k1 ((ok_congr h3.states h3.sameNames).2 h.2), ?_⟩
      simp only [SaxRes.bind, k2]
  · rw [h2]
    exact .inr ⟨fun h => h1 h.1, rfl⟩

/-- C75, the PDA that is analysed: the rules are those of the given PDA, and the labels of the documents are added. -/
theorem c75_labels_partial (hn : NamesOK names p) (hsi : Doc.Small p fs)
    (hsf : Doc.Small p gs) {a b : NAut W} (hi : parseJInstance names p (autEvents fs) (autEvents gs) = .ok (p', a, b)) :
    p'.states = p.states ∧ p'.names = p.names ∧ p.labels <+: p'.labels ∧
      ∀ l, l ∈ p'.labels ↔ l ∈ p.labels ∨ (l ≠ "" ∧ ∃ r r', Doc.Edge fs r l r' ∨ Doc.Edge gs r l r') := by
  rcases parseJInstance_any hn hsi hsf with ⟨_, p1, p2, a1, b1, h1, h2, h3⟩ | ⟨_, h1⟩
  · rw [hi] at h1
    cases h1
    refine ⟨h3.states.trans h2.states, h3.sameNames.trans h2.sameNames, h2.known.trans h3.known, fun l => ?_⟩
    rw [h3.labels, h2.labels]
    simp only [exists_or]
    constructor
    · rintro ((h | ⟨h, k⟩) | ⟨h, k⟩)
      · exact .inl h
      · exact .inr ⟨h, .inl k⟩
      · exact .inr ⟨h, .inr k⟩
    · rintro (h | ⟨h, k | k⟩)
      · exact .inl (.inl h)
      · exact .inl (.inr ⟨h, k⟩)
      · exact .inr ⟨h, k⟩
  · rw [hi] at h1
    cases h1

variable [LinearOrder W]

omit [Zero W] [LinearOrder W] in
theorem plainReport_report {L : Type} [Inhabited L] (t : TPda L W) (e : Nat) (any ans : Bool) (tr : Option (List Config)) :
    plainReport t e any ans tr ≠ .error ∧ plainReport t e any ans tr ≠ .nothing := by
  unfold plainReport
  split
  · split <;> exact ⟨by simp, by simp⟩
  · exact ⟨by simp, by simp⟩

/-- When `verify` itself fails or is silent. -/
theorem verifyPlain_error {L : Type} [Inhabited L] (h h' : HashOrder) (t : TPda L W) (a b : Aut W) (engine : Nat) (any : Bool) :
    (verifyPlain h h' t a b engine any = .error ↔ 3 < engine) ∧ (verifyPlain h h' t a b engine any = .nothing ↔ engine = 0) := by
  unfold verifyPlain
  dsimp only
  split
  · simp
  · simp [plainReport_report]
  · simp [plainReport_report]
  · simp [plainReport_report]
  · rename_i g0 g1 g2 g3
    have g : 3 < engine ∧ engine ≠ 0 := by
      have k0 : engine ≠ 0 := g0
      have k1 : engine ≠ 1 := g1
      have k2 : engine ≠ 2 := g2
      have k3 : engine ≠ 3 := g3
      omega
    simp [g]

/-- C75, errors: the tool fails exactly if a document is not well-formed or the engine does not exist. -/
theorem c75_errors_partial (h h' : HashOrder) (hn : NamesOK names p) (hsi : Doc.Small p fs)
    (hsf : Doc.Small p gs) (engine : Nat) (any : Bool) :
    (runJson h h' names p (autEvents fs) (autEvents gs) engine any = .error ↔ ¬ Doc.OK names p fs ∨ ¬ Doc.OK names p gs ∨ 3 < engine) ∧
    (runJson h h' names p (autEvents fs) (autEvents gs) engine any = .nothing ↔ Doc.OK names p fs ∧ Doc.OK names p gs ∧ engine = 0) := by
  unfold runJson
  rcases parseJInstance_any hn hsi hsf with ⟨⟨g1, g2⟩, p1, p2, a1, b1, h1, h2, h3⟩ | ⟨g, h1⟩
  · rw [h1]
    dsimp only
    rw [(verifyPlain_error ..).1, (verifyPlain_error ..).2]
    simp [g1, g2]
  · rw [h1]
    dsimp only
    refine ⟨⟨fun _ => ?_, fun _ => rfl⟩, ⟨fun h => (by cases h), fun h => absurd ⟨h.1, h.2.1⟩ g⟩⟩
    by_cases hc : Doc.OK names p fs
    · exact .inr (.inl fun h => g ⟨hc, h⟩)
    · exact .inl hc

/-- C75: the report names the engine, its result says whether some configuration of the first document reaches one of the second, and
its trace is a run that shows it. The full statement is without the condition `Doc.Legal`; see `c75_illegal`. -/
theorem c75_report_partial (h h' : HashOrder) (hn : NamesOK names p) (hd : p.labels.Nodup) (hp : p.core.WF)
    (hpi : Doc.Pure names p fs) (hsi : Doc.Small p fs) (hpf : Doc.Pure names p gs) (hsf : Doc.Small p gs)
    (hli : Doc.Legal names p fs) (hlf : Doc.Legal names p gs) {a b : NAut W}
    (hi : parseJInstance names p (autEvents fs) (autEvents gs) = .ok (p', a, b)) (hl : p'.labels.length < epsilon)
    (engine : Nat) (he : 1 ≤ engine ∧ engine ≤ 3) (hk : engine = 1 ∨ p.core.LookupOK) (any : Bool)
    (hm : any = true → StatesFit (searched h p'.core a.toAut b.toAut engine)) :
    ∃ r, runJson h h' names p (autEvents fs) (autEvents gs) engine any = .report r ∧
      Tells (· ∈ p'.allRules) (DocSet names p fs) (DocSet names p gs) (["post*", "pre*", "dual*"].getD (engine - 1) "") any r := by
  rcases parseJInstance_spec hn hpi hsi hpf hsf with ⟨_, p1, p2, a1, b1, ν, μ, h1, h2, h3⟩ | ⟨_, h1⟩
  · rw [hi] at h1
    cases h1
    have hs := h3.states.trans h2.states
    have hd1 := h2.nodup hd
    have hd2 := h3.nodup hd1
    have hn1 : NamesOK names p1 := fun h => by rw [h2.sameNames, h2.states]; exact hn h
    have hlf1 := (legal_congr h2.states h2.sameNames).2 hlf
    have hle1 : p1.labels.length ≤ epsilon := Nat.le_trans h3.known.length_le (Nat.le_of_lt hl)
    have hF := h3.meets hn1 hlf1 hd2 (Nat.le_of_lt hl)
    rw [docSet_congr h2.states h2.sameNames] at hF
    unfold runJson
    rw [hi]
    exact verify_tells h h' (wf_labels hs (h2.known.trans h3.known) hp) hd2 hl (core_mono h3.states h3.known (h2.paut hli)) (h3.paut hlf1)
      h2.blank.untraced h3.blank.untraced ((h2.meets hn hli hd1 hle1).more h3.states h3.known hd1 hd2) hF engine he
      (hk.elim .inl fun hk => .inr (lookup_labels hs hk)) any hm
  · rw [hi] at h1
    cases h1

end

/-! ## Cases -/

/-- `{"P-automaton": {"initial": [0], "edges": [[0, "a", 9]], "accepting": [9]}}` -/
def jsonIni : List JField := [.initial [.num 0], .edges [(.num 0, "a", .num 9)], .accepting [.num 9]]
/-- `{"P-automaton": {"accepting": [5], "edges": [[1, "a", 5], [1, "c", 5]], "initial": [1]}}`, with a new label. -/
def jsonFin : List JField := [.accepting [.num 5], .edges [(.num 1, "a", .num 5), (.num 1, "c", .num 5)], .initial [.num 1]]

theorem edge_iff (es : List (JRef × String × JRef)) (fs : List JField) (h : fs.filterMap (fun | .edges l => some l | _ => none) = [es])
    (r r' : JRef) (l : String) : Doc.Edge fs r l r' ↔ (r, l, r') ∈ es := by
  have key : ∀ x, JField.edges x ∈ fs ↔ x = es := by
    intro x
    rw [← List.mem_singleton, ← h, List.mem_filterMap]
    constructor
    · intro hx; exact ⟨_, hx, rfl⟩
    · rintro ⟨f, hf, h1⟩
      cases f <;> simp at h1
      subst h1
      exact hf
  unfold Doc.Edge
  simp only [key]
  exact ⟨fun ⟨_, h1, h2⟩ => h1 ▸ h2, fun h => ⟨es, rfl, h⟩⟩

theorem jsonIni_legal : Doc.Legal false docPda jsonIni := by
  intro r l r' h
  rw [edge_iff [(.num 0, "a", .num 9)] jsonIni rfl, List.mem_singleton] at h
  cases h
  exact ⟨by decide, fun c hc => by obtain ⟨_, rfl, hc⟩ := hc; rw [docPda_two] at hc; omega⟩

theorem jsonFin_legal : Doc.Legal false docPda jsonFin := by
  intro r l r' h
  rw [edge_iff [(.num 1, "a", .num 5), (.num 1, "c", .num 5)] jsonFin rfl] at h
  simp only [List.mem_cons, List.not_mem_nil, or_false] at h
  rcases h with h | h <;> cases h <;>
    exact ⟨by decide, fun c hc => by obtain ⟨_, rfl, hc⟩ := hc; rw [docPda_two] at hc; omega⟩

/-- The automata that are read. -/
def jsonA : NAut Unit := { acc := [false, false, true], edges := [(⟨0, 0, 2⟩, (Trace.null, ()))] }
def jsonB : NAut Unit := { acc := [false, false, true], edges := [(⟨1, 2, 2⟩, (Trace.null, ())), (⟨1, 0, 2⟩, (Trace.null, ()))] }

def docPda' : NPda String String Unit := { toTPda := reportPda' }

theorem json_parse : parseJInstance false docPda (autEvents jsonIni) (autEvents jsonFin) = .ok (docPda', jsonA, jsonB) := rfl

theorem json_fit (engine : Nat) (he : 1 ≤ engine ∧ engine ≤ 3) :
    StatesFit (searched HashOrder.id docPda'.core jsonA.toAut jsonB.toAut engine) := by
  obtain rfl | rfl | rfl : engine = 1 ∨ engine = 2 ∨ engine = 3 := by omega
  · exact ⟨by decide +kernel, by decide +kernel, by decide +kernel⟩
  · exact ⟨by decide +kernel, by decide +kernel, by decide +kernel⟩
  · exact ⟨by decide +kernel, by decide +kernel, by decide +kernel⟩

/-- All engines find the run from `(0, a)` to `(1, a)`, and show it. -/
example (engine : Nat) (he : 1 ≤ engine ∧ engine ≤ 3) :
    ∃ r, runJson HashOrder.id HashOrder.id false docPda (autEvents jsonIni) (autEvents jsonFin) engine true = .report r ∧
      r.result = true ∧ NTrace (· ∈ reportPda'.allRules) (DocSet false docPda jsonIni) (DocSet false docPda jsonFin) r.trace := by
  obtain ⟨r, h1, h2⟩ := c75_report_partial HashOrder.id HashOrder.id docPda_names (by decide) reportPda_wf
    (fun h => by cases h) (by unfold Doc.Small; decide) (fun h => by cases h) (by unfold Doc.Small; decide) jsonIni_legal jsonFin_legal json_parse (by decide)
    engine he (.inr (lookupOK_unit _)) true fun _ => json_fit engine he
  have h3 := h2.result.2 ⟨0, ["a"], 1, ["a"],
    ⟨.num 0, ⟨rfl, rfl, by decide⟩, .num 9, .cons ((edge_iff _ jsonIni rfl ..).2 (by simp)) (by decide) (.nil _), _, by simp [jsonIni]; rfl, by simp⟩,
    .tail (.tail .refl (NStep.mk (R := (· ∈ reportPda'.allRules)) ⟨0, "a", 0, .push, "b", ()⟩ [] (by decide +kernel)))
      (NStep.mk (R := (· ∈ reportPda'.allRules)) ⟨0, "b", 1, .pop, default, ()⟩ ["a"] (by decide +kernel)),
    ⟨.num 1, ⟨rfl, rfl, by decide⟩, .num 5, .cons ((edge_iff _ jsonFin rfl ..).2 (by simp)) (by decide) (.nil _), _, by simp [jsonFin]; rfl, by simp⟩⟩
  exact ⟨r, h1, h3, h2.run rfl h3⟩

/-- A document without accepting states is an error. -/
example (engine : Nat) (any : Bool) :
    runJson HashOrder.id HashOrder.id false docPda (autEvents [.edges [], .initial []]) (autEvents jsonFin) engine any = .error :=
  (c75_errors_partial HashOrder.id HashOrder.id docPda_names (by unfold Doc.Small; decide)
    (by unfold Doc.Small; decide) engine any).1.2 (.inl fun h => by have := h.entries.length_eq; cases this)

/-- State 1 may replace `b` by `c`. -/
def swapPda : NPda String String Unit :=
  { labels := ["a", "b", "c"], states := (Pda.build 3 [.rule 1 { «to» := 1, op := .swap, opLabel := 2, weight := () } false [1]]).states }

/-- Only `(0, ab)` and `(1, b)`; an edge leads into state 1. -/
def intoIni : List JField := [.initial [.num 0], .edges [(.num 0, "a", .num 1), (.num 1, "b", .num 2)], .accepting [.num 2]]
/-- Only `(0, ac)`. -/
def intoFin : List JField := [.initial [.num 0], .edges [(.num 0, "a", .num 2), (.num 2, "c", .num 3)], .accepting [.num 3]]

/-- C74 fails in full: an edge into a state of the PDA is not refused, although the automaton is then not legal for the solvers. -/
theorem c74_illegal : ∃ p' a, parseJAut false swapPda (autEvents intoIni) = .ok (p', a) ∧ ¬ PAut p'.core a.toAut := by
  refine ⟨_, _, rfl, fun h => ?_⟩
  have := h.noInto ⟨0, 0, 1⟩ (by decide +kernel)
  revert this
  decide +kernel

/-- C74 fails in full: the entry `initial` is checked but has no effect. No state is listed in this document, and yet `(0, b)` is accepted. -/
theorem c74_initial_ignored : ∃ p' a, parseJAut false docPda (autEvents [.initial [], .edges [(.num 0, "b", .num 7)], .accepting [.num 7]]) = .ok (p', a) ∧
    a.accepts HashOrder.id 0 [1] = true ∧ p'.labels = ["a", "b"] ∧ ¬ ∃ r, Doc.Initial [.initial [], .edges [(.num 0, "b", .num 7)], .accepting [.num 7]] r := by
  refine ⟨_, _, rfl, by decide +kernel, by decide, ?_⟩
  rintro ⟨r, l, h1, h2⟩
  simp only [List.mem_cons, reduceCtorEq, JField.initial.injEq, List.not_mem_nil, or_false, or_self] at h1
  subst h1
  cases h2

theorem swap_stays {c c' : Nat × List String} (h : NReach (· ∈ swapPda.allRules) c c') : c' = c ∨ c'.1 = 1 := by
  cases h with
  | refl => exact .inl rfl
  | tail _ h =>
    cases h with
    | mk r w hr =>
      have : ∀ r ∈ swapPda.allRules, r.dst = 1 := by decide +kernel
      exact .inr (this r hr)

theorem intoFin_only {c : Nat} {ls : List String} (h : DocSet false swapPda intoFin c ls) (hc : c ≠ 2) : c = 0 ∧ ls = ["a", "c"] := by
  have hE := edge_iff [(.num 0, "a", .num 2), (.num 2, "c", .num 3)] intoFin rfl
  obtain ⟨r, h1, r', h2, l, h3, h4⟩ := h
  simp only [intoFin, List.mem_cons, reduceCtorEq, JField.accepting.injEq, List.not_mem_nil, or_false, or_self, false_or] at h3
  subst h3
  rw [List.mem_singleton] at h4
  subst h4
  have hsz : swapPda.states.length = 2 := by decide
  cases h2 with
  | nil =>
    obtain ⟨_, rfl, h⟩ := h1
    omega
  | cons he _ hp =>
    rw [hE] at he
    simp only [List.mem_cons, Prod.mk.injEq, List.not_mem_nil, or_false] at he
    rcases he with ⟨rfl, rfl, rfl⟩ | ⟨rfl, rfl, rfl⟩
    · refine ⟨h1.2.1.symm, ?_⟩
      cases hp with
      | cons he _ hp =>
        rw [hE] at he
        simp only [List.mem_cons, Prod.mk.injEq, List.not_mem_nil, or_false] at he
        rcases he with ⟨he, _⟩ | ⟨_, rfl, rfl⟩
        · cases he
        · cases hp with
          | nil => rfl
          | cons he _ hp =>
            rw [hE] at he
            simp at he
    · exact absurd h1.2.1.symm hc

/-- C75 fails in full: post* claims that `(0, ac)` can be reached from `(0, ab)` or `(1, b)`, since an edge of the first document leads
into state 1. The only rule applies in state 1 and stays there. -/
theorem c75_illegal :
    (∃ r, runJson HashOrder.id HashOrder.id false swapPda (autEvents intoIni) (autEvents intoFin) 1 false = .report r ∧ r.result = true) ∧
    ¬ ∃ c ls c' ls', DocSet false swapPda intoIni c ls ∧ NReach (· ∈ swapPda.allRules) (c, ls) (c', ls') ∧
      DocSet false swapPda intoFin c' ls' := by
  refine ⟨⟨_, rfl, by decide +kernel⟩, ?_⟩
  rintro ⟨c, ls, c', ls', h1, h2, h3⟩
  have hsz : swapPda.states.length = 2 := by decide
  have hc' : c' ≠ 2 := by
    obtain ⟨r, hr, _⟩ := h3
    have := denotes_lt (names := false) (fun h => by cases h) hr
    omega
  obtain ⟨rfl, rfl⟩ := intoFin_only h3 hc'
  rcases swap_stays h2 with h | h
  · cases h
    have hE := edge_iff [(.num 0, "a", .num 1), (.num 1, "b", .num 2)] intoIni rfl
    obtain ⟨r, k1, r', k2, _⟩ := h1
    cases k2 with
    | cons he _ hp =>
      cases hp with
      | cons he _ hp =>
        rw [hE] at he
        simp at he
  · cases h

end Verif.Props
