import Verif.Props.WeightedReport

/-! # C76: the reports of the command-line tool with weights, from expressions and from documents -/

namespace Verif.Props

open Verif

variable {L S W T : Type}

/-- Two automata that the engines can be given, with the configurations they are for. -/
structure LegalPair [DecidableEq L] [LinearOrder W] [Zero W] (t : TPda L W) (a b : Aut W) (I F : Nat → List L → Prop) : Prop where
  wf : t.core.WF
  nodup : t.labels.Nodup
  first : PAut t.core a
  second : PAut t.core b
  blank : Blank a
  blank' : Blank b
  initial : Meets t a I
  final : Meets t b F

section
variable [DecidableEq L] [LinearOrder W] [Zero W] {find : S → Option (Option Nat)} {addr : Nat → Nat → Nat}

theorem expr_legal (h : HashOrder) (ha : ∀ k, Function.Injective (addr k)) (t : TPda L W)
    (hfind : ∀ s c, find s = some (some c) → c < t.states.length) (hn : t.labels.Nodup) (hp : t.core.WF) (ini fin : List (PAtom L S))
    (hok : ∀ x ∈ ini ++ fin, x.ok = true) {t' : TPda L W} {a b : Aut W} (hi : parseInstance h addr find t ini fin = some (t', a, b)) :
    t'.states = t.states ∧
      LegalPair t' a b (DescribedBy find t.labels ini) (DescribedBy find (t.labels ++ ini.flatMap PAtom.labels) fin) := by
  obtain ⟨h1, h2, h3, h4, h5, h6⟩ := parseInstance_spec h ha t hfind hn ini fin hok hi
  obtain ⟨g1, g2, g3, _⟩ := c73_labels h ha t hfind hn ini fin hi
  exact ⟨g1, wf_labels g1 g2 hp, g3, h1, h2, h3, h4, h5, h6⟩

end

section
variable [LinearOrder W] [Zero W] {names : Bool} {p p' : NPda String String W} {fs gs : List JField}

theorem docs_legal (hn : NamesOK names p) (hd : p.labels.Nodup) (hp : p.core.WF) (hpi : Doc.Pure names p fs) (hsi : Doc.Small p fs)
    (hpf : Doc.Pure names p gs) (hsf : Doc.Small p gs) (hli : Doc.Legal names p fs) (hlf : Doc.Legal names p gs) {a b : NAut W}
    (hi : parseJInstance names p (autEvents fs) (autEvents gs) = .ok (p', a, b)) (hl : p'.labels.length ≤ epsilon) :
    p'.states = p.states ∧ LegalPair p'.toTPda a.toAut b.toAut (DocSet names p fs) (DocSet names p gs) := by
  rcases parseJInstance_spec hn hpi hsi hpf hsf with ⟨_, p1, p2, a1, b1, ν, μ, h1, h2, h3⟩ | ⟨_, h1⟩
  · rw [hi] at h1
    cases h1
    have hs := h3.states.trans h2.states
    have hd1 := h2.nodup hd
    have hd2 := h3.nodup hd1
    have hn1 : NamesOK names p1 := fun h => by rw [h2.sameNames, h2.states]; exact hn h
    have hlf1 := (legal_congr h2.states h2.sameNames).2 hlf
    have hle1 : p1.labels.length ≤ epsilon := Nat.le_trans h3.known.length_le hl
    have hF := h3.meets hn1 hlf1 hd2 hl
    rw [docSet_congr h2.states h2.sameNames] at hF
    exact ⟨hs, wf_labels hs (h2.known.trans h3.known) hp, hd2, core_mono h3.states h3.known (h2.paut hli), h3.paut hlf1,
      h2.blank, h3.blank, (h2.meets hn hli hd1 hle1).more h3.states h3.known hd1 hd2, hF⟩
  · rw [hi] at h1
    cases h1

end

/-! ## Trace type shortest -/

section
variable [LinearOrder W] [Zero W] [LinearOrder T] [AddCommMonoid T] [IsOrderedCancelAddMonoid T]

omit [IsOrderedCancelAddMonoid T] in
theorem ShortOK.labels {t t' : TPda L W} {best : Nat → T} {engine : Nat} {I F : Nat → List L → Prop}
    (h : ShortOK t.core best engine I F) (hs : t'.states = t.states) : ShortOK t'.core best engine I F := by
  unfold ShortOK at h ⊢
  by_cases he : engine = 1
  · rw [if_pos he] at h ⊢
    exact h
  · rw [if_neg he] at h ⊢
    exact ⟨lookup_labels hs h.1, h.2⟩

/-- C76, trace type shortest, on expressions: a report is given; the answer yes comes with the least weight of all runs and a run, which
for post* has that weight. The full claim would be that the answer is no only if there is no run, which is false (see
`c76_answer_wrong`); only runs of weight zero are excluded. -/
theorem c76_shortest_partial [DecidableEq L] [Inhabited L] {find : S → Option (Option Nat)} {addr : Nat → Nat → Nat} (val : W → T)
    (h0 : val 0 = 0) (hp : Heap (ShElem T) (WithTop T) ShElem.key) (hq : Heap (T × Nat) T Prod.fst) (h h' : HashOrder)
    (junk : Nat → Bool) (best : Nat → T) (ha : ∀ k, Function.Injective (addr k)) (t : TPda L W)
    (hfind : ∀ s c, find s = some (some c) → c < t.states.length) (hn : t.labels.Nodup) (hw : t.core.WF) (ini fin : List (PAtom L S))
    (hok : ∀ x ∈ ini ++ fin, x.ok = true) {t' : TPda L W} {a b : Aut W} (hi : parseInstance h addr find t ini fin = some (t', a, b))
    (hl : t'.labels.length < epsilon) (hnn : ∀ st ∈ t.states, ∀ y ∈ st.rules, 0 ≤ val y.1.weight) (engine : Nat)
    (he : 1 ≤ engine ∧ engine ≤ 3)
    (hs : ShortOK t.core best engine (DescribedBy find t.labels ini) (DescribedBy find (t.labels ++ ini.flatMap PAtom.labels) fin))
    (hfit : ShortFits val hp hq h' junk best engine t'.core a b) :
    (∃ fuel, runExpr h addr find t ini fin (verifyShortest val hp hq h' junk best engine fuel) ≠ .running) ∧
    ∀ fuel, runExpr h addr find t ini fin (verifyShortest val hp hq h' junk best engine fuel) = .running ∨
      ∃ r, runExpr h addr find t ini fin (verifyShortest val hp hq h' junk best engine fuel) = .report r ∧
        TellsLeast (· ∈ t'.allRules) val (DescribedBy find t.labels ini) (DescribedBy find (t.labels ++ ini.flatMap PAtom.labels) fin)
          (["post*", "pre*", "dual*"].getD (engine - 1) "") (engine = 1) r := by
  obtain ⟨g, k⟩ := expr_legal h ha t hfind hn hw ini fin hok hi
  unfold runExpr
  rw [hi]
  refine verifyShortest_tells val h0 hp hq h' junk best k.wf k.nodup hl k.first k.second k.blank k.blank' k.initial k.final (by rw [g]; exact hnn)
    engine he (hs.labels g) hfit

/-- C76, trace type shortest, on JSON documents. -/
theorem c76_shortest_docs_partial (val : W → T) (h0 : val 0 = 0) (hp : Heap (ShElem T) (WithTop T) ShElem.key)
    (hq : Heap (T × Nat) T Prod.fst) (h : HashOrder) (junk : Nat → Bool) (best : Nat → T) {names : Bool} {p p' : NPda String String W}
    {fs gs : List JField} (hn : NamesOK names p) (hd : p.labels.Nodup) (hw : p.core.WF) (hpi : Doc.Pure names p fs) (hsi : Doc.Small p fs)
    (hpf : Doc.Pure names p gs) (hsf : Doc.Small p gs) (hli : Doc.Legal names p fs) (hlf : Doc.Legal names p gs) {a b : NAut W}
    (hi : parseJInstance names p (autEvents fs) (autEvents gs) = .ok (p', a, b)) (hl : p'.labels.length < epsilon)
    (hnn : ∀ st ∈ p.states, ∀ y ∈ st.rules, 0 ≤ val y.1.weight) (engine : Nat) (he : 1 ≤ engine ∧ engine ≤ 3)
    (hs : ShortOK p.core best engine (DocSet names p fs) (DocSet names p gs))
    (hfit : ShortFits val hp hq h junk best engine p'.core a.toAut b.toAut) :
    (∃ fuel, runDocs names p (autEvents fs) (autEvents gs) (verifyShortest val hp hq h junk best engine fuel) ≠ .running) ∧
    ∀ fuel, runDocs names p (autEvents fs) (autEvents gs) (verifyShortest val hp hq h junk best engine fuel) = .running ∨
      ∃ r, runDocs names p (autEvents fs) (autEvents gs) (verifyShortest val hp hq h junk best engine fuel) = .report r ∧
        TellsLeast (· ∈ p'.allRules) val (DocSet names p fs) (DocSet names p gs)
          (["post*", "pre*", "dual*"].getD (engine - 1) "") (engine = 1) r := by
  obtain ⟨g, k⟩ := docs_legal hn hd hw hpi hsi hpf hsf hli hlf hi (Nat.le_of_lt hl)
  unfold runDocs
  rw [hi]
  refine verifyShortest_tells val h0 hp hq h junk best k.wf k.nodup hl k.first k.second k.blank k.blank' k.initial k.final (by rw [g]; exact hnn)
    engine he (hs.labels g) hfit

end

/-! ## Errors -/

section
variable [LinearOrder W]

/-- The PDA without its rules. -/
def ruleless (p : Pda W) : Pda W := { p with states := p.states.map fun _ => default }

theorem ruleless_st (p : Pda W) (i : Nat) : (ruleless p).st i = default := by
  unfold ruleless Pda.st
  simp only [List.getElem?_map]
  cases p.states[i]? <;> rfl

theorem ruleless_size (p : Pda W) : (ruleless p).size = p.size := by simp [ruleless, Pda.size]

theorem ruleless_wf (p : Pda W) : (ruleless p).WF := by
  constructor <;> intro i <;> rw [ruleless_st]
  · exact List.Pairwise.nil
  · intro x hx; cases hx
  · intro x hx; cases hx
  · intro x hx; cases hx
  · exact List.Pairwise.nil
  · intro x hx; cases hx
  · intro x hx; cases hx
  · intro x hx; cases hx

theorem ruleless_none (p : Pda W) (u : URule W) : ¬ (ruleless p).Has u := by
  intro h
  unfold Pda.Has Pda.allRules at h
  simp only [List.mem_flatMap, List.mem_map, List.mem_range] at h
  obtain ⟨i, _, e, he, _⟩ := h
  rw [ruleless_st] at he
  cases he

variable [Zero W] [LinearOrder T] [AddCommMonoid T] [IsOrderedCancelAddMonoid T] {val : W → T} {p : Pda W} {a b : Aut T}

omit [Zero W] [IsOrderedCancelAddMonoid T] [LinearOrder T] in
theorem ruleless_runs {x : T} (h : x ∈ RunsBetween (ruleless p) val a b) : HaveCommon p a b := by
  obtain ⟨c, c', h1, h2, h3, h4⟩ := h
  cases h3 with
  | nil => exact ⟨c, ruleless_size p ▸ h1, h2, h4⟩
  | cons r w x c' hr _ => exact absurd hr (ruleless_none p r)

omit [Zero W] [LinearOrder T] [IsOrderedCancelAddMonoid T] in
theorem ruleless_shAut (h : ShAut p a) : ShAut (ruleless p) a :=
  ⟨by rw [ruleless_size]; exact h.size_le, h.valid, h.nodup, h.zero, by rw [ruleless_size]; exact h.noInto⟩

omit [Zero W] in
/-- Without a common configuration the search does not end before the test for negative weights. -/
theorem init_first (hq : Heap (T × Nat) T Prod.fst) (hp : Heap (ShElem T) (WithTop T) ShElem.key) (h : HashOrder) (best : Nat → T)
    (hl : p.nLabels ≤ epsilon) (ha : ShAut p a) (hb : ShFinal p b) (hc : ¬ HaveCommon p a b) :
    ((SInstance.ofAutomata p.size a b best).prod.initProduct hq h a b).2 = false := by
  by_contra hr
  rw [Bool.not_eq_false] at hr
  have h1 : SInstance.postStarAccepts (fun _ : W => (0 : T)) hp hq h (ruleless p) (SInstance.ofAutomata (ruleless p).size a b best) 0 =
      .ok (some ({ SInstance.ofAutomata p.size a b best with prod := ((SInstance.ofAutomata p.size a b best).prod.initProduct hq h a b).1 }, true)) := by
    unfold SInstance.postStarAccepts
    rw [ruleless_size]
    exact if_pos hr
  have hfin : ShFinal (ruleless p) b := ⟨by rw [ruleless_size]; exact hb.size_le, hb.valid, hb.zero⟩
  obtain ⟨x, hx⟩ := (c58_minimum_partial _ hp hq h (ruleless_wf p) hl (ruleless_shAut ha) hfin (fun _ _ _ _ => le_refl _)
    (fun q hq' k => hc ⟨(q, []), ruleless_size p ▸ hq', ⟨q, .nil _, k.1⟩, ⟨q, .nil _, k.2⟩⟩) best 0 _ true h1).2.2.1 rfl
  exact hc (ruleless_runs hx)

theorem init_dual (hq : Heap (T × Nat) T Prod.fst) (hp : Heap (ShElem T) (WithTop T) ShElem.key) (h : HashOrder) (best : Nat → T)
    (hl : p.nLabels ≤ epsilon) (ha : ShAut p a) (hb : ShAut p b) (hne : StacksNonempty p b) (hc : ¬ HaveCommon p a b) :
    ((SInstance.ofAutomata p.size a b best).prod.base.initProduct h true true a b).2 = false := by
  by_contra hr
  rw [Bool.not_eq_false] at hr
  have h1 : SInstance.dualSearchAccepts (fun _ : W => (0 : T)) hp hq h (fun _ => false) (ruleless p)
      (SInstance.ofAutomata (ruleless p).size a b fun _ => 0) 0 =
      .ok (some ({ SInstance.ofAutomata p.size a b (fun _ => 0) with prod := { (SInstance.ofAutomata p.size a b fun _ => 0).prod with base :=
        ((SInstance.ofAutomata p.size a b fun _ => (0 : T)).prod.base.initProduct h true true a b).1 } }, true)) := by
    unfold SInstance.dualSearchAccepts
    rw [ruleless_size]
    exact if_pos hr
  have hk : (ruleless p).LookupOK := fun i x hx => by rw [ruleless_st] at hx; cases hx
  obtain ⟨x, hx⟩ := (c60_minimum_partial _ hp hq h (fun _ => false) (ruleless_wf p) hl hk (ruleless_shAut ha) (ruleless_shAut hb)
    (fun _ _ _ _ => le_refl _) (by unfold StacksNonempty; rw [ruleless_size]; exact hne) (fun _ => 0) (fun _ => le_refl _) (fun _ _ => rfl) 0 _ true h1).2.2.1 rfl
  exact hc (ruleless_runs hx)

omit [IsOrderedCancelAddMonoid T] in
theorem negative_of {t : TPda L W} (hneg : ∃ st ∈ t.states, ∃ y ∈ st.rules, val y.1.weight < 0) : shNegative val t.core a = true := by
  obtain ⟨st, h1, y, h2, h3⟩ := hneg
  unfold shNegative
  rw [Bool.or_eq_true]
  refine .inl (List.any_eq_true.2 ⟨st, h1, List.any_eq_true.2 ⟨y, h2, decide_eq_true h3⟩⟩)

/-- With a rule of negative weight, post* and the dual search are an error, unless a configuration is both initial and final. -/
theorem verifyShortest_negative [DecidableEq L] [Inhabited L] {t : TPda L W} {a b : Aut W} {I F : Nat → List L → Prop} (val : W → T)
    (h0 : val 0 = 0) (hp : Heap (ShElem T) (WithTop T) ShElem.key) (hq : Heap (T × Nat) T Prod.fst) (h : HashOrder) (junk : Nat → Bool)
    (best : Nat → T) (hl : t.labels.length ≤ epsilon) (k : LegalPair t a b I F)
    (hneg : ∃ st ∈ t.states, ∃ y ∈ st.rules, val y.1.weight < 0) (hIF : ∀ q ls, ¬ (I q ls ∧ F q ls)) (engine fuel : Nat)
    (he : engine = 1 ∨ engine = 3 ∧ ∀ q, ¬ F q []) : verifyShortest val hp hq h junk best engine fuel t a b = .error := by
  have hcc : ¬ HaveCommon t.core (a.reweigh val) (b.reweigh val) := fun hc => by
    obtain ⟨q, ls, h1⟩ := haveCommon_named k.nodup k.initial k.final hc
    exact hIF q ls h1
  rcases he with rfl | ⟨rfl, hF⟩
  · have hi := init_first hq hp h best hl (k.blank.shAut val h0 k.first) (k.blank'.shFinal val h0 k.second) hcc
    have : SInstance.postStarAccepts val hp hq h t.core (SInstance.ofAutomata t.core.size (a.reweigh val) (b.reweigh val) best) fuel =
        .error "Priority-queue based shortest trace post* algorithm does not work with negative weights." := by
      unfold SInstance.postStarAccepts
      refine (if_neg ?_).trans (if_pos (negative_of hneg))
      exact Bool.eq_false_iff.1 hi
    unfold verifyShortest
    simp only [this]
    rfl
  · have hi := init_dual hq hp h best hl (k.blank.shAut val h0 k.first) (k.blank'.shAut val h0 k.second) (stacks_named k.final hF) hcc
    have : SInstance.dualSearchAccepts val hp hq h junk t.core (SInstance.ofAutomata t.core.size (a.reweigh val) (b.reweigh val) best) fuel =
        .error "Priority-queue based shortest trace post* algorithm does not work with negative weights." := by
      unfold SInstance.dualSearchAccepts
      refine (if_neg ?_).trans (if_pos (negative_of hneg))
      exact Bool.eq_false_iff.1 hi
    unfold verifyShortest
    simp only [this]
    rfl

/-- C76: with a rule of negative weight, the trace type shortest with post* or the dual search ends in an error. -/
theorem c76_negative [DecidableEq L] [Inhabited L] {find : S → Option (Option Nat)} {addr : Nat → Nat → Nat} (val : W → T)
    (h0 : val 0 = 0) (hp : Heap (ShElem T) (WithTop T) ShElem.key) (hq : Heap (T × Nat) T Prod.fst) (h h' : HashOrder)
    (junk : Nat → Bool) (best : Nat → T) (ha : ∀ k, Function.Injective (addr k)) (t : TPda L W)
    (hfind : ∀ s c, find s = some (some c) → c < t.states.length) (hn : t.labels.Nodup) (hw : t.core.WF) (ini fin : List (PAtom L S))
    (hok : ∀ x ∈ ini ++ fin, x.ok = true) {t' : TPda L W} {a b : Aut W} (hi : parseInstance h addr find t ini fin = some (t', a, b))
    (hl : t'.labels.length ≤ epsilon) (hneg : ∃ st ∈ t.states, ∃ y ∈ st.rules, val y.1.weight < 0)
    (hIF : ∀ q ls, ¬ (DescribedBy find t.labels ini q ls ∧ DescribedBy find (t.labels ++ ini.flatMap PAtom.labels) fin q ls))
    (engine fuel : Nat) (he : engine = 1 ∨ engine = 3 ∧ ∀ q, ¬ DescribedBy find (t.labels ++ ini.flatMap PAtom.labels) fin q []) :
    runExpr h addr find t ini fin (verifyShortest val hp hq h' junk best engine fuel) = .error := by
  obtain ⟨g, k⟩ := expr_legal h ha t hfind hn hw ini fin hok hi
  unfold runExpr
  rw [hi]
  exact verifyShortest_negative val h0 hp hq h' junk best hl k (by rw [g]; exact hneg) hIF engine fuel he

/-- C76, the same on JSON documents. -/
theorem c76_negative_docs (val : W → T) (h0 : val 0 = 0) (hp : Heap (ShElem T) (WithTop T) ShElem.key)
    (hq : Heap (T × Nat) T Prod.fst) (h : HashOrder) (junk : Nat → Bool) (best : Nat → T) {names : Bool} {p p' : NPda String String W}
    {fs gs : List JField} (hn : NamesOK names p) (hd : p.labels.Nodup) (hw : p.core.WF) (hpi : Doc.Pure names p fs) (hsi : Doc.Small p fs)
    (hpf : Doc.Pure names p gs) (hsf : Doc.Small p gs) (hli : Doc.Legal names p fs) (hlf : Doc.Legal names p gs) {a b : NAut W}
    (hi : parseJInstance names p (autEvents fs) (autEvents gs) = .ok (p', a, b)) (hl : p'.labels.length ≤ epsilon)
    (hneg : ∃ st ∈ p.states, ∃ y ∈ st.rules, val y.1.weight < 0) (hIF : ∀ q ls, ¬ (DocSet names p fs q ls ∧ DocSet names p gs q ls))
    (engine fuel : Nat) (he : engine = 1 ∨ engine = 3 ∧ ∀ q, ¬ DocSet names p gs q []) :
    runDocs names p (autEvents fs) (autEvents gs) (verifyShortest val hp hq h junk best engine fuel) = .error := by
  obtain ⟨g, k⟩ := docs_legal hn hd hw hpi hsi hpf hsf hli hlf hi hl
  unfold runDocs
  rw [hi]
  exact verifyShortest_negative val h0 hp hq h junk best hl k (by rw [g]; exact hneg) hIF engine fuel he

end

/-- C76: expressions that cannot be read are an error for all trace types. -/
theorem c76_errors {U : Type} [DecidableEq L] [LinearOrder W] [Zero W] {find : S → Option (Option Nat)} {addr : Nat → Nat → Nat} (h : HashOrder)
    (ha : ∀ k, Function.Injective (addr k)) (t : TPda L W) (hfind : ∀ s c, find s = some (some c) → c < t.states.length)
    (hn : t.labels.Nodup) (ini fin : List (PAtom L S)) (hi : ini ≠ []) (hf : fin ≠ []) (verify : TPda L W → Aut W → Aut W → WOutcome L U)
    (hb : Bad find ini ∨ Bad find fin) : runExpr h addr find t ini fin verify = .error := by
  unfold runExpr
  rw [(parseInstance_none h ha t hfind hn ini fin hi hf).2 hb]

/-! ## The fixed-point trace types -/

section
variable [LinearOrder W] [Zero W] [LinearOrder T] [AddCommMonoid T] [IsOrderedAddMonoid T] [OrderBot T] [OrderTop T]

/-- C76, shortest by fixed point, on expressions: the same report is given whenever the program is given enough steps, it says whether
there is a run, and if so gives the best weight and a run of that weight. The full claim would be without `FixOK`, see C63. -/
theorem c76_fixed_partial [DecidableEq L] [Inhabited L] {find : S → Option (Option Nat)} {addr : Nat → Nat → Nat} (val : W → T)
    (h0 : val 0 = 0) (h h' : HashOrder) (ha : ∀ k, Function.Injective (addr k)) (t : TPda L W)
    (hfind : ∀ s c, find s = some (some c) → c < t.states.length) (hn : t.labels.Nodup) (hw : t.core.WF) (ini fin : List (PAtom L S))
    (hok : ∀ x ∈ ini ++ fin, x.ok = true) {t' : TPda L W} {a b : Aut W} (hi : parseInstance h addr find t ini fin = some (t', a, b))
    (hl : t'.labels.length < epsilon) (engine : Nat) (he : 1 ≤ engine ∧ engine ≤ 3)
    (hs : FixOK t'.core val engine a b
      (NRuns (· ∈ t'.allRules) val (DescribedBy find t.labels ini) (DescribedBy find (t.labels ++ ini.flatMap PAtom.labels) fin)))
    (hfit : FixFits val h' engine t'.core a b) (unsig : Bool) (word : String) :
    ∃ fuel0 r, (∀ fuel, fuel0 ≤ fuel → runExpr h addr find t ini fin (verifyFixed val h' unsig word engine fuel) = .report r) ∧
      TellsBest (· ∈ t'.allRules) val (DescribedBy find t.labels ini) (DescribedBy find (t.labels ++ ini.flatMap PAtom.labels) fin)
        (["post*", "pre*", "dual*"].getD (engine - 1) "") unsig word r := by
  obtain ⟨g, k⟩ := expr_legal h ha t hfind hn hw ini fin hok hi
  unfold runExpr
  rw [hi]
  exact verifyFixed_tells val h0 h' k.wf k.nodup hl k.first k.second k.blank k.blank' k.initial k.final engine he hs hfit unsig word

/-- C76, shortest by fixed point, on JSON documents. -/
theorem c76_fixed_docs_partial (val : W → T) (h0 : val 0 = 0) (h : HashOrder) {names : Bool} {p p' : NPda String String W}
    {fs gs : List JField} (hn : NamesOK names p) (hd : p.labels.Nodup) (hw : p.core.WF) (hpi : Doc.Pure names p fs) (hsi : Doc.Small p fs)
    (hpf : Doc.Pure names p gs) (hsf : Doc.Small p gs) (hli : Doc.Legal names p fs) (hlf : Doc.Legal names p gs) {a b : NAut W}
    (hi : parseJInstance names p (autEvents fs) (autEvents gs) = .ok (p', a, b)) (hl : p'.labels.length < epsilon)
    (engine : Nat) (he : 1 ≤ engine ∧ engine ≤ 3)
    (hs : FixOK p'.core val engine a.toAut b.toAut (NRuns (· ∈ p'.allRules) val (DocSet names p fs) (DocSet names p gs)))
    (hfit : FixFits val h engine p'.core a.toAut b.toAut) (unsig : Bool) (word : String) :
    ∃ fuel0 r, (∀ fuel, fuel0 ≤ fuel → runDocs names p (autEvents fs) (autEvents gs) (verifyFixed val h unsig word engine fuel) = .report r) ∧
      TellsBest (· ∈ p'.allRules) val (DocSet names p fs) (DocSet names p gs) (["post*", "pre*", "dual*"].getD (engine - 1) "") unsig word r := by
  obtain ⟨g, k⟩ := docs_legal hn hd hw hpi hsi hpf hsf hli hlf hi (Nat.le_of_lt hl)
  unfold runDocs
  rw [hi]
  exact verifyFixed_tells val h0 h k.wf k.nodup hl k.first k.second k.blank k.blank' k.initial k.final engine he hs hfit unsig word

/-- C76: if the runs can be made ever better, the report gives the text in place of the weight, and no trace. -/
theorem c76_unbounded_partial [DecidableEq L] [Inhabited L] {find : S → Option (Option Nat)} {addr : Nat → Nat → Nat} (val : W → T)
    (h0 : val 0 = 0) (hT : Bottomed T) (h h' : HashOrder) (ha : ∀ k, Function.Injective (addr k)) (t : TPda L W)
    (hfind : ∀ s c, find s = some (some c) → c < t.states.length) (hn : t.labels.Nodup) (hw : t.core.WF) (ini fin : List (PAtom L S))
    (hok : ∀ x ∈ ini ++ fin, x.ok = true) {t' : TPda L W} {a b : Aut W} (hi : parseInstance h addr find t ini fin = some (t', a, b))
    (hl : t'.labels.length ≤ epsilon) (engine : Nat) (he : 1 ≤ engine ∧ engine ≤ 3) (hk : engine = 1 ∨ t.core.LookupOK)
    (hv : BelowTop t'.core val) {fuel : Nat} {i : Instance (Trace × T)} {ans byPre : Bool}
    (hs : fixSearch val h' engine fuel t'.core a b = some ((i, ans), byPre)) (hnb : AutNoBottom (if byPre then i.final else i.initial))
    (hne : (NRuns (· ∈ t'.allRules) val (DescribedBy find t.labels ini) (DescribedBy find (t.labels ++ ini.flatMap PAtom.labels) fin)).Nonempty)
    (hun : ∀ x, ¬ IsLeast (NRuns (· ∈ t'.allRules) val (DescribedBy find t.labels ini) (DescribedBy find (t.labels ++ ini.flatMap PAtom.labels) fin)) x)
    (word : String) :
    ∃ fuel0, ∀ fuel, fuel0 ≤ fuel → runExpr h addr find t ini fin (verifyFixed val h' false word engine fuel) = .report
      { engine := ["post*", "pre*", "dual*"].getD (engine - 1) "", result := true, weight := some (.text word), trace := [] } := by
  obtain ⟨g, k⟩ := expr_legal h ha t hfind hn hw ini fin hok hi
  unfold runExpr
  rw [hi]
  exact verifyFixed_unbounded val h0 hT h' k.wf k.nodup hl k.first k.second k.blank k.blank' k.initial k.final engine he
    (hk.elim .inl fun hk => .inr (lookup_labels g hk)) hv hs hnb word hne hun

/-- C76, the same on JSON documents. -/
theorem c76_unbounded_docs_partial (val : W → T) (h0 : val 0 = 0) (hT : Bottomed T) (h : HashOrder) {names : Bool}
    {p p' : NPda String String W} {fs gs : List JField} (hn : NamesOK names p) (hd : p.labels.Nodup) (hw : p.core.WF)
    (hpi : Doc.Pure names p fs) (hsi : Doc.Small p fs) (hpf : Doc.Pure names p gs) (hsf : Doc.Small p gs) (hli : Doc.Legal names p fs)
    (hlf : Doc.Legal names p gs) {a b : NAut W} (hi : parseJInstance names p (autEvents fs) (autEvents gs) = .ok (p', a, b))
    (hl : p'.labels.length ≤ epsilon) (engine : Nat) (he : 1 ≤ engine ∧ engine ≤ 3) (hk : engine = 1 ∨ p.core.LookupOK)
    (hv : BelowTop p'.core val) {fuel : Nat} {i : Instance (Trace × T)} {ans byPre : Bool}
    (hs : fixSearch val h engine fuel p'.core a.toAut b.toAut = some ((i, ans), byPre))
    (hnb : AutNoBottom (if byPre then i.final else i.initial))
    (hne : (NRuns (· ∈ p'.allRules) val (DocSet names p fs) (DocSet names p gs)).Nonempty)
    (hun : ∀ x, ¬ IsLeast (NRuns (· ∈ p'.allRules) val (DocSet names p fs) (DocSet names p gs)) x) (word : String) :
    ∃ fuel0, ∀ fuel, fuel0 ≤ fuel → runDocs names p (autEvents fs) (autEvents gs) (verifyFixed val h false word engine fuel) = .report
      { engine := ["post*", "pre*", "dual*"].getD (engine - 1) "", result := true, weight := some (.text word), trace := [] } := by
  obtain ⟨g, k⟩ := docs_legal hn hd hw hpi hsi hpf hsf hli hlf hi hl
  unfold runDocs
  rw [hi]
  exact verifyFixed_unbounded val h0 hT h k.wf k.nodup hl k.first k.second k.blank k.blank' k.initial k.final engine he
    (hk.elim .inl fun hk => .inr (lookup_labels g hk)) hv hs hnb word hne hun

end

/-! ## Trace type longest -/

/-- What a report with the trace type longest says, for runs whose weights are bounded. -/
structure TellsLongest [AddCommMonoid T] [LinearOrder T] [OrderTop T] (R : TRule L W → Prop) (val : W → T) (I F : Nat → List L → Prop)
    (engine : String) (r : WReport L T) : Prop where
  engine : r.engine = engine
  result : r.result = true ↔ (NRuns R val I F).Nonempty
  yes : r.result = true → ∃ x, IsGreatest (NRuns R val I F) x ∧ r.weight = some (if x = ⊤ then .text "infinity" else .value x) ∧
    ((x = ⊤ ∧ r.trace = []) ∨ NRunOf R val I F r.trace x)
  no : r.result = false → r.weight = none ∧ r.trace = []

/-- C76, trace type longest, on expressions: the fixed point for the opposite order. -/
theorem c76_longest_partial [LinearOrder W] [Zero W] [LinearOrder T] [AddCommMonoid T] [IsOrderedAddMonoid T] [OrderBot T] [OrderTop T]
    [DecidableEq L] [Inhabited L] {find : S → Option (Option Nat)} {addr : Nat → Nat → Nat} (val : W → T)
    (h0 : val 0 = 0) (h h' : HashOrder) (ha : ∀ k, Function.Injective (addr k)) (t : TPda L W)
    (hfind : ∀ s c, find s = some (some c) → c < t.states.length) (hn : t.labels.Nodup) (hw : t.core.WF) (ini fin : List (PAtom L S))
    (hok : ∀ x ∈ ini ++ fin, x.ok = true) {t' : TPda L W} {a b : Aut W} (hi : parseInstance h addr find t ini fin = some (t', a, b))
    (hl : t'.labels.length < epsilon) (engine : Nat) (he : 1 ≤ engine ∧ engine ≤ 3)
    (hs : FixOK (T := Tᵒᵈ) t'.core val engine a b
      (NRuns (T := Tᵒᵈ) (· ∈ t'.allRules) val (DescribedBy find t.labels ini) (DescribedBy find (t.labels ++ ini.flatMap PAtom.labels) fin)))
    (hfit : FixFits (T := Tᵒᵈ) val h' engine t'.core a b) :
    ∃ fuel0 r, (∀ fuel, fuel0 ≤ fuel →
        runExpr h addr find t ini fin (verifyFixed (T := Tᵒᵈ) val h' false "infinity" engine fuel) = .report r) ∧
      TellsLongest (T := T) (· ∈ t'.allRules) val (DescribedBy find t.labels ini) (DescribedBy find (t.labels ++ ini.flatMap PAtom.labels) fin)
        (["post*", "pre*", "dual*"].getD (engine - 1) "") r := by
  obtain ⟨fuel0, r, h1, h2⟩ := c76_fixed_partial (T := Tᵒᵈ) val h0 h h' ha t hfind hn hw ini fin hok hi hl engine he hs hfit false "infinity"
  refine ⟨fuel0, r, h1, h2.engine, h2.result, fun hr => ?_, h2.no⟩
  obtain ⟨x, k1, k2, k3⟩ := h2.yes hr
  refine ⟨x, k1, ?_, k3.imp (fun k => k.2) id⟩
  rw [k2]
  simp only [true_and]
  rfl

/-! ## Integers that are not negative meet `FixOK` -/

theorem exVal_nonneg {x y : ExWeight} (hx : exVal 0 ≤ x) (hy : exVal 0 ≤ y) : exVal 0 ≤ x + y := by
  have : exVal 0 = exVal 0 + exVal 0 := rfl
  rw [this]
  exact add_le_add hx hy

theorem exVal_le {z : ℤ} (h : 0 ≤ z) : exVal 0 ≤ exVal z := by
  unfold exVal
  rw [WithTop.coe_le_coe, WithBot.coe_le_coe]
  exact h

theorem costRun_nonneg {R : URule ℤ → Prop} (hR : ∀ r, R r → 0 ≤ r.weight) {c c' : Config} {x : ExWeight} (h : CostRun R exVal c x c') :
    exVal 0 ≤ x ∧ x ≠ ⊤ := by
  induction h with
  | nil c => exact ⟨le_refl _, WithTop.coe_ne_top⟩
  | cons r w x c hr _ ih =>
    exact ⟨exVal_nonneg (exVal_le (hR r hr)) ih.1, (exWeight_belowTop (Pda.build 0 [])).add _ _ WithTop.coe_ne_top ih.2⟩

theorem nrun_nonneg {R : TRule L ℤ → Prop} (hR : ∀ r, R r → 0 ≤ r.weight) {cs : List (Nat × List L)} {x : ExWeight}
    (h : NCostTrace R exVal cs x) : exVal 0 ≤ x := by
  induction h with
  | one c => exact le_refl _
  | cons r w cs x hr _ ih => exact exVal_nonneg (exVal_le (hR r hr)) ih

/-- With integer weights that are not negative, all conditions of the fixed-point engines are met but the one on the rule lookup. -/
theorem fixOK_nonneg [Inhabited L] {t : TPda L ℤ} (hR : ∀ r ∈ t.allRules, 0 ≤ r.weight) (a b : Aut ℤ) (I F : Nat → List L → Prop)
    (engine : Nat) (hk : engine = 1 ∨ t.core.LookupOK) : FixOK t.core exVal engine a b (NRuns (· ∈ t.allRules) exVal I F) := by
  have hH : ∀ u, t.core.Has u → 0 ≤ u.weight := fun u hu => by
    have := hR (t.typed u) ((t.mem_allRules _).2 ⟨u, hu, rfl⟩)
    rwa [typed_weight] at this
  have unp : ∀ R : Set ExWeight, (∀ x ∈ R, ∃ c c', CostRun t.core.Has exVal c x c') → Unpumped R := fun R h =>
    BoundedBelow.unpumped (boundedBelow_int 0 R fun x hx => by
      obtain ⟨c, c', hr⟩ := h x hx
      exact (costRun_nonneg hH hr).1) WithTop.coe_ne_top fun x hx => by
      obtain ⟨c, c', hr⟩ := h x hx
      exact (costRun_nonneg hH hr).2
  refine ⟨exWeight_belowTop _, boundedBelow_int 0 _ ?_, .inr fun q w f _ => unp _ ?_, hk.imp id fun hk => ⟨fun q g f _ => unp _ ?_, hk⟩⟩
  · rintro x ⟨cs, hx, _⟩
    exact nrun_nonneg hR hx
  · rintro x ⟨c, _, _, hr⟩
    exact ⟨_, _, hr⟩
  · rintro x ⟨c, hr, _⟩
    exact ⟨_, _, hr⟩

/-! ## For the opposite order, integers that are not positive do -/

theorem dual_belowTop (p : Pda ℤ) : BelowTop (T := ExWeightᵒᵈ) p exVal := by
  have hb : (⊤ : ExWeightᵒᵈ) = (((⊥ : WithBot ℤ) : ExWeight) : ExWeightᵒᵈ) := rfl
  have hne : ∀ z : ℤ, exVal z ≠ ((⊥ : WithBot ℤ) : ExWeight) := fun z h => WithBot.coe_ne_bot (WithTop.coe_injective h)
  refine ⟨fun r _ => hne _, hne 0, fun x y hx hy => ?_⟩
  rw [hb] at hx hy ⊢
  induction x using WithTop.recTopCoe with
  | top => intro h; cases h
  | coe x =>
    induction y using WithTop.recTopCoe with
    | top => intro h; cases h
    | coe y =>
      induction x using WithBot.recBotCoe with
      | bot => exact absurd rfl hx
      | coe x =>
        induction y using WithBot.recBotCoe with
        | bot => exact absurd rfl hy
        | coe y => exact hne (x + y)

theorem exVal_pump {m : ℤ} {x y z : ExWeight} (hx : x ≠ ((⊥ : WithBot ℤ) : ExWeight)) (hz : z ≠ ((⊥ : WithBot ℤ) : ExWeight))
    (hk : ∀ k : Nat, x + k • y + z ≤ exVal m) : y ≤ exVal 0 := by
  have htop : ¬ (⊤ : ExWeight) ≤ exVal m := by
    rw [top_le_iff]
    exact WithTop.coe_ne_top
  have h1 := hk 0
  rw [zero_nsmul, add_zero] at h1
  induction x using WithTop.recTopCoe with
  | top => exact absurd (by rw [WithTop.top_add] at h1; exact h1) htop
  | coe x =>
    induction z using WithTop.recTopCoe with
    | top => exact absurd (by rw [WithTop.add_top] at h1; exact h1) htop
    | coe z =>
      induction x using WithBot.recBotCoe with
      | bot => exact absurd rfl hx
      | coe x =>
        induction z using WithBot.recBotCoe with
        | bot => exact absurd rfl hz
        | coe z =>
          induction y using WithTop.recTopCoe with
          | top =>
            have := hk 1
            rw [one_nsmul, WithTop.add_top, WithTop.top_add] at this
            exact absurd this htop
          | coe y =>
            induction y using WithBot.recBotCoe with
            | bot => exact WithTop.coe_le_coe.2 bot_le
            | coe y =>
              have key : ∀ k : Nat, (exVal x + k • exVal y + exVal z) = exVal (x + k * y + z) := by
                intro k
                have : k • exVal y = exVal (k * y) := by
                  induction k with
                  | zero => simp [exVal]
                  | succ k ih =>
                    rw [succ_nsmul, ih]
                    show exVal (k * y + y) = _
                    congr 1
                    rw [Int.natCast_succ, Int.add_mul, Int.one_mul]
                rw [this]
                rfl
              have h2 := hk ((m - x - z).natAbs + 1)
              have h2 : exVal (x + ((m - x - z).natAbs + 1 : Nat) * y + z) ≤ exVal m := (key _) ▸ h2
              unfold exVal at h2
              rw [WithTop.coe_le_coe, WithBot.coe_le_coe] at h2
              refine WithTop.coe_le_coe.2 (WithBot.coe_le_coe.2 ?_)
              by_contra hy
              have hy : 1 ≤ y := by omega
              have h3 : ((m - x - z).natAbs + 1 : Nat) * 1 ≤ (((m - x - z).natAbs + 1 : Nat) : ℤ) * y :=
                Int.mul_le_mul_of_nonneg_left hy (by omega)
              omega

theorem dual_boundedBelow (m : ℤ) (R : Set ExWeightᵒᵈ) (h : ∀ x : ExWeight, R x → x ≤ exVal m) : BoundedBelow R :=
  ⟨exVal m, h, fun _ _ _ hx hz hk => exVal_pump (m := m) hx hz hk⟩

theorem exVal_nonpos {R : URule ℤ → Prop} (hR : ∀ r, R r → r.weight ≤ 0) {c c' : Config} {x : ExWeight} (h : CostRun R exVal c x c') :
    ∃ z : ℤ, x = exVal z ∧ z ≤ 0 := by
  induction h with
  | nil c => exact ⟨0, rfl, Int.le_refl _⟩
  | cons r w x c hr _ ih =>
    obtain ⟨z, rfl, hz⟩ := ih
    exact ⟨r.weight + z, rfl, by have := hR r hr; omega⟩

theorem nrun_nonpos {R : TRule L ℤ → Prop} (hR : ∀ r, R r → r.weight ≤ 0) {cs : List (Nat × List L)} {x : ExWeight}
    (h : NCostTrace R exVal cs x) : ∃ z : ℤ, x = exVal z ∧ z ≤ 0 := by
  induction h with
  | one c => exact ⟨0, rfl, Int.le_refl _⟩
  | cons r w cs x hr _ ih =>
    obtain ⟨z, rfl, hz⟩ := ih
    exact ⟨r.weight + z, rfl, by have := hR r hr; omega⟩

theorem exVal_le_of {z m : ℤ} (h : z ≤ m) : exVal z ≤ exVal m := by
  unfold exVal
  rw [WithTop.coe_le_coe, WithBot.coe_le_coe]
  exact h

theorem fixOK_nonpos [Inhabited L] {t : TPda L ℤ} (hR : ∀ r ∈ t.allRules, r.weight ≤ 0) (a b : Aut ℤ) (I F : Nat → List L → Prop)
    (engine : Nat) (hk : engine = 1 ∨ t.core.LookupOK) :
    FixOK (T := ExWeightᵒᵈ) t.core exVal engine a b (NRuns (T := ExWeightᵒᵈ) (· ∈ t.allRules) exVal I F) := by
  have hH : ∀ u, t.core.Has u → u.weight ≤ 0 := fun u hu => by
    have := hR (t.typed u) ((t.mem_allRules _).2 ⟨u, hu, rfl⟩)
    rwa [typed_weight] at this
  have unp : ∀ R : Set ExWeightᵒᵈ, (∀ x ∈ R, ∃ c c', CostRun (T := ExWeight) t.core.Has exVal c x c') → Unpumped R := fun R h =>
    BoundedBelow.unpumped (dual_boundedBelow 0 R fun x hx => by
      obtain ⟨c, c', hr⟩ := h x hx
      obtain ⟨z, rfl, hz⟩ := exVal_nonpos hH hr
      exact exVal_le_of hz) (dual_belowTop (Pda.build 0 [])).zero fun x hx => by
      obtain ⟨c, c', hr⟩ := h x hx
      obtain ⟨z, rfl, hz⟩ := exVal_nonpos hH hr
      exact fun h => WithBot.coe_ne_bot (WithTop.coe_injective h)
  refine ⟨dual_belowTop _, dual_boundedBelow 0 _ ?_, .inr fun q w f _ => unp _ ?_, hk.imp id fun hk => ⟨fun q g f _ => unp _ ?_, hk⟩⟩
  · rintro x ⟨cs, hx, _⟩
    obtain ⟨z, rfl, hz⟩ := nrun_nonpos (R := (· ∈ t.allRules)) hR hx
    exact exVal_le_of hz
  · rintro x ⟨c, _, _, hr⟩
    exact ⟨_, _, hr⟩
  · rintro x ⟨c, hr, _⟩
    exact ⟨_, _, hr⟩

/-! ## Cases -/

section
variable [LinearOrder W] [Zero W] [LinearOrder T] [AddCommMonoid T] [OrderBot T] [OrderTop T] {a b : Aut W}

/-- One run of the search is enough to know that the states can be numbered. -/
theorem fixFits_of {val : W → T} {h : HashOrder} {engine fuel : Nat} {p : Pda W} {i : Instance (Trace × T)} {ans byPre : Bool}
    (hb : b.n ≤ sizeMax) (hr : fixSearch val h engine fuel p a b = some ((i, ans), byPre)) (hi : i.initial.n ≤ sizeMax) :
    FixFits val h engine p a b := by
  refine ⟨hb, fun fuel' i' ans' byPre' hr' => ?_⟩
  have h1 := fixSearch_more (Nat.le_max_left fuel fuel') hr
  rw [fixSearch_more (Nat.le_max_right fuel fuel') hr'] at h1
  cases h1
  exact hi

end

section
variable [LinearOrder W] [Zero W] [LinearOrder T] [AddCommMonoid T] {a b : Aut W}

theorem shortSearch_more {val : W → T} {hp : Heap (ShElem T) (WithTop T) ShElem.key} {hq : Heap (T × Nat) T Prod.fst} {h : HashOrder}
    {junk : Nat → Bool} {best : Nat → T} {engine fuel fuel' : Nat} (hf : fuel ≤ fuel') {p : Pda W} {r : SInstance T × Bool}
    (hr : shortSearch val hp hq h junk best engine fuel p a b = .ok (some r)) :
    shortSearch val hp hq h junk best engine fuel' p a b = .ok (some r) := by
  unfold shortSearch at hr ⊢
  split at hr
  · unfold SInstance.postStarAccepts at hr ⊢
    dsimp only at hr ⊢
    split at hr
    · rename_i hc
      rw [if_pos hc]
      exact hr
    · rename_i hc
      rw [if_neg hc]
      split at hr
      · cases hr
      · rename_i hc
        rw [if_neg hc]
        obtain ⟨x, h1, h2⟩ := Option.map_eq_some_iff.1 (Except.ok.inj hr)
        rw [Reducer.whileSome_mono hf h1, Option.map_some, h2]
  · unfold SInstance.preStarAccepts at hr ⊢
    dsimp only at hr ⊢
    split at hr
    · rename_i hc
      rw [if_pos hc]
      exact hr
    · rename_i hc
      rw [if_neg hc]
      obtain ⟨x, h1, h2⟩ := Option.map_eq_some_iff.1 (Except.ok.inj hr)
      unfold preStarShortest at h1 ⊢
      rw [Reducer.whileSome_mono hf h1, Option.map_some, h2]
  · unfold SInstance.dualSearchAccepts at hr ⊢
    dsimp only at hr ⊢
    split at hr
    · rename_i hc
      rw [if_pos hc]
      exact hr
    · rename_i hc
      rw [if_neg hc]
      split at hr
      · cases hr
      · rename_i hc
        rw [if_neg hc]
        obtain ⟨x, h1, h2⟩ := Option.map_eq_some_iff.1 (Except.ok.inj hr)
        rw [Reducer.whileSome_mono hf h1, Option.map_some, h2]

theorem shortFits_of {val : W → T} {hp : Heap (ShElem T) (WithTop T) ShElem.key} {hq : Heap (T × Nat) T Prod.fst} {h : HashOrder}
    {junk : Nat → Bool} {best : Nat → T} {engine fuel : Nat} {p : Pda W} {i : SInstance T} {ans : Bool}
    (ha : shN p (a.reweigh val) ≤ sizeMax) (hb : b.n ≤ sizeMax)
    (hr : shortSearch val hp hq h junk best engine fuel p a b = .ok (some (i, ans))) (hi : i.prod.base.aut.n ≤ sizeMax) :
    ShortFits val hp hq h junk best engine p a b := by
  refine ⟨ha, hb, fun fuel' i' ans' hr' => ?_⟩
  have h1 := shortSearch_more (Nat.le_max_left fuel fuel') hr
  rw [shortSearch_more (Nat.le_max_right fuel fuel') hr'] at h1
  cases h1
  exact hi

end

/-- The PDA of `c58_post_answer_wrong` with names: `(0, w) → (1, yw)` with weight 0, `(0, x) → (1, yx)` with 10, `(1, y) → (2, z)` with 5. -/
def lateDoc : NPda String String ℤ := { labels := ["w", "x", "y", "z"], states := latePda.states }

/-- `(0, w)` and `(0, x)`. -/
def lateIni : List JField := [.initial [.num 0], .edges [(.num 0, "w", .num 9), (.num 0, "x", .num 9)], .accepting [.num 9]]

/-- `(2, zx)`. -/
def lateFin : List JField := [.initial [.num 2], .edges [(.num 2, "z", .num 5), (.num 5, "x", .num 6)], .accepting [.num 6]]

/-- `(2, zw)`. -/
def soonFin : List JField := [.initial [.num 2], .edges [(.num 2, "z", .num 5), (.num 5, "w", .num 6)], .accepting [.num 6]]

/-- The program on the documents with the trace type shortest. -/
def lateRun (engine : Nat) (gs : List JField) : WOutcome String (WithTop ℤ) :=
  runDocs false lateDoc (autEvents lateIni) (autEvents gs)
    (verifyShortest id (Heap.first ShElem.key) (Heap.first Prod.fst) HashOrder.id (fun _ => false) (fun _ => 7) engine 100)

/-- C76, a disagreement found: the program reports that there is no run, although there is one. -/
theorem c76_answer_wrong : lateRun 1 lateFin = .report { engine := "post*", result := false, weight := none, trace := [] } ∧
    (15 : ℤ) ∈ NRuns (· ∈ lateDoc.allRules) id (DocSet false lateDoc lateIni) (DocSet false lateDoc lateFin) := by
  refine ⟨by decide +kernel, [(0, ["x"]), (1, ["y", "x"]), (2, ["z", "x"])], ?_, ⟨_, rfl, ?_⟩, ⟨_, rfl, ?_⟩⟩
  · exact .cons (R := (· ∈ lateDoc.allRules)) (val := id) ⟨0, "x", 1, .push, "y", 10⟩ [] _ _ (by decide +kernel)
      (.cons (R := (· ∈ lateDoc.allRules)) (val := id) ⟨1, "y", 2, .swap, "z", 5⟩ ["x"] _ _ (by decide +kernel) (.one _))
  · exact ⟨.num 0, ⟨rfl, rfl, by decide +kernel⟩, .num 9,
      .cons ((edge_iff [(.num 0, "w", .num 9), (.num 0, "x", .num 9)] lateIni rfl ..).2 (by simp)) (by decide) (.nil _), _, by simp [lateIni]; rfl, by simp⟩
  · exact ⟨.num 2, ⟨rfl, rfl, by decide +kernel⟩, .num 6,
      .cons ((edge_iff [(.num 2, "z", .num 5), (.num 5, "x", .num 6)] lateFin rfl ..).2 (List.mem_cons_self ..)) (by decide)
        (.cons (r' := .num 6) ((edge_iff [(.num 2, "z", .num 5), (.num 5, "x", .num 6)] lateFin rfl ..).2 (by simp)) (by decide) (.nil _)),
      _, by simp [lateFin]; rfl, by simp⟩

theorem lateDoc_wf : lateDoc.core.WF := by
  have : lateDoc.core = latePda := by
    unfold TPda.core lateDoc
    rfl
  rw [this]
  exact late_hyps.1

theorem lateDoc_three : lateDoc.states.length = 3 := by decide +kernel

theorem lateDoc_lookup : lateDoc.core.LookupOK := late_hyps.2.2.1

theorem lateIni_legal : Doc.Legal false lateDoc lateIni := by
  intro r l r' h
  rw [edge_iff [(.num 0, "w", .num 9), (.num 0, "x", .num 9)] lateIni rfl] at h
  simp only [List.mem_cons, List.not_mem_nil, or_false] at h
  rcases h with h | h <;> cases h <;>
    exact ⟨by decide, fun c hc => by obtain ⟨_, rfl, hc⟩ := hc; rw [lateDoc_three] at hc; omega⟩

theorem soonFin_legal : Doc.Legal false lateDoc soonFin := by
  intro r l r' h
  rw [edge_iff [(.num 2, "z", .num 5), (.num 5, "w", .num 6)] soonFin rfl] at h
  simp only [List.mem_cons, List.not_mem_nil, or_false] at h
  rcases h with h | h <;> cases h <;>
    exact ⟨by decide, fun c hc => by obtain ⟨_, rfl, hc⟩ := hc; rw [lateDoc_three] at hc; omega⟩

/-- The automata that are read. -/
def lateA : NAut ℤ := { acc := [false, false, false, true], edges := [(⟨0, 1, 3⟩, (Trace.null, 0)), (⟨0, 0, 3⟩, (Trace.null, 0))] }
def soonB : NAut ℤ := { acc := [false, false, false, false, true], edges := [(⟨3, 0, 4⟩, (Trace.null, 0)), (⟨2, 3, 3⟩, (Trace.null, 0))] }

theorem late_parse : parseJInstance false lateDoc (autEvents lateIni) (autEvents soonFin) = .ok (lateDoc, lateA, soonB) := rfl

theorem lateIni_state {q : Nat} {ls : List String} (h : DocSet false lateDoc lateIni q ls) : q = 0 ∧ ls ≠ [] := by
  have hE := edge_iff [(.num 0, "w", .num 9), (.num 0, "x", .num 9)] lateIni rfl
  obtain ⟨r, h1, r', h2, l, h3, h4⟩ := h
  simp only [lateIni, List.mem_cons, reduceCtorEq, JField.accepting.injEq, List.not_mem_nil, or_false, or_self, false_or] at h3
  subst h3
  rw [List.mem_singleton] at h4
  subst h4
  cases h2 with
  | nil =>
    obtain ⟨_, rfl, h⟩ := h1
    rw [lateDoc_three] at h
    omega
  | cons h2 _ _ =>
    rw [hE] at h2
    simp only [List.mem_cons, List.not_mem_nil, or_false] at h2
    rcases h2 with h2 | h2 <;> cases h2 <;> exact ⟨h1.2.1.symm, by simp⟩

theorem soonFin_state {q : Nat} {ls : List String} (h : DocSet false lateDoc soonFin q ls) : q = 2 ∧ ls ≠ [] := by
  have hE := edge_iff [(.num 2, "z", .num 5), (.num 5, "w", .num 6)] soonFin rfl
  obtain ⟨r, h1, r', h2, l, h3, h4⟩ := h
  simp only [soonFin, List.mem_cons, reduceCtorEq, JField.accepting.injEq, List.not_mem_nil, or_false, or_self, false_or] at h3
  subst h3
  rw [List.mem_singleton] at h4
  subst h4
  cases h2 with
  | nil =>
    obtain ⟨_, rfl, h⟩ := h1
    rw [lateDoc_three] at h
    omega
  | cons h2 _ _ =>
    rw [hE] at h2
    simp only [List.mem_cons, List.not_mem_nil, or_false] at h2
    rcases h2 with h2 | h2 <;> cases h2
    · exact ⟨h1.2.1.symm, by simp⟩
    · have := h1.2.2
      have h5 := h1.2.1
      rw [lateDoc_three] at this
      omega

theorem late_fits (engine : Nat) (he : 1 ≤ engine ∧ engine ≤ 3) :
    ShortFits id (Heap.first ShElem.key) (Heap.first Prod.fst) HashOrder.id (fun _ => false) (fun _ => 7) engine lateDoc.core lateA.toAut soonB.toAut := by
  have key : ∀ e, e = 1 ∨ e = 2 ∨ e = 3 → ((shortSearch id (Heap.first ShElem.key) (Heap.first Prod.fst) HashOrder.id (fun _ => false)
      (fun _ => (7 : ℤ)) e 100 lateDoc.core lateA.toAut soonB.toAut).toOption.bind id).any (fun r => decide (r.1.prod.base.aut.n ≤ 100)) = true := by
    rintro e (rfl | rfl | rfl) <;> decide +kernel
  have := key engine (by omega)
  rcases hs : shortSearch id (Heap.first ShElem.key) (Heap.first Prod.fst) HashOrder.id (fun _ => false)
      (fun _ => (7 : ℤ)) engine 100 lateDoc.core lateA.toAut soonB.toAut with s | _ | ⟨i, ans⟩
  · rw [hs] at this; cases this
  · rw [hs] at this; cases this
  · rw [hs] at this
    have h2 : i.prod.base.aut.n ≤ 100 := of_decide_eq_true this
    exact shortFits_of (by decide +kernel) (by decide +kernel) hs (Nat.le_trans h2 (by decide))

/-- Non-vacuity: all hypotheses of `c76_shortest_docs_partial` hold, and all engines report the weight 5. -/
example (engine : Nat) (he : 1 ≤ engine ∧ engine ≤ 3) : ∃ r, lateRun engine soonFin = .report r ∧ r.result = true ∧
    IsLeast (NRuns (· ∈ lateDoc.allRules) id (DocSet false lateDoc lateIni) (DocSet false lateDoc soonFin)) (5 : ℤ) := by
  have h := (c76_shortest_docs_partial id rfl (Heap.first ShElem.key) (Heap.first Prod.fst) HashOrder.id (fun _ => false) (fun _ => (7 : ℤ))
    (names := false) (p := lateDoc) (fs := lateIni) (gs := soonFin) (fun h => by cases h) (by decide) lateDoc_wf (fun h => by cases h)
    (by unfold Doc.Small; decide +kernel) (fun h => by cases h) (by unfold Doc.Small; decide +kernel) lateIni_legal soonFin_legal late_parse
    (by decide) late_hyps.2.2.2.2.2.2.2.1 engine he (by
      unfold ShortOK
      split
      · rintro q ⟨h1, h2⟩
        exact (lateIni_state h1).2 rfl
      · refine ⟨lateDoc_lookup, fun q h => (soonFin_state h).2 rfl, fun q ls h => ?_, fun _ => (show (0 : ℤ) ≤ 7 by decide)⟩
        have h1 := (lateIni_state h.1).1
        have h2 := (soonFin_state h.2).1
        omega) (late_fits engine he)).2 100
  have hv : ∀ e, e = 1 ∨ e = 2 ∨ e = 3 → (match lateRun e soonFin with
      | .report r => decide (r.result = true ∧ r.weight = some (.value ((5 : ℤ) : WithTop ℤ))) | _ => false) = true := by
    rintro e (rfl | rfl | rfl) <;> decide +kernel
  have hv := hv engine (by omega)
  rcases h with h | ⟨r, h1, h2⟩
  · have h : lateRun engine soonFin = .running := h
    rw [h] at hv
    cases hv
  · have h1 : lateRun engine soonFin = .report r := h1
    rw [h1] at hv
    have hv := of_decide_eq_true hv
    obtain ⟨x, k1, k2, _⟩ := h2.yes hv.1
    rw [hv.2] at k2
    injection k2 with k2
    injection k2 with k2
    have k2 := WithTop.coe_injective k2
    exact ⟨r, h1, hv.1, k2 ▸ k1⟩

theorem late_fixFits (engine : Nat) (he : 1 ≤ engine ∧ engine ≤ 3) : FixFits exVal HashOrder.id engine lateDoc.core lateA.toAut soonB.toAut := by
  have key : ∀ e, e = 1 ∨ e = 2 ∨ e = 3 →
      (fixSearch exVal HashOrder.id e 100 lateDoc.core lateA.toAut soonB.toAut).any (fun r => decide (r.1.1.initial.n ≤ 100)) = true := by
    rintro e (rfl | rfl | rfl) <;> decide +kernel
  have := key engine (by omega)
  rcases hs : fixSearch exVal HashOrder.id engine 100 lateDoc.core lateA.toAut soonB.toAut with _ | ⟨⟨i, ans⟩, byPre⟩
  · rw [hs] at this; cases this
  · rw [hs] at this
    have h2 : i.initial.n ≤ 100 := of_decide_eq_true this
    exact fixFits_of (by decide +kernel) hs (Nat.le_trans h2 (by decide))

/-- Non-vacuity: all hypotheses of `c76_fixed_docs_partial` hold; the report says that there is a run. -/
example (engine : Nat) (he : 1 ≤ engine ∧ engine ≤ 3) :
    ∃ fuel0 r, (∀ fuel, fuel0 ≤ fuel → runDocs false lateDoc (autEvents lateIni) (autEvents soonFin)
        (verifyFixed exVal HashOrder.id false "negative infinity" engine fuel) = .report r) ∧ r.result = true := by
  obtain ⟨fuel0, r, h1, h2⟩ := c76_fixed_docs_partial exVal rfl HashOrder.id
    (names := false) (p := lateDoc) (fs := lateIni) (gs := soonFin) (fun h => by cases h) (by decide) lateDoc_wf (fun h => by cases h)
    (by unfold Doc.Small; decide +kernel) (fun h => by cases h) (by unfold Doc.Small; decide +kernel) lateIni_legal soonFin_legal late_parse
    (by decide) engine he (fixOK_nonneg (by decide +kernel) _ _ _ _ engine (.inr lateDoc_lookup)) (late_fixFits engine he) false "negative infinity"
  refine ⟨fuel0, r, h1, h2.result.2 ⟨exVal 0 + (exVal 5 + 0), [(0, ["w"]), (1, ["y", "w"]), (2, ["z", "w"])], ?_, ⟨_, rfl, ?_⟩, ⟨_, rfl, ?_⟩⟩⟩
  · exact .cons (R := (· ∈ lateDoc.allRules)) (val := exVal) ⟨0, "w", 1, .push, "y", 0⟩ [] _ _ (by decide +kernel)
      (.cons (R := (· ∈ lateDoc.allRules)) (val := exVal) ⟨1, "y", 2, .swap, "z", 5⟩ ["w"] _ _ (by decide +kernel) (.one _))
  · exact ⟨.num 0, ⟨rfl, rfl, by decide +kernel⟩, .num 9,
      .cons ((edge_iff [(.num 0, "w", .num 9), (.num 0, "x", .num 9)] lateIni rfl ..).2 (by simp)) (by decide) (.nil _), _, by simp [lateIni]; rfl, by simp⟩
  · exact ⟨.num 2, ⟨rfl, rfl, by decide +kernel⟩, .num 6,
      .cons ((edge_iff [(.num 2, "z", .num 5), (.num 5, "w", .num 6)] soonFin rfl ..).2 (List.mem_cons_self ..)) (by decide)
        (.cons (r' := .num 6) ((edge_iff [(.num 2, "z", .num 5), (.num 5, "w", .num 6)] soonFin rfl ..).2 (by simp)) (by decide) (.nil _)),
      _, by simp [soonFin]; rfl, by simp⟩

/-- `(0, a) → (0, ε)` with weight -1. -/
def eatDoc : NPda String String ℤ := { labels := ["a", "b"], states := (Pda.build 2 eatCalls).states }

/-- `(0, a…ab)` with at least one `a`. -/
def eatIni : List JField :=
  [.initial [.num 0], .edges [(.num 0, "a", .num 5), (.num 5, "a", .num 5), (.num 5, "b", .num 6)], .accepting [.num 6]]

/-- `(0, b)`. -/
def eatFin : List JField := [.initial [.num 0], .edges [(.num 0, "b", .num 7)], .accepting [.num 7]]

def eatA : NAut ℤ :=
  { acc := [false, false, true], edges := [(⟨1, 1, 2⟩, (Trace.null, 0)), (⟨1, 0, 1⟩, (Trace.null, 0)), (⟨0, 0, 1⟩, (Trace.null, 0))] }
def eatB : NAut ℤ := { acc := [false, true], edges := [(⟨0, 1, 1⟩, (Trace.null, 0))] }

theorem eat_parse : parseJInstance false eatDoc (autEvents eatIni) (autEvents eatFin) = .ok (eatDoc, eatA, eatB) := rfl

theorem eat_one : eatDoc.states.length = 1 := by decide +kernel

theorem eatIni_legal : Doc.Legal false eatDoc eatIni := by
  intro r l r' h
  rw [edge_iff [(.num 0, "a", .num 5), (.num 5, "a", .num 5), (.num 5, "b", .num 6)] eatIni rfl] at h
  simp only [List.mem_cons, List.not_mem_nil, or_false] at h
  rcases h with h | h | h <;> cases h <;>
    exact ⟨by decide, fun c hc => by obtain ⟨_, rfl, hc⟩ := hc; rw [eat_one] at hc; omega⟩

theorem eatFin_legal : Doc.Legal false eatDoc eatFin := by
  intro r l r' h
  rw [edge_iff [(.num 0, "b", .num 7)] eatFin rfl] at h
  simp only [List.mem_cons, List.not_mem_nil, or_false] at h
  cases h
  exact ⟨by decide, fun c hc => by obtain ⟨_, rfl, hc⟩ := hc; rw [eat_one] at hc; omega⟩

theorem eat_run (k : Nat) : ∃ cs, NCostTrace (· ∈ eatDoc.allRules) exVal cs (exVal (-k)) ∧
    cs.head? = some (0, List.replicate k "a" ++ ["b"]) ∧ cs.getLast? = some (0, ["b"]) := by
  induction k with
  | zero => exact ⟨[(0, ["b"])], .one _, rfl, rfl⟩
  | succ k ih =>
    obtain ⟨cs, h1, h2, h3⟩ := ih
    cases cs with
    | nil => cases h2
    | cons c cs =>
      cases h2
      refine ⟨(0, List.replicate (k + 1) "a" ++ ["b"]) :: (0, List.replicate k "a" ++ ["b"]) :: cs, ?_, rfl, ?_⟩
      · have := NCostTrace.cons (R := (· ∈ eatDoc.allRules)) (val := exVal) ⟨0, "a", 0, .pop, default, -1⟩ (List.replicate k "a" ++ ["b"]) cs _
          (by decide +kernel) h1
        have e : exVal (-((k + 1 : Nat) : ℤ)) = exVal (-1) + exVal (-k) := by
          show _ = exVal (-1 + -k)
          congr 1
          omega
        rw [e]
        exact this
      · rw [List.getLast?_cons_cons]
        exact h3

theorem eat_ini (k : Nat) : DocSet false eatDoc eatIni 0 (List.replicate (k + 1) "a" ++ ["b"]) := by
  have hE := edge_iff [(.num 0, "a", .num 5), (.num 5, "a", .num 5), (.num 5, "b", .num 6)] eatIni rfl
  have loop : ∀ k, Doc.Path eatIni (.num 5) (List.replicate k "a" ++ ["b"]) (.num 6) := by
    intro k
    induction k with
    | zero => exact .cons ((hE ..).2 (by simp)) (by decide) (.nil _)
    | succ k ih => exact .cons ((hE (.num 5) (.num 5) "a").2 (by simp)) (by decide) ih
  exact ⟨.num 0, ⟨rfl, rfl, by decide +kernel⟩, .num 6, .cons (r' := .num 5) ((hE ..).2 (by simp)) (by decide) (loop k), _,
    by simp [eatIni]; rfl, by simp⟩

theorem eat_runs (k : Nat) : exVal (-((k + 1 : Nat) : ℤ)) ∈ NRuns (· ∈ eatDoc.allRules) exVal (DocSet false eatDoc eatIni) (DocSet false eatDoc eatFin) := by
  obtain ⟨cs, h1, h2, h3⟩ := eat_run (k + 1)
  refine ⟨cs, h1, ⟨_, h2, eat_ini k⟩, _, h3, .num 0, ⟨rfl, rfl, by decide +kernel⟩, .num 7, ?_, _, by simp [eatFin]; rfl, by simp⟩
  exact .cons ((edge_iff [(.num 0, "b", .num 7)] eatFin rfl ..).2 (by simp)) (by decide) (.nil _)

theorem ncost_int {R : TRule L ℤ → Prop} {cs : List (Nat × List L)} {x : ExWeight} (h : NCostTrace R exVal cs x) : ∃ z : ℤ, x = exVal z := by
  induction h with
  | one c => exact ⟨0, rfl⟩
  | cons r w cs x _ _ ih =>
    obtain ⟨z, rfl⟩ := ih
    exact ⟨r.weight + z, rfl⟩

/-- Non-vacuity: all hypotheses of `c76_unbounded_docs_partial` hold for pre*; the report gives "negative infinity". -/
example : ∃ fuel0, ∀ fuel, fuel0 ≤ fuel → runDocs false eatDoc (autEvents eatIni) (autEvents eatFin)
    (verifyFixed exVal HashOrder.id false "negative infinity" 2 fuel) =
      .report { engine := "pre*", result := true, weight := some (.text "negative infinity"), trace := [] } := by
  have hOK : ∀ c ∈ eatCalls, c.OK 2 := by simp [eatCalls, PdaCall.OK, WSorted]
  have key : (fixSearch exVal HashOrder.id 2 100 eatDoc.core eatA.toAut eatB.toAut).any
      (fun r => r.2 && r.1.1.final.edges.all (fun e => decide (e.2.2.2 ≠ ⊥))) = true := by decide +kernel
  rcases hs : fixSearch exVal HashOrder.id 2 100 eatDoc.core eatA.toAut eatB.toAut with _ | ⟨⟨i, ans⟩, byPre⟩
  · rw [hs] at key; cases key
  · rw [hs, Option.any_some, Bool.and_eq_true] at key
    obtain ⟨k1, k2⟩ := key
    cases byPre with
    | false => cases k1
    | true =>
      refine c76_unbounded_docs_partial exVal rfl exWeight_bottomed HashOrder.id (names := false) (p := eatDoc) (fs := eatIni) (gs := eatFin)
        (fun h => by cases h) (by decide) (Pda.WF_build 2 _ hOK) (fun h => by cases h) (by unfold Doc.Small; decide +kernel)
        (fun h => by cases h) (by unfold Doc.Small; decide +kernel) eatIni_legal eatFin_legal eat_parse (by decide) 2 (by decide) (.inr (lookupOK_build 2 _ hOK (by simp [eatCalls]; rintro _ r _ _ rfl _ h; cases h)))
        (exWeight_belowTop _) hs (autNoBottom_of_all _ k2) ⟨_, eat_runs 0⟩ ?_ _
      rintro x ⟨⟨cs, h1, _⟩, h2⟩
      obtain ⟨z, rfl⟩ := ncost_int h1
      have := h2 (eat_runs z.natAbs)
      unfold exVal at this
      rw [WithTop.coe_le_coe, WithBot.coe_le_coe] at this
      omega

end Verif.Props
