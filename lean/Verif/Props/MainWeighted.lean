import Verif.Props.MainJson

/-!
# C85: the program with weights, on texts, on P-automata in JSON, and on instances
-/

namespace Verif.Props

open Verif Verif.Json Verif.Instance RegexText

section
variable {e : ProgEnv} {w : World} {o : ProgOpts}

/-- The program is given a PDA `p` with initial configurations `I` and final ones `F`, in one of three ways: as two texts, as two documents,
or as one document. `t` is the PDA with the labels of the automata, `a` and `b` are the automata. -/
inductive Poses (e : ProgEnv) (w : World) (o : ProgOpts) : (k : WKind) → NPda String String k.Carrier → TPda String k.Carrier → Aut k.Carrier →
    Aut k.Carrier → (Nat → List String → Prop) → (Nat → List String → Prop) → Prop
  | text {pda : List JEv} {si sf : List Char} {k : WKind} {p : NPda String String k.Carrier} {ini fin : List (PAtom String String)}
      {t : TPda String k.Carrier} {a b : Aut k.Carrier} (ha : ∀ k, Function.Injective (e.addr k)) (hh : Holds e w o pda (.text si sf))
      (hf : SameWord o.format "pdaaal") (hw : getWeightType o.weight = some k) (ho : IsObject pda) (hp : parsePda k.io o.names pda = some p)
      (hsi : AtomsText ini si) (hsf : AtomsText fin sf) (hok : ∀ x ∈ ini ++ fin, x.ok = true)
      (hi : parseInstance e.order e.addr (findState o.names p) p.toTPda ini fin = some (t, a, b)) :
      Poses e w o k p t a b (DescribedBy (findState o.names p) p.labels ini)
        (DescribedBy (findState o.names p) (p.labels ++ ini.flatMap PAtom.labels) fin)
  | json {pda : List JEv} {k : WKind} {p p' : NPda String String k.Carrier} {fs gs : List JField} {a b : NAut k.Carrier}
      (hh : Holds e w o pda (.json (autEvents fs) (autEvents gs))) (hf : SameWord o.format "pdaaal") (hw : getWeightType o.weight = some k)
      (ho : IsObject pda) (hp : parsePda k.io o.names pda = some p) (hpi : Doc.Pure o.names p fs) (hsi : Doc.Small p fs)
      (hpf : Doc.Pure o.names p gs) (hsf : Doc.Small p gs) (hli : Doc.Legal o.names p fs) (hlf : Doc.Legal o.names p gs)
      (hi : parseJInstance o.names p (autEvents fs) (autEvents gs) = .ok (p', a, b)) :
      Poses e w o k p p'.toTPda a.toAut b.toAut (DocSet o.names p fs) (DocSet o.names p gs)
  | document {q : List JEv} {ts : List TField} {names : Bool} {k : WKind} {p p' : NPda String String k.Carrier} {fs gs : List JField} {a b : NAut k.Carrier}
      (hg : Given e w o (instEvents (typeEvents ts) q (autInner fs) (autInner gs))) (hq : IsObject q) (htype : typeOf ts = some (names, k))
      (hp : parsePda k.io names (pdaDoc q) = some p) (hpi : Doc.Pure names p fs) (hsi : Doc.Small p fs) (hpf : Doc.Pure names p gs)
      (hsf : Doc.Small p gs) (hli : Doc.Legal names p fs) (hlf : Doc.Legal names p gs)
      (hi : parseInstDoc (instEvents (typeEvents ts) q (autInner fs) (autInner gs)) = .ok ⟨k, names, p', a, b⟩) :
      Poses e w o k p p'.toTPda a.toAut b.toAut (DocSet names p fs) (DocSet names p gs)

/-- The program ends with status 0 and has written a JSON object with the report. -/
def Prints (e : ProgEnv) (w : World) (o : ProgOpts) (k : WKind) (r : WReport String (WithTop (WithBot Int))) : Prop :=
  (prog e w o).ending = .code 0 ∧ ∃ out, (prog e w o).out = some out ∧
    JText (JTree.ofEntries (parsingEntry e o ++ reportEntries e.val (e.num k) e.time r)) out

theorem inst_legal {q : List JEv} {ts : List TField} {names : Bool} {k : WKind} {p p' : NPda String String k.Carrier} {fs gs : List JField}
    (hq : IsObject q) (ht : typeOf ts = some (names, k)) (hp : parsePda k.io names (pdaDoc q) = some p)
    (hpi : Doc.Pure names p fs) (hsi : Doc.Small p fs) (hpf : Doc.Pure names p gs) (hsf : Doc.Small p gs)
    (hli : Doc.Legal names p fs) (hlf : Doc.Legal names p gs) {a b : NAut k.Carrier}
    (hi : parseInstDoc (instEvents (typeEvents ts) q (autInner fs) (autInner gs)) = .ok ⟨k, names, p', a, b⟩) (hl : p'.labels.length ≤ epsilon) :
    p'.states = p.states ∧ LegalPair p'.toTPda a.toAut b.toAut (DocSet names p fs) (DocSet names p gs) := by
  obtain ⟨hd, hw, hn⟩ := c77_wellformed _ (object_in hq "pda") hp
  rcases inst_spec hq ht hp hpi hsi hpf hsf with ⟨_, p1, p2, a1, b1, ν, μ, h1, h2, h3⟩ | ⟨_, h1⟩
  · rw [hi] at h1
    cases h1
    have hs := h3.states.trans h2.states
    have hd1 := h2.nodup hd
    have hd2 := h3.nodup hd1
    have hn1 : NamesOK names p1 := fun h => by rw [h2.sameNames, h2.states]; exact hn h
    have hlf1 := (legal_congr h2.states h2.sameNames).2 hlf
    have hle1 : p1.labels.length ≤ epsilon := Nat.le_trans h3.known.length_le hl
    have hF := h3.meets hn1 hlf1 hd2 hl
    rw [docSet_congr h2.states h2.sameNames] at hF
    exact ⟨hs, wf_labels hs (h2.known.trans h3.known) hw, hd2, core_mono h3.states h3.known (h2.paut hli), h3.paut hlf1,
      h2.blank, h3.blank, (h2.meets hn hli hd1 hle1).more h3.states h3.known hd1 hd2, hF⟩
  · rw [hi] at h1
    cases h1

/-- However the instance is given, the program reads it, and the engines can be given the automata. -/
theorem poses_read {k : WKind} {p : NPda String String k.Carrier} {t : TPda String k.Carrier} {a b : Aut k.Carrier} {I F : Nat → List String → Prop}
    (hP : Poses e w o k p t a b I F) (hl : t.labels.length ≤ epsilon) :
    (∃ names p' a' b', readInstance e w o = .ok ⟨k, names, p', a', b'⟩ ∧ p'.toTPda = t ∧ a'.toAut = a ∧ b'.toAut = b) ∧
    t.states = p.states ∧ LegalPair t a b I F ∧ (k ≠ .int → p.core.LookupOK) := by
  cases hP with
  | text ha hh hf hw ho hp hsi hsf hok hi =>
    obtain ⟨w1, w2, w3⟩ := c77_wellformed k.io ho hp
    obtain ⟨g, hL⟩ := expr_legal e.order ha p.toTPda (findState_lt w3) w1 w2 _ _ hok hi
    refine ⟨?_, g, hL, lookup_read hp⟩
    have hr := c83_run (U := fun k => TPda String k.Carrier × Aut k.Carrier × Aut k.Carrier) e.order ha hf hw hp hsi hsf
      fun _ t a b => .report { engine := "", result := true, weight := some (.value (t, a, b)), trace := [] }
    unfold runFilesBy at hr
    rw [(c81_options o.format).1.2 hf, hw] at hr
    simp only [hp, Option.map_some] at hr
    have h2 := eq_of_heq (Sigma.mk.inj (Option.some.inj hr)).2
    unfold runExpr at h2
    rw [hi] at h2
    obtain ⟨p', a', b', h3, h4⟩ := read_report ha hh hf hw ho hp h2
    injection h4 with h4
    injection h4 with _ _ h4 _
    injection h4 with h4
    injection h4 with h4
    injection h4 with h5 h6
    injection h6 with h6 h7
    exact ⟨_, _, _, _, h3, h5, h6, h7⟩
  | json hh hf hw ho hp hpi hsi hpf hsf hli hlf hi =>
    obtain ⟨w1, w2, w3⟩ := c77_wellformed k.io ho hp
    obtain ⟨g, hL⟩ := docs_legal w3 w1 w2 hpi hsi hpf hsf hli hlf hi hl
    refine ⟨⟨o.names, _, _, _, ?_, rfl, rfl, rfl⟩, g, hL, lookup_read hp⟩
    rw [read_docs hh hf hw hp, hi]
    rfl
  | document hg hq htype hp hpi hsi hpf hsf hli hlf hi =>
    obtain ⟨g, hL⟩ := inst_legal hq htype hp hpi hsi hpf hsf hli hlf hi hl
    exact ⟨⟨_, _, _, _, (read_given hg).trans hi, rfl, rfl, rfl⟩, g, hL, lookup_read hp⟩

theorem read_fuel (e : ProgEnv) (w : World) (o : ProgOpts) (n : Nat) : readInstance { e with fuel := n } w o = readInstance e w o := rfl

/-- If the search gives a report, the program prints it. -/
theorem poses_prints (hk : Works o) (hc : CanPrint w o) {i : Inst} (hr : readInstance e w o = .ok i) (hv : i.kind.isVector = false)
    {r : WReport String (WithTop (WithBot Int))} (h : progVerify e o i = some (.report r)) : Prints e w o i.kind r := by
  obtain ⟨e1, _, e2⟩ := c85_output hk hc hr (.inl hv)
  exact ⟨e1.2 (.inr ⟨_, h⟩), e2 _ h⟩

variable {I F : Nat → List String → Prop}

/-- C85, the whole program with `uint` weights and `--trace 4`: whenever it is given enough steps it ends with status 0 and prints a report that says
whether there is a run, and if so the least weight of all runs and a run of that weight. The full statement is for all inputs (see `Poses`), without
the number of labels and the limit on states. -/
theorem c85_least_partial (hk : Works o) (hc : CanPrint w o) {p : NPda String String Int} {t : TPda String Int} {a b : Aut Int}
    (hP : Poses e w o .uint p t a b I F) (hl : t.labels.length < epsilon) (he : 1 ≤ o.engine ∧ o.engine ≤ 3) (ht : o.trace = .fixedPoint)
    (hfit : FixFits unsignedVal e.order o.engine t.core a b) :
    ∃ (fuel0 : Nat) (r : WReport String (WithTop Nat)), (∀ n, fuel0 ≤ n → Prints { e with fuel := n } w o .uint (r.map ofNatWeight)) ∧
      r.engine = ["post*", "pre*", "dual*"].getD (o.engine - 1) "" ∧
      (r.result = true ↔ (NRuns (· ∈ t.allRules) unsignedVal I F).Nonempty) ∧
      (r.result = true → ∃ x : WithTop Nat, IsLeast (NRuns (· ∈ t.allRules) unsignedVal I F) x ∧ r.weight = some (.value x) ∧
        NRunOf (· ∈ t.allRules) unsignedVal I F r.trace x) ∧
      (r.result = false → r.weight = none ∧ r.trace = []) := by
  obtain ⟨⟨names, p', a', b', h1, rfl, rfl, rfl⟩, hst, k, hlook⟩ := poses_read (k := .uint) hP (Nat.le_of_lt hl)
  obtain ⟨fuel0, r, g1, g2⟩ := verifyFixed_tells (W := Int) unsignedVal rfl e.order k.wf k.nodup hl k.first k.second k.blank k.blank' k.initial k.final
    o.engine he (fixOK_unsigned _ _ _ o.engine (.inr (lookup_labels hst (hlook (by decide))))) hfit true "negative infinity"
  refine ⟨fuel0, r, fun n hn => ?_, g2.engine, g2.result, fun hr => ?_, g2.no⟩
  · refine poses_prints hk hc (i := ⟨.uint, names, p', a', b'⟩) ((read_fuel e w o n).trans h1) rfl ?_
    unfold progVerify
    rw [ht]
    exact congrArg (fun x : WOutcome String (WithTop Nat) => some (x.map ofNatWeight)) (g1 n hn)
  · obtain ⟨x, k1, k2, k3⟩ := g2.yes hr
    refine ⟨x, k1, ?_, ?_⟩
    · rw [k2]; simp
    · rcases k3 with ⟨k, -⟩ | k
      · cases k
      · exact k

/-- C85, the whole program with `int` weights and `--trace 4`, if no run can be improved again and again. -/
theorem c85_signed_partial (hk : Works o) (hc : CanPrint w o) {p : NPda String String Int} {t : TPda String Int} {a b : Aut Int}
    (hP : Poses e w o .int p t a b I F) (hl : t.labels.length < epsilon) (he : 1 ≤ o.engine ∧ o.engine ≤ 3) (ht : o.trace = .fixedPoint)
    (hs : FixOK t.core signedVal o.engine a b (NRuns (· ∈ t.allRules) signedVal I F)) (hfit : FixFits signedVal e.order o.engine t.core a b) :
    ∃ (fuel0 : Nat) (r : WReport String (WithTop (WithBot Int))), (∀ n, fuel0 ≤ n → Prints { e with fuel := n } w o .int r) ∧
      TellsBest (· ∈ t.allRules) signedVal I F (["post*", "pre*", "dual*"].getD (o.engine - 1) "") false "negative infinity" r := by
  obtain ⟨⟨names, p', a', b', h1, rfl, rfl, rfl⟩, hst, k, -⟩ := poses_read (k := .int) hP (Nat.le_of_lt hl)
  obtain ⟨fuel0, r, g1, g2⟩ := verifyFixed_tells (W := Int) signedVal rfl e.order k.wf k.nodup hl k.first k.second k.blank k.blank' k.initial k.final
    o.engine he hs hfit false "negative infinity"
  refine ⟨fuel0, r, fun n hn => poses_prints hk hc (i := ⟨.int, names, p', a', b'⟩) ((read_fuel e w o n).trans h1) rfl ?_, g2⟩
  unfold progVerify
  rw [ht]
  refine (congrArg (fun x : WOutcome String (WithTop (WithBot Int)) => some (x.map id)) (g1 n hn)).trans ?_
  unfold WOutcome.map WReport.map
  congr 2
  cases r with | mk _ _ x _ => cases x with | none => rfl | some x => cases x <;> rfl

/-- C85, the whole program with `--trace 3`, if no run can be improved again and again. -/
theorem c85_greatest_partial (hk : Works o) (hc : CanPrint w o) {signed : Bool} {p : NPda String String Int} {t : TPda String Int} {a b : Aut Int}
    (hP : if signed then Poses e w o .int p t a b I F else Poses e w o .uint p t a b I F) (hl : t.labels.length < epsilon)
    (he : 1 ≤ o.engine ∧ o.engine ≤ 3) (ht : o.trace = .longest)
    (hs : FixOK (T := (WithTop (WithBot Int))ᵒᵈ) t.core signedVal o.engine a b (NRuns (T := (WithTop (WithBot Int))ᵒᵈ) (· ∈ t.allRules) signedVal I F))
    (hfit : FixFits (T := (WithTop (WithBot Int))ᵒᵈ) signedVal e.order o.engine t.core a b) :
    ∃ (fuel0 : Nat) (r : WReport String (WithTop (WithBot Int))),
      (∀ n, fuel0 ≤ n → Prints { e with fuel := n } w o (if signed then .int else .uint) r) ∧
      TellsLongest (T := WithTop (WithBot Int)) (· ∈ t.allRules) signedVal I F (["post*", "pre*", "dual*"].getD (o.engine - 1) "") r := by
  have key : ∀ k : LegalPair t a b I F, ∃ (fuel0 : Nat) (r : WReport String (WithTop (WithBot Int))),
      (∀ n, fuel0 ≤ n → verifyFixed (W := Int) (T := (WithTop (WithBot Int))ᵒᵈ) signedVal e.order false "infinity" o.engine n t a b = .report r) ∧
      TellsLongest (T := WithTop (WithBot Int)) (· ∈ t.allRules) signedVal I F (["post*", "pre*", "dual*"].getD (o.engine - 1) "") r := by
    intro k
    obtain ⟨fuel0, r, h1, h2⟩ := verifyFixed_tells (W := Int) (T := (WithTop (WithBot Int))ᵒᵈ) signedVal rfl e.order k.wf k.nodup hl k.first k.second
      k.blank k.blank' k.initial k.final o.engine he hs hfit false "infinity"
    refine ⟨fuel0, r, h1, h2.engine, h2.result, fun hr => ?_, h2.no⟩
    obtain ⟨x, k1, k2, k3⟩ := h2.yes hr
    refine ⟨x, k1, ?_, k3.imp (fun k => k.2) id⟩
    rw [k2]
    simp only [true_and]
    rfl
  cases signed with
  | true =>
    obtain ⟨⟨names, p', a', b', h1, rfl, rfl, rfl⟩, -, k, -⟩ := poses_read (k := .int) hP (Nat.le_of_lt hl)
    obtain ⟨fuel0, r, g1, g2⟩ := key k
    refine ⟨fuel0, r, fun n hn => poses_prints hk hc (i := ⟨.int, names, p', a', b'⟩) ((read_fuel e w o n).trans h1) rfl ?_, g2⟩
    unfold progVerify
    rw [ht]
    exact congrArg some (g1 n hn)
  | false =>
    obtain ⟨⟨names, p', a', b', h1, rfl, rfl, rfl⟩, -, k, -⟩ := poses_read (k := .uint) hP (Nat.le_of_lt hl)
    obtain ⟨fuel0, r, g1, g2⟩ := key k
    refine ⟨fuel0, r, fun n hn => poses_prints hk hc (i := ⟨.uint, names, p', a', b'⟩) ((read_fuel e w o n).trans h1) rfl ?_, g2⟩
    unfold progVerify
    rw [ht]
    exact congrArg some (g1 n hn)

/-- C85, the whole program with `int` weights and `--trace 4`, if the runs have no least weight: it prints the text, without a trace. This is for
searches whose saturated automaton has no transition of weight `bottom()`; see C76. -/
theorem c85_unbounded_partial (hk : Works o) (hc : CanPrint w o) {p : NPda String String Int} {t : TPda String Int} {a b : Aut Int}
    (hP : Poses e w o .int p t a b I F) (hl : t.labels.length ≤ epsilon) (he : 1 ≤ o.engine ∧ o.engine ≤ 3) (ht : o.trace = .fixedPoint)
    (hlk : o.engine = 1 ∨ p.core.LookupOK) {fuel : Nat} {i : Instance (Trace × WithTop (WithBot Int))} {ans byPre : Bool}
    (hs : fixSearch signedVal e.order o.engine fuel t.core a b = some ((i, ans), byPre)) (hnb : AutNoBottom (if byPre then i.final else i.initial))
    (hne : (NRuns (· ∈ t.allRules) signedVal I F).Nonempty) (hun : ∀ x, ¬ IsLeast (NRuns (· ∈ t.allRules) signedVal I F) x) :
    ∃ fuel0, ∀ n, fuel0 ≤ n → Prints { e with fuel := n } w o .int
      { engine := ["post*", "pre*", "dual*"].getD (o.engine - 1) "", result := true, weight := some (.text "negative infinity"), trace := [] } := by
  obtain ⟨⟨names, p', a', b', h1, rfl, rfl, rfl⟩, hst, k, -⟩ := poses_read (k := .int) hP hl
  obtain ⟨fuel0, g⟩ := verifyFixed_unbounded (W := Int) signedVal rfl exWeight_bottomed e.order k.wf k.nodup hl k.first k.second k.blank k.blank'
    k.initial k.final o.engine he (hlk.imp id (lookup_labels hst)) (signed_belowTop _) hs hnb "negative infinity" hne hun
  refine ⟨fuel0, fun n hn => poses_prints hk hc (i := ⟨.int, names, p', a', b'⟩) ((read_fuel e w o n).trans h1) rfl ?_⟩
  unfold progVerify
  rw [ht]
  exact congrArg (fun x : WOutcome String (WithTop (WithBot Int)) => some (x.map id)) (g n hn)

/-- C85, the whole program with `uint` weights and `--trace 2`: it ends with status 0 after some number of steps. What it prints with the answer yes
is the least weight of all runs and a run, which for post* has that weight. The full claim would be that the answer is no only if there is no run,
see `c76_answer_wrong`. -/
theorem c85_priority_partial (hk : Works o) (hc : CanPrint w o) {p : NPda String String Int} {t : TPda String Int} {a b : Aut Int}
    (hP : Poses e w o .uint p t a b I F) (hl : t.labels.length < epsilon) (he : 1 ≤ o.engine ∧ o.engine ≤ 3) (ht : o.trace = .shortest)
    (hs : if o.engine = 1 then ∀ q, ¬ (I q [] ∧ F q []) else (∀ q, ¬ F q []) ∧ ∀ q ls, ¬ (I q ls ∧ F q ls))
    (hfit : ShortFits Int.toNat e.uns.worklist e.uns.queue e.order e.junk e.uns.best o.engine t.core a b) :
    (∃ n, (prog { e with fuel := n } w o).ending ≠ .running) ∧
    ∀ n, (prog { e with fuel := n } w o).ending = .running ∨ ∃ r : WReport String (WithTop Nat), Prints { e with fuel := n } w o .uint (r.map ofNatWeight) ∧
      TellsLeast (· ∈ t.allRules) Int.toNat I F (["post*", "pre*", "dual*"].getD (o.engine - 1) "") (o.engine = 1) r := by
  obtain ⟨⟨names, p', a', b', h1, rfl, rfl, rfl⟩, hst, k, hlook⟩ := poses_read (k := .uint) hP (Nat.le_of_lt hl)
  obtain ⟨⟨n, g1⟩, g2⟩ := verifyShortest_tells (W := Int) Int.toNat rfl e.uns.worklist e.uns.queue e.order e.junk e.uns.best k.wf k.nodup hl k.first
    k.second k.blank k.blank' k.initial k.final (fun st _ y _ => Nat.zero_le _) o.engine he (by
      unfold ShortOK
      split
      · rename_i h; rw [if_pos h] at hs; exact hs
      · rename_i h; rw [if_neg h] at hs; exact ⟨lookup_labels hst (hlook (by decide)), hs.1, hs.2, fun _ => Nat.zero_le _⟩) hfit
  have hv : ∀ n, progVerify { e with fuel := n } o ⟨.uint, names, p', a', b'⟩ =
      some ((verifyShortest (W := Int) (T := Nat) Int.toNat e.uns.worklist e.uns.queue e.order e.junk e.uns.best o.engine n p'.toTPda a'.toAut b'.toAut).map
        ofNatWeight) := by
    intro n
    unfold progVerify
    rw [ht]
    rfl
  have hall : ∀ n, (verifyShortest (W := Int) (T := Nat) Int.toNat e.uns.worklist e.uns.queue e.order e.junk e.uns.best o.engine n p'.toTPda a'.toAut
      b'.toAut = .running ∧ (prog { e with fuel := n } w o).ending = .running) ∨ ∃ r : WReport String (WithTop Nat),
        Prints { e with fuel := n } w o .uint (r.map ofNatWeight) ∧
        TellsLeast (· ∈ p'.toTPda.allRules) Int.toNat I F (["post*", "pre*", "dual*"].getD (o.engine - 1) "") (o.engine = 1) r := by
    intro n
    rcases g2 n with g | ⟨r, g, g'⟩
    · refine .inl ⟨g, ?_⟩
      rw [prog_ok hk hc ((read_fuel e w o n).trans h1)]
      unfold finish
      rw [(hv n).trans (congrArg (fun x : WOutcome String (WithTop Nat) => some (x.map ofNatWeight)) g)]
      rfl
    · refine .inr ⟨r, poses_prints hk hc (i := ⟨.uint, names, p', a', b'⟩) ((read_fuel e w o n).trans h1) rfl ?_, g'⟩
      exact (hv n).trans (congrArg (fun x : WOutcome String (WithTop Nat) => some (x.map ofNatWeight)) g)
  refine ⟨⟨n, ?_⟩, fun n => (hall n).imp And.right id⟩
  rcases hall n with ⟨h, -⟩ | ⟨r, h, -⟩
  · exact absurd h g1
  · rw [h.1]
    exact fun h => by cases h

/-- C85: with `int` weights, `--trace 2` and a rule of negative weight, the program ends with an exception after post* or the dual search. -/
theorem c85_negative (hk : Works o) (hc : CanPrint w o) {p : NPda String String Int} {t : TPda String Int} {a b : Aut Int}
    (hP : Poses e w o .int p t a b I F) (hl : t.labels.length ≤ epsilon) (ht : o.trace = .shortest)
    (hneg : ∃ st ∈ p.states, ∃ y ∈ st.rules, y.1.weight < (0 : Int)) (hIF : ∀ q ls, ¬ (I q ls ∧ F q ls))
    (he : o.engine = 1 ∨ o.engine = 3 ∧ ∀ q, ¬ F q []) : (prog e w o).ending = .thrown := by
  obtain ⟨⟨names, p', a', b', h1, rfl, rfl, rfl⟩, hst, k, -⟩ := poses_read (k := .int) hP hl
  have := verifyShortest_negative (W := Int) (T := Int) id rfl e.sig.worklist e.sig.queue e.order e.junk e.sig.best hl k (by rw [hst]; exact hneg) hIF
    o.engine e.fuel he
  rw [prog_ok hk hc h1]
  unfold finish
  have hv : progVerify e o ⟨.int, names, p', a', b'⟩ =
      some ((verifyShortest (W := Int) (T := Int) id e.sig.worklist e.sig.queue e.order e.junk e.sig.best o.engine e.fuel p'.toTPda a'.toAut b'.toAut).map
        ofIntWeight) := by
    unfold progVerify
    rw [ht]
    rfl
  rw [hv.trans (congrArg (fun x : WOutcome String (WithTop Int) => some (x.map ofIntWeight)) this)]
  rfl

/-- C85: without weights, the trace types that need them end with an exception, if there is an engine. -/
theorem c85_unweighted (hk : Works o) (hc : CanPrint w o) {p : NPda String String Unit} {t : TPda String Unit} {a b : Aut Unit}
    (hP : Poses e w o .none p t a b I F) (hl : t.labels.length ≤ epsilon) (ht : o.trace = .shortest ∨ o.trace = .longest ∨ o.trace = .fixedPoint)
    (he : o.engine ≠ 0) : (prog e w o).ending = .thrown := by
  obtain ⟨⟨names, p', a', b', h1, -⟩, -⟩ := poses_read (k := .none) hP hl
  rw [prog_ok hk hc h1]
  unfold finish
  have hv : progVerify e o ⟨.none, names, p', a', b'⟩ = some .error := by
    have hu : ∀ {U : Type}, verifyUnweighted (L := String) (U := U) o.engine = .error := fun {U} => if_neg he
    unfold progVerify
    rcases ht with ht | ht | ht <;> rw [ht]
    · exact congrArg (fun x : WOutcome String (WithTop Int) => some (x.map ofIntWeight)) hu
    · exact congrArg some hu
    · exact congrArg (fun x : WOutcome String (WithTop (WithBot Int)) => some (x.map id)) hu
  rw [hv]

end

/-! ## Cases -/

/-- A library that reads `P` as the PDA, and nothing else. -/
def oneEnv (doc : List JEv) : ProgEnv := { sumEnv 0 with read := fun _ s => if s = ['P'] then some (pdaDoc doc) else none }

def oneWorld (i f : List Char) : World where
  files := fun x => if x = "p" then some ['P'] else if x = "i" then some i else if x = "f" then some f else none
  stdin := []
  writable := fun _ => false

/-- `--pda p --initial i --final f --weight ..` -/
def oneOpts (weight : List Char) (engine : Nat) (t : TraceOpt) : ProgOpts :=
  { pda := "p", initial := "i", final := "f", weight := weight, engine := engine, trace := t }

theorem one_holds (doc : List JEv) (i f weight : List Char) (engine : Nat) (t : TraceOpt) :
    Holds (oneEnv doc) (oneWorld i f) (oneOpts weight engine t) (pdaDoc doc) (.text i f) where
  sep := ⟨rfl, (by decide : "p" ≠ ""), (by decide : "i" ≠ ""), (by decide : "f" ≠ "")⟩
  pda := ⟨['P'], (if_neg (by decide : "p" ≠ "-")).trans rfl, by unfold oneEnv; simp only [if_true]⟩
  automata := ⟨rfl, rfl, rfl⟩

theorem one_print (i f weight : List Char) (engine : Nat) (t : TraceOpt) : CanPrint (oneWorld i f) (oneOpts weight engine t) :=
  ⟨fun h => absurd rfl h, fun h => absurd rfl h⟩

theorem sum_poses (engine : Nat) (t : TraceOpt) : Poses (oneEnv sumDoc) (oneWorld "<0,[a]>".toList "<1,[a]>".toList) (oneOpts "uint".toList engine t) .uint
    sumFilePda sumFilePda.toTPda sumFileA sumFileB (DescribedBy (findState false sumFilePda) ["a", "b"] fileIni)
    (DescribedBy (findState false sumFilePda) ["a", "b", "a"] fileFin) :=
  .text (k := .uint) (p := sumFilePda) exprAddr_inj (one_holds _ _ _ _ _ _) sum_format rfl (object_in sumDoc_object "pda") sumDoc_read fileIni_text fileFin_text
    (by decide) sumFile_parse

theorem sum_poses_int (engine : Nat) (t : TraceOpt) : Poses (oneEnv sumDoc) (oneWorld "<0,[a]>".toList "<1,[a]>".toList) (oneOpts "int".toList engine t) .int
    sumFilePda sumFilePda.toTPda sumFileA sumFileB (DescribedBy (findState false sumFilePda) ["a", "b"] fileIni)
    (DescribedBy (findState false sumFilePda) ["a", "b", "a"] fileFin) :=
  .text (k := .int) (p := sumFilePda) exprAddr_inj (one_holds _ _ _ _ _ _) sum_format rfl (object_in sumDoc_object "pda") sumDoc_read_int fileIni_text fileFin_text
    (by decide) sumFile_parse

theorem neg_poses (engine : Nat) (t : TraceOpt) : Poses (oneEnv negDoc) (oneWorld "<0,[a]>".toList "<1,[a]>".toList) (oneOpts "int".toList engine t) .int
    negFilePda negFilePda.toTPda sumFileA sumFileB (DescribedBy (findState false negFilePda) ["a", "b"] fileIni)
    (DescribedBy (findState false negFilePda) ["a", "b", "a"] fileFin) :=
  .text (k := .int) (p := negFilePda) exprAddr_inj (one_holds _ _ _ _ _ _) sum_format rfl (object_in negDoc_object "pda") negDoc_read fileIni_text fileFin_text
    (by decide) negFile_parse

/-- On texts: the program prints a weight of at most 5. -/
example (engine : Nat) (he : 1 ≤ engine ∧ engine ≤ 3) : ∃ (fuel0 : Nat) (r : WReport String (WithTop ℕ)), (∀ n, fuel0 ≤ n →
    Prints { oneEnv sumDoc with fuel := n } (oneWorld "<0,[a]>".toList "<1,[a]>".toList) (oneOpts "uint".toList engine .fixedPoint) .uint (r.map ofNatWeight)) ∧
    ∃ x : WithTop ℕ, x ≤ 5 ∧ r.weight = some (.value x) := by
  obtain ⟨fuel0, r, h1, -, h3, h4, -⟩ := c85_least_partial ⟨rfl, rfl⟩ (one_print _ _ _ _ _) (sum_poses engine .fixedPoint) (by decide) he rfl
    (sumFile_fixFits engine he)
  obtain ⟨x, k1, k2, _⟩ := h4 (h3.2 ⟨_, sumFile_mem_fixed⟩)
  exact ⟨fuel0, r, h1, x, k1.2 sumFile_mem_fixed, k2⟩

theorem json_fixFits (engine : Nat) (he : 1 ≤ engine ∧ engine ≤ 3) :
    FixFits unsignedVal HashOrder.id engine docSumPda.core docSumA.toAut docSumB.toAut := by
  have key : ∀ e, e = 1 ∨ e = 2 ∨ e = 3 →
      (fixSearch unsignedVal HashOrder.id e 100 docSumPda.core docSumA.toAut docSumB.toAut).any (fun r => decide (r.1.1.initial.n ≤ 100)) = true := by
    rintro e (rfl | rfl | rfl) <;> decide +kernel
  have := key engine (by omega)
  rcases hs : fixSearch unsignedVal HashOrder.id engine 100 docSumPda.core docSumA.toAut docSumB.toAut with _ | ⟨⟨i, ans⟩, byPre⟩
  · rw [hs] at this; cases this
  · rw [hs] at this
    have h2 : i.initial.n ≤ 100 := of_decide_eq_true this
    exact fixFits_of (by decide +kernel) hs (Nat.le_trans h2 (by decide))

/-- On P-automata in JSON: the program ends. -/
example (engine : Nat) (he : 1 ≤ engine ∧ engine ≤ 3) :
    ∃ fuel0, ∀ n, fuel0 ≤ n → (prog { jsonEnv with fuel := n } (jsonWorld 'J') (jsonOpts engine .fixedPoint)).ending = .code 0 := by
  obtain ⟨fuel0, r, h1, -⟩ := c85_least_partial (e := jsonEnv) (w := jsonWorld 'J') (o := jsonOpts engine .fixedPoint) ⟨rfl, rfl⟩
    ⟨fun h => absurd rfl h, fun h => absurd rfl h⟩
    (.json (k := .uint) (p := sumFilePda) (p' := docSumPda) (a := docSumA) (b := docSumB) (json_holds engine .fixedPoint rfl) sum_format rfl
      (object_in sumDoc_object "pda") sumDoc_read (fun h => by cases h) (by unfold Doc.Small; decide +kernel) (fun h => by cases h)
      (by unfold Doc.Small; decide +kernel) (sum_legal (es := [(.num 0, "a", .num 9)]) rfl (by simp))
      (sum_legal (es := [(.num 1, "a", .num 5), (.num 1, "c", .num 5)]) rfl (by simp)) sum_json)
    (by decide) he rfl (json_fixFits engine he)
  exact ⟨fuel0, fun n hn => (h1 n hn).1⟩

/-- Signed weights. -/
example (engine : Nat) (he : 1 ≤ engine ∧ engine ≤ 3) : ∃ fuel0, ∀ n, fuel0 ≤ n →
    (prog { oneEnv sumDoc with fuel := n } (oneWorld "<0,[a]>".toList "<1,[a]>".toList) (oneOpts "int".toList engine .fixedPoint)).ending = .code 0 := by
  obtain ⟨fuel0, r, h1, -⟩ := c85_signed_partial ⟨rfl, rfl⟩ (one_print _ _ _ _ _) (sum_poses_int engine .fixedPoint) (by decide) he rfl
    (fixOK_nonneg (by decide +kernel) _ _ _ _ engine (.inr (lookup_read (k := .uint) sumDoc_read (by decide)))) (sumFile_sigFits engine he)
  exact ⟨fuel0, fun n hn => (h1 n hn).1⟩

/-- Longest runs, with negative weights. -/
example (engine : Nat) (he : 1 ≤ engine ∧ engine ≤ 3) : ∃ fuel0, ∀ n, fuel0 ≤ n →
    (prog { oneEnv negDoc with fuel := n } (oneWorld "<0,[a]>".toList "<1,[a]>".toList) (oneOpts "int".toList engine .longest)).ending = .code 0 := by
  have hOK : ∀ c ∈ [PdaCall.rule 0 { «to» := 0, op := .push, opLabel := 1, weight := (-3 : ℤ) } false [0],
      .rule 0 { «to» := 1, op := .pop, opLabel := epsilon, weight := -2 } false [1],
      .rule 0 { «to» := 0, op := .pop, opLabel := epsilon, weight := 0 } false [1]], c.OK 2 := by simp [PdaCall.OK, WSorted]
  have hlook : negFilePda.core.LookupOK := lookupOK_build 2 _ hOK (by simp; grind)
  obtain ⟨fuel0, r, h1, -⟩ := c85_greatest_partial ⟨rfl, rfl⟩ (one_print _ _ _ _ _) (signed := true) (neg_poses engine .longest) (by decide) he rfl
    (fixOK_nonpos (by decide +kernel) _ _ _ _ engine (.inr hlook)) (negFile_fits engine he)
  exact ⟨fuel0, fun n hn => (h1 n hn).1⟩

/-- Runs without a least weight, with pre*. -/
example : ∃ fuel0, ∀ n, fuel0 ≤ n →
    Prints { oneEnv (eatFile (-1)) with fuel := n } (oneWorld "<0,[a]+[b]>".toList "<0,[b]>".toList) (oneOpts "int".toList 2 .fixedPoint) .int
      { engine := "pre*", result := true, weight := some (.text "negative infinity"), trace := [] } := by
  have hOK : ∀ c ∈ eatFileCalls (-1), c.OK 2 := by simp [eatFileCalls, PdaCall.OK, WSorted]
  have key : (fixSearch signedVal HashOrder.id 2 100 (eatFilePda (-1)).core (Aut.ofNfa 2 2 eatNfa [0]) (Aut.ofNfa 2 2 (reportNfa false 1) [0])).any
      (fun r => r.2 && r.1.1.final.edges.all (fun e => decide (e.2.2.2 ≠ ⊥))) = true := by decide +kernel
  rcases hs : fixSearch signedVal HashOrder.id 2 100 (eatFilePda (-1)).core (Aut.ofNfa 2 2 eatNfa [0]) (Aut.ofNfa 2 2 (reportNfa false 1) [0]) with
    _ | ⟨⟨i, ans⟩, byPre⟩
  · rw [hs] at key; cases key
  · rw [hs, Option.any_some, Bool.and_eq_true] at key
    obtain ⟨k1, k2⟩ := key
    cases byPre with
    | false => cases k1
    | true =>
      refine c85_unbounded_partial (o := oneOpts "int".toList 2 .fixedPoint) ⟨rfl, rfl⟩ (one_print _ _ _ _ _)
        (.text (k := .int) (p := eatFilePda (-1)) exprAddr_inj (one_holds _ _ _ _ _ _) sum_format rfl (object_in (eatFile_object _) "pda")
          (eatFile_read _ (.inl rfl)) eatStart_text eatStop_text (by decide) (eatFile_parse _ (.inl rfl))) (by decide) (by decide) rfl
        (.inr (lookupOK_build 2 _ hOK (by simp [eatFileCalls]; grind))) hs (autNoBottom_of_all _ k2) ⟨_, eatFile_runs _ (.inl rfl) 0⟩ ?_
      rintro x ⟨⟨cs, h1, _⟩, h2⟩
      obtain ⟨z, rfl⟩ := ncost_int h1
      have := h2 (eatFile_runs (-1) (.inl rfl) z.natAbs)
      unfold exVal signedVal at this
      rw [WithTop.coe_le_coe, WithBot.coe_le_coe] at this
      omega

/-- Priority queues. -/
example (engine : Nat) (he : 1 ≤ engine ∧ engine ≤ 3) : ∃ n,
    (prog { oneEnv sumDoc with fuel := n } (oneWorld "<0,[a]>".toList "<1,[a]>".toList) (oneOpts "uint".toList engine .shortest)).ending ≠ .running :=
  (c85_priority_partial ⟨rfl, rfl⟩ (one_print _ _ _ _ _) (sum_poses engine .shortest) (by decide) he rfl (by
      split
      · rintro q ⟨h1, _⟩
        exact (sumFile_ini_state h1).2 rfl
      · refine ⟨fun q h => (sumFile_fin_state h).2 rfl, fun q ls h => ?_⟩
        have h1 := (sumFile_ini_state h.1).1
        have h2 := (sumFile_fin_state h.2).1
        omega) (sumFile_fits engine he)).1

theorem negFile_state {ls : List String} {q : Nat} :
    (DescribedBy (findState false negFilePda) ["a", "b"] fileIni q ls → q = 0) ∧
    (DescribedBy (findState false negFilePda) ["a", "b", "a"] fileFin q ls → q = 1) := by
  constructor
  · rintro (⟨⟨⟨s, h1, h2⟩, -⟩, -⟩ | h)
    · rw [List.mem_singleton.1 h1] at h2
      replace h2 : findState false negFilePda "0" = some (some q) := h2
      rw [negFile_find.1] at h2
      cases h2
      rfl
    · exact h.elim
  · rintro (⟨⟨⟨s, h1, h2⟩, -⟩, -⟩ | h)
    · rw [List.mem_singleton.1 h1] at h2
      replace h2 : findState false negFilePda "1" = some (some q) := h2
      rw [negFile_find.2] at h2
      cases h2
      rfl
    · exact h.elim

/-- Priority queues and a negative weight. -/
example : (prog (oneEnv negDoc) (oneWorld "<0,[a]>".toList "<1,[a]>".toList) (oneOpts "int".toList 1 .shortest)).ending = .thrown :=
  c85_negative ⟨rfl, rfl⟩ (one_print _ _ _ _ _) (neg_poses 1 .shortest) (by decide) rfl (by decide +kernel)
    (fun q ls h => by
      have h1 := negFile_state.1 h.1
      have h2 := negFile_state.2 h.2
      omega) (.inl rfl)

/-- The instance without weights on standard input. -/
example (t : TraceOpt) (ht : t = .shortest ∨ t = .longest ∨ t = .fixedPoint) : (prog docEnv (docWorld 'D') { engine := 2, trace := t }).ending = .thrown :=
  c85_unweighted (o := { engine := 2, trace := t }) ⟨rfl, rfl⟩ ⟨fun h => absurd rfl h, fun h => absurd rfl h⟩
    (.document (ts := instType) (k := .none) ⟨['D'], rfl, .inr ⟨.inr ⟨rfl, rfl, rfl, rfl⟩, rfl⟩⟩ instText_object rfl inst_pdaRead
      (fun h => by cases h) (by unfold Doc.Small; decide) (fun h => by cases h) (by unfold Doc.Small; decide) instIni_legal instFin_legal inst_read)
    (by decide) ht (by decide : (2 : Nat) ≠ 0)

end Verif.Props
