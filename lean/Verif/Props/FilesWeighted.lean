import Verif.Model.FilesWeighted
import Verif.Props.Files
import Verif.Props.WeightedCases

/-! # C83: the program on separate files with weights -/

namespace Verif.Props

open Verif RegexText

/-! ## Options -/

/-- C83, options: `--trace` takes the digits from 0 to 4. -/
theorem c83_option (s : List Char) :
    (getTraceOpt s = some .none ↔ s = ['0']) ∧ (getTraceOpt s = some .any ↔ s = ['1']) ∧ (getTraceOpt s = some .shortest ↔ s = ['2']) ∧
    (getTraceOpt s = some .longest ↔ s = ['3']) ∧ (getTraceOpt s = some .fixedPoint ↔ s = ['4']) := by
  unfold getTraceOpt
  by_cases h0 : s = ['0']
  · subst h0; decide
  by_cases h1 : s = ['1']
  · subst h1; decide
  by_cases h2 : s = ['2']
  · subst h2; decide
  by_cases h3 : s = ['3']
  · subst h3; decide
  by_cases h4 : s = ['4']
  · subst h4; decide
  simp [h0, h1, h2, h3, h4]

/-- Integers with both infinities are as the fixed-point algorithms that maximise require. -/
theorem longest_bottomed : Bottomed (WithTop (WithBot Int))ᵒᵈ := by
  refine ⟨?_, ?_⟩
  · intro z _
    exact WithTop.top_add (show WithTop (WithBot Int) from z)
  · intro a x h1 h2 hx
    change WithTop (WithBot Int) at a x
    have h1 : a ≠ ⊤ := h1
    have h2 : a ≠ ⊥ := h2
    have hx : (0 : WithTop (WithBot Int)) < x := hx
    show a < a + x
    induction a using WithTop.recTopCoe with
    | top => exact absurd rfl h1
    | coe a =>
      induction a using WithBot.recBotCoe with
      | bot => exact absurd rfl h2
      | coe a =>
        induction x using WithTop.recTopCoe with
        | top => exact WithTop.coe_lt_top _
        | coe x =>
          induction x using WithBot.recBotCoe with
          | bot => exact absurd (WithTop.coe_lt_coe.1 hx) not_lt_bot
          | coe x =>
            have hx' : 0 < x := WithBot.coe_lt_coe.1 (WithTop.coe_lt_coe.1 hx)
            exact WithTop.coe_lt_coe.2 (WithBot.coe_lt_coe.2 (show a < a + x by omega))

theorem signed_belowTop (p : Pda Int) : BelowTop (T := WithTop (WithBot Int)) p signedVal := by
  refine ⟨fun r _ => WithTop.coe_ne_top, WithTop.coe_ne_top, fun x y hx hy => ?_⟩
  exact WithTop.add_ne_top.2 ⟨hx, hy⟩

theorem longest_belowTop (p : Pda Int) : BelowTop (T := (WithTop (WithBot Int))ᵒᵈ) p signedVal := by
  have hb : ∀ z : Int, signedVal z ≠ ⊥ := fun z h => WithBot.coe_ne_bot (WithTop.coe_injective h)
  refine ⟨fun r _ => hb _, hb 0, fun x y hx hy => ?_⟩
  change WithTop (WithBot Int) at x y
  have hx : x ≠ ⊥ := hx
  have hy : y ≠ ⊥ := hy
  show x + y ≠ (⊥ : WithTop (WithBot Int))
  induction x using WithTop.recTopCoe with
  | top => rw [WithTop.top_add]; exact top_ne_bot
  | coe x =>
    induction y using WithTop.recTopCoe with
    | top => rw [WithTop.add_top]; exact top_ne_bot
    | coe y =>
      induction x using WithBot.recBotCoe with
      | bot => exact absurd rfl hx
      | coe x =>
        induction y using WithBot.recBotCoe with
        | bot => exact absurd rfl hy
        | coe y => exact hb (x + y)

section Run
variable {addr : Nat → Nat → Nat} {U : WKind → Type}

/-- C83, errors: unknown formats and types of weights, the format `moped`, and PDAs that cannot be read are errors. -/
theorem c83_refused (h : HashOrder) (format weight : List Char) (names : Bool) (pda : List JEv) (fs : AutFiles)
    (verify : (k : WKind) → TPda String k.Carrier → Aut k.Carrier → Aut k.Carrier → WOutcome String (U k)) :
    runFilesBy h addr format weight names pda fs verify = none ↔
      (¬ SameWord format "pdaaal" ∨ (¬ SameWord weight "none" ∧ ¬ SameWord weight "uint" ∧ ¬ SameWord weight "int") ∨
        ∀ k, getWeightType weight = some k → parsePda k.io names pda = none) := by
  obtain ⟨o1, o2, -⟩ := c81_options format
  obtain ⟨-, -, o3, o4, o5, o6⟩ := c81_options weight
  unfold runFilesBy
  cases hf : getFormat format with
  | none => exact ⟨fun _ => .inl fun hs => (by rw [o1.2 hs] at hf; cases hf), fun _ => rfl⟩
  | some f =>
    cases f with
    | moped => exact ⟨fun _ => .inl fun hs => (by rw [o1.2 hs] at hf; cases hf), fun _ => rfl⟩
    | pdaaal =>
      have hs := o1.1 hf
      cases hw : getWeightType weight with
      | none =>
        refine ⟨fun _ => .inr (.inl ⟨fun hs => ?_, fun hs => ?_, fun hs => ?_⟩), fun _ => rfl⟩
        · rw [o3.2 hs] at hw; cases hw
        · rw [o4.2 hs] at hw; cases hw
        · rw [o5.2 hs] at hw; cases hw
      | some k =>
        simp only [Option.map_eq_none_iff]
        constructor
        · intro hp
          refine .inr (.inr fun k' hk' => ?_)
          cases hk'
          exact hp
        · rintro (h1 | ⟨h1, h2, h3⟩ | h1)
          · exact absurd hs h1
          · rcases o6 k hw with rfl | rfl | rfl
            · exact absurd (o3.1 hw) h1
            · exact absurd (o4.1 hw) h2
            · exact absurd (o5.1 hw) h3
          · exact h1 k rfl

/-- C83: the program reads the PDA with the type of weights from the options, then the automata; on texts it does what it does on their syntax
trees. -/
theorem c83_run (h : HashOrder) (ha : ∀ k, Function.Injective (addr k)) {format weight : List Char} (hf : SameWord format "pdaaal") {k : WKind}
    (hw : getWeightType weight = some k) {names : Bool} {pda : List JEv} {p : NPda String String k.Carrier} (hp : parsePda k.io names pda = some p)
    {ini fin : List (PAtom String String)} {si sf : List Char} (hsi : AtomsText ini si) (hsf : AtomsText fin sf)
    (verify : (k : WKind) → TPda String k.Carrier → Aut k.Carrier → Aut k.Carrier → WOutcome String (U k)) :
    runFilesBy h addr format weight names pda (.text si sf) verify =
      some ⟨k, runExpr h addr (findState names p) p.toTPda ini fin (verify k)⟩ := by
  unfold runFilesBy
  rw [(c81_options format).1.2 hf, hw]
  simp only [hp, Option.map_some]
  congr 2
  unfold withAutomata runExpr parseInstance
  simp only []
  rw [c80_text h ha p.toTPda hsi]
  cases h1 : parsePAut h addr (findState names p) p.toTPda ini with
  | none => rfl
  | some x =>
    simp only [treesOutcome, Option.bind_some]
    rw [c80_text h ha x.1 hsf]
    cases h2 : parsePAut h addr (findState names p) x.1 fin with
    | none => rfl
    | some y => rfl

/-- C83, with `--json-automata`: the same on documents. -/
theorem c83_run_docs (h : HashOrder) {format weight : List Char} (hf : SameWord format "pdaaal") {k : WKind}
    (hw : getWeightType weight = some k) {names : Bool} {pda : List JEv} {p : NPda String String k.Carrier} (hp : parsePda k.io names pda = some p)
    (ini fin : List JEv) (verify : (k : WKind) → TPda String k.Carrier → Aut k.Carrier → Aut k.Carrier → WOutcome String (U k)) :
    runFilesBy h addr format weight names pda (.json ini fin) verify = some ⟨k, runDocs names p ini fin (verify k)⟩ := by
  unfold runFilesBy
  rw [(c81_options format).1.2 hf, hw]
  simp only [hp, Option.map_some]
  rfl

/-- C83, errors: texts that are not P-automata, unless a `|` dangles in one of them (C79). -/
theorem c83_syntax_partial (h : HashOrder) (ha : ∀ k, Function.Injective (addr k)) {format weight : List Char} {names : Bool} {pda : List JEv}
    {si sf : List Char} (hb : (∀ as, ¬ AtomsText as si) ∨ ∀ as, ¬ AtomsText as sf) (hi : ¬ DanglingBar si) (hf : ¬ DanglingBar sf)
    (verify : (k : WKind) → TPda String k.Carrier → Aut k.Carrier → Aut k.Carrier → WOutcome String (U k)) :
    runFilesBy h addr format weight names pda (.text si sf) verify = none ∨
      ∃ k, runFilesBy h addr format weight names pda (.text si sf) verify = some ⟨k, .error⟩ := by
  unfold runFilesBy
  split
  · split
    · rename_i k _
      cases parsePda k.io names pda with
      | none => exact .inl rfl
      | some p =>
        refine .inr ⟨k, ?_⟩
        rw [Option.map_some]
        congr 2
        unfold withAutomata
        simp only []
        cases h1 : parsePAutText h addr (findState names p) p.toTPda si with
        | error => rfl
        | undefined => exact absurd (c80_undefined h ha h1).1 hi
        | ok x =>
          rcases hb with hb | hb
          · obtain ⟨as, h2, -⟩ := c80_only h ha h1
            exact absurd h2 (hb as)
          · simp only []
            rw [c80_error_partial h ha x.1 hb hf]
    · exact .inl rfl
  · exact .inl rfl

/-- C83, errors: states that do not exist, for all trace types. -/
theorem c83_states (h : HashOrder) (ha : ∀ k, Function.Injective (addr k)) {format weight : List Char} (hf : SameWord format "pdaaal") {k : WKind}
    (hw : getWeightType weight = some k) {names : Bool} {pda : List JEv} (ho : IsObject pda) {p : NPda String String k.Carrier}
    (hp : parsePda k.io names pda = some p) {ini fin : List (PAtom String String)} {si sf : List Char} (hsi : AtomsText ini si) (hsf : AtomsText fin sf)
    (verify : (k : WKind) → TPda String k.Carrier → Aut k.Carrier → Aut k.Carrier → WOutcome String (U k))
    (hb : BadState names p ini ∨ BadState names p fin) :
    runFilesBy h addr format weight names pda (.text si sf) verify = some ⟨k, .error⟩ := by
  obtain ⟨h1, h2, h3⟩ := c77_wellformed k.io ho hp
  rw [c83_run h ha hf hw hp hsi hsf, c76_errors h ha p.toTPda (findState_lt h3) h1 ini fin (atoms_ne hsi) (atoms_ne hsf) (verify k) hb]

/-- C83, errors: the trace types that need weights with `--weight none`. Without an engine nothing is done, as always. -/
theorem c83_unweighted (h h' : HashOrder) (ha : ∀ k, Function.Injective (addr k)) {format weight : List Char} (hf : SameWord format "pdaaal")
    (hw : SameWord weight "none") {names : Bool} {pda : List JEv} (ho : IsObject pda) {p : NPda String String WKind.none.Carrier}
    (hp : parsePda WKind.none.io names pda = some p) {ini fin : List (PAtom String String)} {si sf : List Char} (hsi : AtomsText ini si)
    (hsf : AtomsText fin sf) (hgi : ¬ BadState names p ini) (hgf : ¬ BadState names p fin) (u : ShortEnv Nat) (s : ShortEnv Int) (junk : Nat → Bool)
    (engine fuel : Nat) :
    runFilesBy h addr format weight names pda (.text si sf) (verifyShortestFor u s h' junk engine fuel) =
        some ⟨.none, if engine = 0 then .nothing else .error⟩ ∧
    runFilesBy h addr format weight names pda (.text si sf) (verifyLongestFor h' engine fuel) =
        some ⟨.none, if engine = 0 then .nothing else .error⟩ ∧
    runFilesBy h addr format weight names pda (.text si sf) (verifyFixedFor h' engine fuel) =
        some ⟨.none, if engine = 0 then .nothing else .error⟩ := by
  have hk := (c81_options weight).2.2.1.2 hw
  obtain ⟨h1, h2, h3⟩ := c77_wellformed WKind.none.io ho hp
  have hne := (parseInstance_none h ha p.toTPda (findState_lt h3) h1 ini fin (atoms_ne hsi) (atoms_ne hsf)).not.2 (fun h => h.elim hgi hgf)
  obtain ⟨x, hi⟩ := Option.ne_none_iff_exists'.1 hne
  refine ⟨?_, ?_, ?_⟩
  all_goals
    rw [c83_run h ha hf hk hp hsi hsf]
    unfold runExpr
    simp only [hi]
    rfl

/-! ## Trace type shortest -/

/-- C83, `--weight uint --trace 2`: the program ends with a report; the answer yes comes with the least weight of all runs and a run, which
for post* has that weight. Nothing is required of the weights. The full claim would be that the answer is no only if there is no run, see
`c76_answer_wrong`. -/
theorem c83_shortest_partial (h h' : HashOrder) (ha : ∀ k, Function.Injective (addr k)) {format weight : List Char} (hf : SameWord format "pdaaal")
    (hw : SameWord weight "uint") {names : Bool} {pda : List JEv} (ho : IsObject pda) {p : NPda String String Int}
    (hp : parsePda WKind.uint.io names pda = some p) {ini fin : List (PAtom String String)} {si sf : List Char} (hsi : AtomsText ini si)
    (hsf : AtomsText fin sf) (hok : ∀ x ∈ ini ++ fin, x.ok = true) {t' : TPda String Int} {a b : Aut Int}
    (hi : parseInstance h addr (findState names p) p.toTPda ini fin = some (t', a, b)) (hl : t'.labels.length < epsilon)
    (u : ShortEnv Nat) (s : ShortEnv Int) (junk : Nat → Bool) (engine : Nat) (he : 1 ≤ engine ∧ engine ≤ 3)
    (hs : if engine = 1 then
        ∀ q, ¬ (DescribedBy (findState names p) p.labels ini q [] ∧ DescribedBy (findState names p) (p.labels ++ ini.flatMap PAtom.labels) fin q [])
      else (∀ q, ¬ DescribedBy (findState names p) (p.labels ++ ini.flatMap PAtom.labels) fin q []) ∧
        ∀ q ls, ¬ (DescribedBy (findState names p) p.labels ini q ls ∧ DescribedBy (findState names p) (p.labels ++ ini.flatMap PAtom.labels) fin q ls))
    (hfit : ShortFits Int.toNat u.worklist u.queue h' junk u.best engine t'.core a b) :
    (∃ fuel o, runFilesBy h addr format weight names pda (.text si sf) (verifyShortestFor u s h' junk engine fuel) = some ⟨.uint, o⟩ ∧
      o ≠ .running) ∧
    ∀ fuel, runFilesBy h addr format weight names pda (.text si sf) (verifyShortestFor u s h' junk engine fuel) = some ⟨.uint, .running⟩ ∨
      ∃ r : WReport String (WithTop Nat),
        runFilesBy h addr format weight names pda (.text si sf) (verifyShortestFor u s h' junk engine fuel) = some ⟨.uint, .report r⟩ ∧
        TellsLeast (· ∈ t'.allRules) Int.toNat (DescribedBy (findState names p) p.labels ini)
          (DescribedBy (findState names p) (p.labels ++ ini.flatMap PAtom.labels) fin) (["post*", "pre*", "dual*"].getD (engine - 1) "") (engine = 1) r := by
  have hk := (c81_options weight).2.2.2.1.2 hw
  obtain ⟨h1, h2, h3⟩ := c77_wellformed WKind.uint.io ho hp
  have hlook : p.core.LookupOK := lookup_read (k := .uint) hp (by decide)
  obtain ⟨g1, g2⟩ := c76_shortest_partial Int.toNat rfl u.worklist u.queue h h' junk u.best ha p.toTPda (findState_lt h3) h1 h2 ini fin hok hi hl
    (fun st _ y _ => Nat.zero_le _) engine he (by
      unfold ShortOK
      split
      · rename_i h; rw [if_pos h] at hs; exact hs
      · rename_i h; rw [if_neg h] at hs; exact ⟨hlook, hs.1, hs.2, fun _ => Nat.zero_le _⟩) hfit
  have hrun : ∀ fuel, runFilesBy h addr format weight names pda (.text si sf) (verifyShortestFor u s h' junk engine fuel) =
      some ⟨.uint, runExpr h addr (findState names p) p.toTPda ini fin
        (verifyShortest (W := Int) (T := Nat) Int.toNat u.worklist u.queue h' junk u.best engine fuel)⟩ := fun fuel =>
    c83_run (k := .uint) h ha hf hk hp hsi hsf _
  constructor
  · obtain ⟨fuel, g1⟩ := g1
    exact ⟨fuel, _, hrun fuel, g1⟩
  · intro fuel
    rw [hrun fuel]
    rcases g2 fuel with g | ⟨r, g, g'⟩
    · exact .inl (congrArg (fun o : WOutcome String (ShortWeight .uint) => some (⟨.uint, o⟩ : (k : WKind) × WOutcome String (ShortWeight k))) g)
    · exact .inr ⟨r, congrArg (fun o : WOutcome String (ShortWeight .uint) => some (⟨.uint, o⟩ : (k : WKind) × WOutcome String (ShortWeight k))) g, g'⟩

/-! ## Shortest by fixed point -/

theorem unsignedVal_belowTop (p : Pda Int) : BelowTop p unsignedVal :=
  ⟨fun _ _ => WithTop.coe_ne_top, WithTop.coe_ne_top, fun _ _ hx hy => WithTop.add_ne_top.2 ⟨hx, hy⟩⟩

/-- Unsigned weights meet the conditions of the fixed-point engines. -/
theorem fixOK_unsigned {L : Type} [Inhabited L] {t : TPda L Int} (a b : Aut Int) (R : Set (WithTop Nat)) (engine : Nat)
    (hk : engine = 1 ∨ t.core.LookupOK) : FixOK t.core unsignedVal engine a b R := by
  have unp : ∀ R : Set (WithTop Nat), Unpumped R := fun R _ y _ => bot_le
  exact ⟨unsignedVal_belowTop _, ⟨⊥, fun _ _ => bot_le, fun _ _ _ _ _ _ => bot_le⟩, .inr fun _ _ _ _ => unp _,
    hk.imp id fun hk => ⟨fun _ _ _ _ => unp _, hk⟩⟩

/-- C83, `--weight uint --trace 4`: the program gives the same report whenever it is given enough steps; the report says whether there is a run,
and if so gives the least weight of all runs and a run of that weight. Nothing is required of the weights. Missing: expressions that are not
`ok` (C36), and numbers of labels and states that do not fit. -/
theorem c83_fixed_partial (h h' : HashOrder) (ha : ∀ k, Function.Injective (addr k)) {format weight : List Char} (hf : SameWord format "pdaaal")
    (hw : SameWord weight "uint") {names : Bool} {pda : List JEv} (ho : IsObject pda) {p : NPda String String Int}
    (hp : parsePda WKind.uint.io names pda = some p) {ini fin : List (PAtom String String)} {si sf : List Char} (hsi : AtomsText ini si)
    (hsf : AtomsText fin sf) (hok : ∀ x ∈ ini ++ fin, x.ok = true) {t' : TPda String Int} {a b : Aut Int}
    (hi : parseInstance h addr (findState names p) p.toTPda ini fin = some (t', a, b)) (hl : t'.labels.length < epsilon)
    (engine : Nat) (he : 1 ≤ engine ∧ engine ≤ 3) (hfit : FixFits unsignedVal h' engine t'.core a b) :
    ∃ (fuel0 : Nat) (r : WReport String (WithTop Nat)), (∀ fuel, fuel0 ≤ fuel →
        runFilesBy h addr format weight names pda (.text si sf) (verifyFixedFor h' engine fuel) = some ⟨.uint, .report r⟩) ∧
      r.engine = ["post*", "pre*", "dual*"].getD (engine - 1) "" ∧
      (r.result = true ↔ (NRuns (· ∈ t'.allRules) unsignedVal (DescribedBy (findState names p) p.labels ini)
          (DescribedBy (findState names p) (p.labels ++ ini.flatMap PAtom.labels) fin)).Nonempty) ∧
      (r.result = true → ∃ x : WithTop Nat, IsLeast (NRuns (· ∈ t'.allRules) unsignedVal (DescribedBy (findState names p) p.labels ini)
          (DescribedBy (findState names p) (p.labels ++ ini.flatMap PAtom.labels) fin)) x ∧ r.weight = some (.value x) ∧
        NRunOf (· ∈ t'.allRules) unsignedVal (DescribedBy (findState names p) p.labels ini)
          (DescribedBy (findState names p) (p.labels ++ ini.flatMap PAtom.labels) fin) r.trace x) ∧
      (r.result = false → r.weight = none ∧ r.trace = []) := by
  have hk := (c81_options weight).2.2.2.1.2 hw
  obtain ⟨h1, h2, h3⟩ := c77_wellformed WKind.uint.io ho hp
  have hlook : p.core.LookupOK := lookup_read (k := .uint) hp (by decide)
  have hst : t'.states = p.states := (c73_labels h ha p.toTPda (findState_lt h3) h1 ini fin hi).1
  obtain ⟨fuel0, r, g1, g2⟩ := c76_fixed_partial unsignedVal rfl h h' ha p.toTPda (findState_lt h3) h1 h2 ini fin hok hi hl engine he
    (fixOK_unsigned a b _ engine (.inr (lookup_labels hst hlook))) hfit true "negative infinity"
  refine ⟨fuel0, r, fun fuel hf' => ?_, g2.engine, g2.result, fun hr => ?_, g2.no⟩
  · rw [c83_run (k := .uint) h ha hf hk hp hsi hsf]
    congr 2
    exact g1 fuel hf'
  · obtain ⟨x, k1, k2, k3⟩ := g2.yes hr
    refine ⟨x, k1, ?_, ?_⟩
    · rw [k2]; simp
    · rcases k3 with ⟨k, -⟩ | k
      · cases k
      · exact k

/-- C83, `--weight int --trace 4`, if no run can be improved again and again. -/
theorem c83_fixed_signed_partial (h h' : HashOrder) (ha : ∀ k, Function.Injective (addr k)) {format weight : List Char} (hf : SameWord format "pdaaal")
    (hw : SameWord weight "int") {names : Bool} {pda : List JEv} (ho : IsObject pda) {p : NPda String String Int}
    (hp : parsePda WKind.int.io names pda = some p) {ini fin : List (PAtom String String)} {si sf : List Char} (hsi : AtomsText ini si)
    (hsf : AtomsText fin sf) (hok : ∀ x ∈ ini ++ fin, x.ok = true) {t' : TPda String Int} {a b : Aut Int}
    (hi : parseInstance h addr (findState names p) p.toTPda ini fin = some (t', a, b)) (hl : t'.labels.length < epsilon)
    (engine : Nat) (he : 1 ≤ engine ∧ engine ≤ 3)
    (hs : FixOK t'.core signedVal engine a b (NRuns (· ∈ t'.allRules) signedVal (DescribedBy (findState names p) p.labels ini)
      (DescribedBy (findState names p) (p.labels ++ ini.flatMap PAtom.labels) fin)))
    (hfit : FixFits signedVal h' engine t'.core a b) :
    ∃ (fuel0 : Nat) (r : WReport String (WithTop (WithBot Int))), (∀ fuel, fuel0 ≤ fuel →
        runFilesBy h addr format weight names pda (.text si sf) (verifyFixedFor h' engine fuel) = some ⟨.int, .report r⟩) ∧
      TellsBest (· ∈ t'.allRules) signedVal (DescribedBy (findState names p) p.labels ini)
        (DescribedBy (findState names p) (p.labels ++ ini.flatMap PAtom.labels) fin) (["post*", "pre*", "dual*"].getD (engine - 1) "")
        false "negative infinity" r := by
  have hk := (c81_options weight).2.2.2.2.1.2 hw
  obtain ⟨h1, h2, h3⟩ := c77_wellformed WKind.int.io ho hp
  obtain ⟨fuel0, r, g1, g2⟩ := c76_fixed_partial signedVal rfl h h' ha p.toTPda (findState_lt h3) h1 h2 ini fin hok hi hl engine he
    hs hfit false "negative infinity"
  refine ⟨fuel0, r, fun fuel hf' => ?_, g2⟩
  rw [c83_run (k := .int) h ha hf hk hp hsi hsf]
  congr 2
  exact g1 fuel hf'

/-! ## Longest -/

/-- C83, `--trace 3`, if no run can be improved again and again. -/
theorem c83_longest_partial (h h' : HashOrder) (ha : ∀ k, Function.Injective (addr k)) {format weight : List Char} (hf : SameWord format "pdaaal")
    (signed : Bool) (hw : SameWord weight (if signed then "int" else "uint")) {names : Bool} {pda : List JEv} (ho : IsObject pda)
    {p : NPda String String Int} (hp : parsePda (W := Int) (if signed then WKind.int.io else WKind.uint.io) names pda = some p)
    {ini fin : List (PAtom String String)} {si sf : List Char} (hsi : AtomsText ini si)
    (hsf : AtomsText fin sf) (hok : ∀ x ∈ ini ++ fin, x.ok = true) {t' : TPda String Int} {a b : Aut Int}
    (hi : parseInstance h addr (findState names p) p.toTPda ini fin = some (t', a, b)) (hl : t'.labels.length < epsilon)
    (engine : Nat) (he : 1 ≤ engine ∧ engine ≤ 3)
    (hs : FixOK (T := (WithTop (WithBot Int))ᵒᵈ) t'.core signedVal engine a b
      (NRuns (T := (WithTop (WithBot Int))ᵒᵈ) (· ∈ t'.allRules) signedVal (DescribedBy (findState names p) p.labels ini)
        (DescribedBy (findState names p) (p.labels ++ ini.flatMap PAtom.labels) fin)))
    (hfit : FixFits (T := (WithTop (WithBot Int))ᵒᵈ) signedVal h' engine t'.core a b) :
    ∃ (fuel0 : Nat) (r : WReport String (WithTop (WithBot Int))), (∀ fuel, fuel0 ≤ fuel →
        runFilesBy h addr format weight names pda (.text si sf) (verifyLongestFor h' engine fuel) =
          some ⟨if signed then .int else .uint, .report r⟩) ∧
      TellsLongest (T := WithTop (WithBot Int)) (· ∈ t'.allRules) signedVal (DescribedBy (findState names p) p.labels ini)
        (DescribedBy (findState names p) (p.labels ++ ini.flatMap PAtom.labels) fin) (["post*", "pre*", "dual*"].getD (engine - 1) "") r := by
  have hio : ∃ io : WeightIO Int, parsePda io names pda = some p := ⟨_, hp⟩
  obtain ⟨io, hp'⟩ := hio
  obtain ⟨h1, h2, h3⟩ := c77_wellformed io ho hp'
  obtain ⟨fuel0, r, g1, g2⟩ := c76_longest_partial (T := WithTop (WithBot Int)) signedVal rfl h h' ha p.toTPda (findState_lt h3) h1 h2 ini fin hok hi hl
    engine he hs hfit
  refine ⟨fuel0, r, fun fuel hf' => ?_, g2⟩
  cases signed with
  | true =>
    have hk := (c81_options weight).2.2.2.2.1.2 hw
    rw [c83_run (k := .int) h ha hf hk hp hsi hsf]
    congr 2
    exact g1 fuel hf'
  | false =>
    have hk := (c81_options weight).2.2.2.1.2 hw
    rw [c83_run (k := .uint) h ha hf hk hp hsi hsf]
    congr 2
    exact g1 fuel hf'

/-! ## Runs without a best weight -/

/-- C83, `--weight int --trace 4`, if the runs have no least weight: the text is reported, without a trace. This is for searches whose
saturated automaton has no transition of weight `bottom()`. -/
theorem c83_unbounded_partial (h h' : HashOrder) (ha : ∀ k, Function.Injective (addr k)) {format weight : List Char} (hf : SameWord format "pdaaal")
    (hw : SameWord weight "int") {names : Bool} {pda : List JEv} (ho : IsObject pda) {p : NPda String String Int}
    (hp : parsePda WKind.int.io names pda = some p) {ini fin : List (PAtom String String)} {si sf : List Char} (hsi : AtomsText ini si)
    (hsf : AtomsText fin sf) (hok : ∀ x ∈ ini ++ fin, x.ok = true) {t' : TPda String Int} {a b : Aut Int}
    (hi : parseInstance h addr (findState names p) p.toTPda ini fin = some (t', a, b)) (hl : t'.labels.length ≤ epsilon)
    (engine : Nat) (he : 1 ≤ engine ∧ engine ≤ 3) (hlk : engine = 1 ∨ p.core.LookupOK) {fuel : Nat}
    {i : Instance (Trace × WithTop (WithBot Int))} {ans byPre : Bool}
    (hs : fixSearch signedVal h' engine fuel t'.core a b = some ((i, ans), byPre)) (hnb : AutNoBottom (if byPre then i.final else i.initial))
    (hne : (NRuns (· ∈ t'.allRules) signedVal (DescribedBy (findState names p) p.labels ini)
      (DescribedBy (findState names p) (p.labels ++ ini.flatMap PAtom.labels) fin)).Nonempty)
    (hun : ∀ x, ¬ IsLeast (NRuns (· ∈ t'.allRules) signedVal (DescribedBy (findState names p) p.labels ini)
      (DescribedBy (findState names p) (p.labels ++ ini.flatMap PAtom.labels) fin)) x) :
    ∃ fuel0, ∀ fuel, fuel0 ≤ fuel → runFilesBy h addr format weight names pda (.text si sf) (verifyFixedFor h' engine fuel) =
      some ⟨.int, .report { engine := ["post*", "pre*", "dual*"].getD (engine - 1) "", result := true, weight := some (.text "negative infinity"), trace := [] }⟩ := by
  have hk := (c81_options weight).2.2.2.2.1.2 hw
  obtain ⟨h1, h2, h3⟩ := c77_wellformed WKind.int.io ho hp
  obtain ⟨fuel0, g⟩ := c76_unbounded_partial signedVal rfl exWeight_bottomed h h' ha p.toTPda (findState_lt h3) h1 h2 ini fin hok hi hl engine he
    hlk (signed_belowTop _) hs hnb hne hun "negative infinity"
  refine ⟨fuel0, fun fuel hf' => ?_⟩
  rw [c83_run (k := .int) h ha hf hk hp hsi hsf]
  congr 2
  exact g fuel hf'

/-- C83, `--trace 3`, if the runs have no greatest weight, with the same restriction. -/
theorem c83_unbounded_longest_partial (h h' : HashOrder) (ha : ∀ k, Function.Injective (addr k)) {format weight : List Char}
    (hf : SameWord format "pdaaal") (signed : Bool) (hw : SameWord weight (if signed then "int" else "uint")) {names : Bool} {pda : List JEv}
    (ho : IsObject pda) {p : NPda String String Int}
    (hp : parsePda (W := Int) (if signed then WKind.int.io else WKind.uint.io) names pda = some p)
    {ini fin : List (PAtom String String)} {si sf : List Char} (hsi : AtomsText ini si)
    (hsf : AtomsText fin sf) (hok : ∀ x ∈ ini ++ fin, x.ok = true) {t' : TPda String Int} {a b : Aut Int}
    (hi : parseInstance h addr (findState names p) p.toTPda ini fin = some (t', a, b)) (hl : t'.labels.length ≤ epsilon)
    (engine : Nat) (he : 1 ≤ engine ∧ engine ≤ 3) (hlk : engine = 1 ∨ p.core.LookupOK) {fuel : Nat}
    {i : Instance (Trace × (WithTop (WithBot Int))ᵒᵈ)} {ans byPre : Bool}
    (hs : fixSearch (T := (WithTop (WithBot Int))ᵒᵈ) signedVal h' engine fuel t'.core a b = some ((i, ans), byPre))
    (hnb : AutNoBottom (if byPre then i.final else i.initial))
    (hne : (NRuns (· ∈ t'.allRules) signedVal (DescribedBy (findState names p) p.labels ini)
      (DescribedBy (findState names p) (p.labels ++ ini.flatMap PAtom.labels) fin)).Nonempty)
    (hun : ∀ x, ¬ IsGreatest (NRuns (· ∈ t'.allRules) signedVal (DescribedBy (findState names p) p.labels ini)
      (DescribedBy (findState names p) (p.labels ++ ini.flatMap PAtom.labels) fin)) x) :
    ∃ fuel0, ∀ fuel, fuel0 ≤ fuel → runFilesBy h addr format weight names pda (.text si sf) (verifyLongestFor h' engine fuel) =
      some ⟨if signed then .int else .uint,
        .report { engine := ["post*", "pre*", "dual*"].getD (engine - 1) "", result := true, weight := some (.text "infinity"), trace := [] }⟩ := by
  have hio : ∃ io : WeightIO Int, parsePda io names pda = some p := ⟨_, hp⟩
  obtain ⟨io, hp'⟩ := hio
  obtain ⟨h1, h2, h3⟩ := c77_wellformed io ho hp'
  obtain ⟨fuel0, g⟩ := c76_unbounded_partial (T := (WithTop (WithBot Int))ᵒᵈ) signedVal rfl longest_bottomed h h' ha p.toTPda (findState_lt h3) h1 h2
    ini fin hok hi hl engine he hlk (longest_belowTop _) hs hnb hne hun "infinity"
  refine ⟨fuel0, fun fuel hf' => ?_⟩
  cases signed with
  | true =>
    have hk := (c81_options weight).2.2.2.2.1.2 hw
    rw [c83_run (k := .int) h ha hf hk hp hsi hsf]
    congr 2
    exact g fuel hf'
  | false =>
    have hk := (c81_options weight).2.2.2.1.2 hw
    rw [c83_run (k := .uint) h ha hf hk hp hsi hsf]
    congr 2
    exact g fuel hf'

end Run

/-! ## Cases -/

/-- `{"states": [{"a": {"to": 0, "push": "b", "weight": 3}, "b": [{"to": 1, "pop": "", "weight": 2}, {"to": 0, "pop": "", "weight": 1}]}, {}]}` -/
def sumDoc : List JEv :=
  [.startObj, .key "states", .startArr,
    .startObj, .key "a", .startObj, .key "to", .uns 0, .key "push", .str "b", .key "weight", .uns 3, .endObj,
      .key "b", .startArr, .startObj, .key "to", .uns 1, .key "pop", .str "", .key "weight", .uns 2, .endObj,
        .startObj, .key "to", .uns 0, .key "pop", .str "", .key "weight", .uns 1, .endObj, .endArr, .endObj,
    .startObj, .endObj, .endArr, .endObj]

theorem sumDoc_object : IsObject sumDoc := (isObject_iff _).2 rfl

def sumFileCalls : List (PdaCall ℤ) :=
  [.rule 0 { «to» := 0, op := .push, opLabel := 1, weight := 3 } false [0],
    .rule 0 { «to» := 1, op := .pop, opLabel := epsilon, weight := 2 } false [1],
    .rule 0 { «to» := 0, op := .pop, opLabel := epsilon, weight := 1 } false [1]]

def sumFilePda : NPda String String ℤ := { labels := ["a", "b"], states := (Pda.build 2 sumFileCalls).states }

theorem sumDoc_read : parsePda (W := ℤ) WKind.uint.io false (pdaDoc sumDoc) = some sumFilePda := rfl
theorem sumDoc_read_int : parsePda (W := ℤ) WKind.int.io false (pdaDoc sumDoc) = some sumFilePda := rfl

theorem sumFile_find : findState false sumFilePda "0" = some (some 0) ∧ findState false sumFilePda "1" = some (some 1) :=
  ⟨by decide +kernel, by decide +kernel⟩

theorem parse_one_by {W : Type} [Zero W] {find : String → Option (Option Nat)} {t t' : TPda String W} {x : PAtom String String} {q : Nat} {m : Nfa}
    (h1 : ({ pda := t } : PBuild String W).addStates find x.states = some { pda := t, states := [q] })
    (h2 : (encOpt t x.expr).1 = t') (h3 : parseRegex (exprAddr 0) (encOpt t x.expr).2 = some m) (h4 : m.compile = m) :
    parsePAut HashOrder.id exprAddr find t [x] = some (t', Aut.ofNfa t'.states.length t'.labels.length m [q]) := by
  have h5 : sortUnique [q] = [q] := by simp [sortUnique, sortBy, insertBy, uniqueBy]
  simp [parsePAut, PBuild.atoms, PBuild.atom, PBuild.finish, h1, h2, h3, h4, h5]

/-- The automata that are read. -/
def sumFileA : Aut ℤ := Aut.ofNfa 2 2 (reportNfa false 0) [0]
def sumFileB : Aut ℤ := Aut.ofNfa 2 2 (reportNfa false 0) [1]

theorem sumFile_parse : parseInstance HashOrder.id exprAddr (findState false sumFilePda) sumFilePda.toTPda fileIni fileFin =
    some (sumFilePda.toTPda, sumFileA, sumFileB) := by
  unfold parseInstance fileIni fileFin
  rw [parse_one_by (t := sumFilePda.toTPda) (t' := sumFilePda.toTPda) (q := 0) (m := reportNfa false 0) (by simp [PBuild.addStates, PBuild.addState, sumFile_find.1]) rfl rfl (reportNfa_compile _ _),
    Option.bind_some, parse_one_by (t := sumFilePda.toTPda) (t' := sumFilePda.toTPda) (q := 1) (m := reportNfa false 0) (by simp [PBuild.addStates, PBuild.addState, sumFile_find.2]) rfl rfl
      (reportNfa_compile _ _)]
  rfl

theorem sumFile_ini : DescribedBy (findState false sumFilePda) ["a", "b"] fileIni 0 ["a"] :=
  .inl ⟨⟨⟨_, List.mem_singleton.2 rfl, sumFile_find.1⟩, ⟨_, rfl, by decide⟩⟩, by decide⟩

theorem sumFile_fin : DescribedBy (findState false sumFilePda) ["a", "b", "a"] fileFin 1 ["a"] :=
  .inl ⟨⟨⟨_, List.mem_singleton.2 rfl, sumFile_find.2⟩, ⟨_, rfl, by decide⟩⟩, by decide⟩

theorem sumFile_ini_state {q : Nat} {ls : List String} (h : DescribedBy (findState false sumFilePda) ["a", "b"] fileIni q ls) : q = 0 ∧ ls ≠ [] := by
  rcases h with ⟨⟨⟨s, h1, h2⟩, ⟨l, h3, _⟩⟩, _⟩ | h
  · rw [List.mem_singleton.1 h1] at h2
    replace h2 : findState false sumFilePda "0" = some (some q) := h2
    rw [sumFile_find.1] at h2
    cases h2
    exact ⟨rfl, by rw [h3]; simp⟩
  · exact h.elim

theorem sumFile_fin_state {q : Nat} {ls : List String} (h : DescribedBy (findState false sumFilePda) ["a", "b", "a"] fileFin q ls) : q = 1 ∧ ls ≠ [] := by
  rcases h with ⟨⟨⟨s, h1, h2⟩, ⟨l, h3, _⟩⟩, _⟩ | h
  · rw [List.mem_singleton.1 h1] at h2
    replace h2 : findState false sumFilePda "1" = some (some q) := h2
    rw [sumFile_find.2] at h2
    cases h2
    exact ⟨rfl, by rw [h3]; simp⟩
  · exact h.elim

/-- Push `b` and pop it: weight 5. -/
theorem sumFile_mem : (5 : ℕ) ∈ NRuns (· ∈ sumFilePda.toTPda.allRules) Int.toNat (DescribedBy (findState false sumFilePda) ["a", "b"] fileIni)
    (DescribedBy (findState false sumFilePda) ["a", "b", "a"] fileFin) := by
  refine ⟨[(0, ["a"]), (0, ["b", "a"]), (1, ["a"])], ?_, ⟨_, rfl, sumFile_ini⟩, ⟨_, rfl, sumFile_fin⟩⟩
  exact NCostTrace.cons (R := (· ∈ sumFilePda.toTPda.allRules)) (val := Int.toNat) ⟨0, "a", 0, .push, "b", 3⟩ [] _ _ (by decide +kernel)
    (.cons (R := (· ∈ sumFilePda.toTPda.allRules)) (val := Int.toNat) ⟨0, "b", 1, .pop, default, 2⟩ ["a"] _ _ (by decide +kernel) (.one _))

theorem sumFile_mem_fixed : (5 : WithTop ℕ) ∈ NRuns (· ∈ sumFilePda.toTPda.allRules) unsignedVal
    (DescribedBy (findState false sumFilePda) ["a", "b"] fileIni) (DescribedBy (findState false sumFilePda) ["a", "b", "a"] fileFin) := by
  refine ⟨[(0, ["a"]), (0, ["b", "a"]), (1, ["a"])], ?_, ⟨_, rfl, sumFile_ini⟩, ⟨_, rfl, sumFile_fin⟩⟩
  exact NCostTrace.cons (R := (· ∈ sumFilePda.toTPda.allRules)) (val := unsignedVal) ⟨0, "a", 0, .push, "b", 3⟩ [] _ _ (by decide +kernel)
    (.cons (R := (· ∈ sumFilePda.toTPda.allRules)) (val := unsignedVal) ⟨0, "b", 1, .pop, default, 2⟩ ["a"] _ _ (by decide +kernel) (.one _))

def unsEnv : ShortEnv ℕ := ⟨Heap.first ShElem.key, Heap.first Prod.fst, fun _ => 7⟩
def sigEnv : ShortEnv ℤ := ⟨Heap.first ShElem.key, Heap.first Prod.fst, fun _ => 7⟩

theorem sumFile_fits (engine : Nat) (he : 1 ≤ engine ∧ engine ≤ 3) :
    ShortFits Int.toNat unsEnv.worklist unsEnv.queue HashOrder.id (fun _ => false) unsEnv.best engine sumFilePda.core sumFileA sumFileB := by
  have key : ∀ e, e = 1 ∨ e = 2 ∨ e = 3 → ((shortSearch Int.toNat unsEnv.worklist unsEnv.queue HashOrder.id (fun _ => false)
      unsEnv.best e 100 sumFilePda.core sumFileA sumFileB).toOption.bind id).any (fun r => decide (r.1.prod.base.aut.n ≤ 100)) = true := by
    rintro e (rfl | rfl | rfl) <;> decide +kernel
  have := key engine (by omega)
  rcases hs : shortSearch Int.toNat unsEnv.worklist unsEnv.queue HashOrder.id (fun _ => false)
      unsEnv.best engine 100 sumFilePda.core sumFileA sumFileB with s | _ | ⟨i, ans⟩
  · rw [hs] at this; cases this
  · rw [hs] at this; cases this
  · rw [hs] at this
    have h2 : i.prod.base.aut.n ≤ 100 := of_decide_eq_true this
    exact shortFits_of (by decide +kernel) (by decide +kernel) hs (Nat.le_trans h2 (by decide))

/-- Non-vacuity: all hypotheses of `c83_shortest_partial` hold. -/
example (engine : Nat) (he : 1 ≤ engine ∧ engine ≤ 3) : ∃ fuel o, runFilesBy HashOrder.id exprAddr "pdaaal".toList "UINT".toList false (pdaDoc sumDoc)
    (.text "<0,[a]>".toList "<1,[a]>".toList) (verifyShortestFor unsEnv sigEnv HashOrder.id (fun _ => false) engine fuel) = some ⟨.uint, o⟩ ∧
      o ≠ .running :=
  (c83_shortest_partial HashOrder.id HashOrder.id exprAddr_inj (by unfold SameWord; decide) (by unfold SameWord; decide)
    (object_in sumDoc_object "pda") sumDoc_read fileIni_text fileFin_text (by decide) sumFile_parse (by decide) unsEnv sigEnv (fun _ => false) engine he (by
      split
      · rintro q ⟨h1, _⟩
        exact (sumFile_ini_state h1).2 rfl
      · refine ⟨fun q h => (sumFile_fin_state h).2 rfl, fun q ls h => ?_⟩
        have h1 := (sumFile_ini_state h.1).1
        have h2 := (sumFile_fin_state h.2).1
        omega) (sumFile_fits engine he)).1

theorem sumFile_fixFits (engine : Nat) (he : 1 ≤ engine ∧ engine ≤ 3) : FixFits unsignedVal HashOrder.id engine sumFilePda.core sumFileA sumFileB := by
  have key : ∀ e, e = 1 ∨ e = 2 ∨ e = 3 →
      (fixSearch unsignedVal HashOrder.id e 100 sumFilePda.core sumFileA sumFileB).any (fun r => decide (r.1.1.initial.n ≤ 100)) = true := by
    rintro e (rfl | rfl | rfl) <;> decide +kernel
  have := key engine (by omega)
  rcases hs : fixSearch unsignedVal HashOrder.id engine 100 sumFilePda.core sumFileA sumFileB with _ | ⟨⟨i, ans⟩, byPre⟩
  · rw [hs] at this; cases this
  · rw [hs] at this
    have h2 : i.initial.n ≤ 100 := of_decide_eq_true this
    exact fixFits_of (by decide +kernel) hs (Nat.le_trans h2 (by decide))

/-- Non-vacuity: all hypotheses of `c83_fixed_partial` hold, and the report gives a weight of at most 5. -/
example (engine : Nat) (he : 1 ≤ engine ∧ engine ≤ 3) : ∃ (fuel0 : Nat) (r : WReport String (WithTop ℕ)), (∀ fuel, fuel0 ≤ fuel →
    runFilesBy HashOrder.id exprAddr "Pdaaal".toList "uint".toList false (pdaDoc sumDoc) (.text "<0,[a]>".toList "<1,[a]>".toList)
      (verifyFixedFor HashOrder.id engine fuel) = some ⟨.uint, .report r⟩) ∧ ∃ x : WithTop ℕ, x ≤ 5 ∧ r.weight = some (.value x) := by
  obtain ⟨fuel0, r, h1, h2, h3, h4, h5⟩ := c83_fixed_partial HashOrder.id HashOrder.id exprAddr_inj (format := "Pdaaal".toList) (weight := "uint".toList)
    (by unfold SameWord; decide) (by unfold SameWord; decide)
    (object_in sumDoc_object "pda") sumDoc_read fileIni_text fileFin_text (by decide) sumFile_parse (by decide) engine he (sumFile_fixFits engine he)
  obtain ⟨x, k1, k2, _⟩ := h4 (h3.2 ⟨_, sumFile_mem_fixed⟩)
  exact ⟨fuel0, r, h1, x, k1.2 sumFile_mem_fixed, k2⟩

theorem sumFile_sigFits (engine : Nat) (he : 1 ≤ engine ∧ engine ≤ 3) : FixFits signedVal HashOrder.id engine sumFilePda.core sumFileA sumFileB := by
  have key : ∀ e, e = 1 ∨ e = 2 ∨ e = 3 →
      (fixSearch signedVal HashOrder.id e 100 sumFilePda.core sumFileA sumFileB).any (fun r => decide (r.1.1.initial.n ≤ 100)) = true := by
    rintro e (rfl | rfl | rfl) <;> decide +kernel
  have := key engine (by omega)
  rcases hs : fixSearch signedVal HashOrder.id engine 100 sumFilePda.core sumFileA sumFileB with _ | ⟨⟨i, ans⟩, byPre⟩
  · rw [hs] at this; cases this
  · rw [hs] at this
    have h2 : i.initial.n ≤ 100 := of_decide_eq_true this
    exact fixFits_of (by decide +kernel) hs (Nat.le_trans h2 (by decide))

/-- Non-vacuity: all hypotheses of `c83_fixed_signed_partial` hold. -/
example (engine : Nat) (he : 1 ≤ engine ∧ engine ≤ 3) : ∃ (fuel0 : Nat) (r : WReport String (WithTop (WithBot ℤ))), ∀ fuel, fuel0 ≤ fuel →
    runFilesBy HashOrder.id exprAddr "pdaaal".toList "int".toList false (pdaDoc sumDoc) (.text "<0,[a]>".toList "<1,[a]>".toList)
      (verifyFixedFor HashOrder.id engine fuel) = some ⟨.int, .report r⟩ := by
  obtain ⟨fuel0, r, h1, _⟩ := c83_fixed_signed_partial HashOrder.id HashOrder.id exprAddr_inj (format := "pdaaal".toList) (weight := "int".toList)
    (by unfold SameWord; decide) (by unfold SameWord; decide)
    (object_in sumDoc_object "pda") sumDoc_read_int fileIni_text fileFin_text (by decide) sumFile_parse (by decide) engine he
    (fixOK_nonneg (by decide +kernel) _ _ _ _ engine (.inr (lookup_read (k := .uint) sumDoc_read (by decide)))) (sumFile_sigFits engine he)
  exact ⟨fuel0, r, h1⟩

/-- The document with the weights -3, -2 and 0. -/
def negDoc : List JEv :=
  [.startObj, .key "states", .startArr,
    .startObj, .key "a", .startObj, .key "to", .uns 0, .key "push", .str "b", .key "weight", .int (-3), .endObj,
      .key "b", .startArr, .startObj, .key "to", .uns 1, .key "pop", .str "", .key "weight", .int (-2), .endObj,
        .startObj, .key "to", .uns 0, .key "pop", .str "", .key "weight", .uns 0, .endObj, .endArr, .endObj,
    .startObj, .endObj, .endArr, .endObj]

def negFilePda : NPda String String ℤ :=
  { labels := ["a", "b"], states := (Pda.build 2 [.rule 0 { «to» := 0, op := .push, opLabel := 1, weight := -3 } false [0],
    .rule 0 { «to» := 1, op := .pop, opLabel := epsilon, weight := -2 } false [1], .rule 0 { «to» := 0, op := .pop, opLabel := epsilon, weight := 0 } false [1]]).states }

theorem negDoc_object : IsObject negDoc := (isObject_iff _).2 rfl

theorem negDoc_read : parsePda (W := ℤ) WKind.int.io false (pdaDoc negDoc) = some negFilePda := rfl

theorem negFile_find : findState false negFilePda "0" = some (some 0) ∧ findState false negFilePda "1" = some (some 1) :=
  ⟨by decide +kernel, by decide +kernel⟩

theorem negFile_parse : parseInstance HashOrder.id exprAddr (findState false negFilePda) negFilePda.toTPda fileIni fileFin =
    some (negFilePda.toTPda, sumFileA, sumFileB) := by
  unfold parseInstance fileIni fileFin
  rw [parse_one_by (t := negFilePda.toTPda) (t' := negFilePda.toTPda) (q := 0) (m := reportNfa false 0)
      (by simp [PBuild.addStates, PBuild.addState, negFile_find.1]) rfl rfl (reportNfa_compile _ _),
    Option.bind_some, parse_one_by (t := negFilePda.toTPda) (t' := negFilePda.toTPda) (q := 1) (m := reportNfa false 0)
      (by simp [PBuild.addStates, PBuild.addState, negFile_find.2]) rfl rfl (reportNfa_compile _ _)]
  rfl

theorem negFile_fits (engine : Nat) (he : 1 ≤ engine ∧ engine ≤ 3) :
    FixFits (T := (WithTop (WithBot ℤ))ᵒᵈ) signedVal HashOrder.id engine negFilePda.core sumFileA sumFileB := by
  have key : ∀ e, e = 1 ∨ e = 2 ∨ e = 3 → (fixSearch (T := (WithTop (WithBot ℤ))ᵒᵈ) signedVal HashOrder.id e 100 negFilePda.core sumFileA sumFileB).any
      (fun r => decide (r.1.1.initial.n ≤ 100)) = true := by
    rintro e (rfl | rfl | rfl) <;> decide +kernel
  have := key engine (by omega)
  rcases hs : fixSearch (T := (WithTop (WithBot ℤ))ᵒᵈ) signedVal HashOrder.id engine 100 negFilePda.core sumFileA sumFileB with _ | ⟨⟨i, ans⟩, byPre⟩
  · rw [hs] at this; cases this
  · rw [hs] at this
    have h2 : i.initial.n ≤ 100 := of_decide_eq_true this
    exact fixFits_of (T := (WithTop (WithBot ℤ))ᵒᵈ) (by decide +kernel) hs (Nat.le_trans h2 (by decide))

/-- Non-vacuity: all hypotheses of `c83_longest_partial` hold; the PDA has a negative weight but no push rule whose operand is its first label. -/
example (engine : Nat) (he : 1 ≤ engine ∧ engine ≤ 3) : ∃ (fuel0 : Nat) (r : WReport String (WithTop (WithBot ℤ))), ∀ fuel, fuel0 ≤ fuel →
    runFilesBy HashOrder.id exprAddr "pdaaal".toList "int".toList false (pdaDoc negDoc) (.text "<0,[a]>".toList "<1,[a]>".toList)
      (verifyLongestFor HashOrder.id engine fuel) = some ⟨.int, .report r⟩ := by
  have hOK : ∀ c ∈ [PdaCall.rule 0 { «to» := 0, op := .push, opLabel := 1, weight := (-3 : ℤ) } false [0],
      .rule 0 { «to» := 1, op := .pop, opLabel := epsilon, weight := -2 } false [1],
      .rule 0 { «to» := 0, op := .pop, opLabel := epsilon, weight := 0 } false [1]], c.OK 2 := by simp [PdaCall.OK, WSorted]
  have hlook : negFilePda.core.LookupOK := lookupOK_build 2 _ hOK (by simp; grind)
  obtain ⟨fuel0, r, h1, _⟩ := c83_longest_partial HashOrder.id HashOrder.id exprAddr_inj (format := "pdaaal".toList) (weight := "int".toList)
    (by unfold SameWord; decide) true (by unfold SameWord; decide)
    (object_in negDoc_object "pda") negDoc_read fileIni_text fileFin_text (by decide) negFile_parse (by decide) engine he
    (fixOK_nonpos (by decide +kernel) _ _ _ _ engine (.inr hlook)) (negFile_fits engine he)
  exact ⟨fuel0, r, h1⟩

/-- `{"states": [{"a": {"to": 0, "pop": "", "weight": w}, "b": {"to": 1, "pop": "", "weight": 0}}, {}]}` -/
def eatFile (w : ℤ) : List JEv :=
  [.startObj, .key "states", .startArr,
    .startObj, .key "a", .startObj, .key "to", .uns 0, .key "pop", .str "", .key "weight", .int w, .endObj,
      .key "b", .startObj, .key "to", .uns 1, .key "pop", .str "", .key "weight", .uns 0, .endObj, .endObj,
    .startObj, .endObj, .endArr, .endObj]

def eatFileCalls (w : ℤ) : List (PdaCall ℤ) :=
  [.rule 0 { «to» := 0, op := .pop, opLabel := epsilon, weight := w } false [0],
    .rule 0 { «to» := 1, op := .pop, opLabel := epsilon, weight := 0 } false [1]]

def eatFilePda (w : ℤ) : NPda String String ℤ := { labels := ["a", "b"], states := (Pda.build 2 (eatFileCalls w)).states }

theorem eatFile_object (w : ℤ) : IsObject (eatFile w) := (isObject_iff _).2 rfl

theorem eatFile_read (w : ℤ) (hw : w = -1 ∨ w = 1) : parsePda (W := ℤ) WKind.int.io false (pdaDoc (eatFile w)) = some (eatFilePda w) := by
  rcases hw with rfl | rfl <;> rfl

theorem eatFile_find (w : ℤ) (hw : w = -1 ∨ w = 1) : findState false (eatFilePda w) "0" = some (some 0) := by
  rcases hw with rfl | rfl <;> decide +kernel

/-- `<0,[a]+[b]>` -/
theorem eatStart_text : AtomsText [eatStart] "<0,[a]+[b]>".toList :=
  ⟨_, _, .nil _, .one ⟨"0,[a]+[b]>".toList, "0,[a]+[b]>".toList, ",[a]+[b]>".toList, "[a]+[b]>".toList, rfl, .nil _, .inl ⟨_, rfl, by rfl, .inl ⟨by decide, by decide⟩⟩, .nil _,
    "[a]+[b]>".toList, ">".toList, .nil _, ⟨"[b]>".toList, "[b]>".toList, ⟨"a]+[b]>".toList, rfl, .one ⟨by decide, by unfold NameChar; decide, by rfl⟩⟩,
      .nil _, "b]>".toList, rfl, .one ⟨by decide, by unfold NameChar; decide, by rfl⟩⟩, .nil _⟩, .nil _⟩

/-- `<0,[b]>` -/
theorem eatStop_text : AtomsText [eatStop] "<0,[b]>".toList := 
  ⟨_, _, .nil _, .one ⟨"0,[b]>".toList, "0,[b]>".toList, ",[b]>".toList, "[b]>".toList, rfl, .nil _, .inl ⟨_, rfl, by rfl, .inl ⟨by decide, by decide⟩⟩, .nil _,
    "[b]>".toList, ">".toList, .nil _, ⟨"b]>".toList, rfl, .one ⟨by decide, by unfold NameChar; decide, by rfl⟩⟩, .nil _⟩, .nil _⟩

theorem eatFile_parse (w : ℤ) (hw : w = -1 ∨ w = 1) : parseInstance HashOrder.id exprAddr (findState false (eatFilePda w)) (eatFilePda w).toTPda [eatStart] [eatStop] =
    some ((eatFilePda w).toTPda, Aut.ofNfa 2 2 eatNfa [0], Aut.ofNfa 2 2 (reportNfa false 1) [0]) := by
  have hs : (eatFilePda w).toTPda.states.length = 2 := by rcases hw with rfl | rfl <;> decide +kernel
  have hl : (eatFilePda w).toTPda.labels.length = 2 := rfl
  unfold parseInstance
  rw [parse_one_by (t := (eatFilePda w).toTPda) (t' := (eatFilePda w).toTPda) (q := 0) (m := eatNfa)
      (by simp [eatStart, PBuild.addStates, PBuild.addState, eatFile_find w hw]) rfl rfl eatNfa_compile,
    Option.bind_some, parse_one_by (t := (eatFilePda w).toTPda) (t' := (eatFilePda w).toTPda) (q := 0) (m := reportNfa false 1)
      (by simp [eatStop, PBuild.addStates, PBuild.addState, eatFile_find w hw]) rfl rfl (reportNfa_compile _ _), hs, hl]
  rfl

theorem eatFile_ini (w : ℤ) (hw : w = -1 ∨ w = 1) (k : Nat) : DescribedBy (findState false (eatFilePda w)) ["a", "b"] [eatStart] 0 (List.replicate (k + 1) "a" ++ ["b"]) := by
  rcases eatStart_all k with ⟨⟨-, h⟩, h'⟩ | h
  · exact .inl ⟨⟨⟨_, List.mem_singleton.2 rfl, eatFile_find w hw⟩, h⟩, h'⟩
  · exact h.elim

theorem eatFile_rule (w : ℤ) (hw : w = -1 ∨ w = 1) : (⟨0, "a", 0, .pop, default, w⟩ : TRule String ℤ) ∈ (eatFilePda w).allRules := by
  rcases hw with rfl | rfl <;> decide +kernel

theorem eatFile_run (w : ℤ) (hw : w = -1 ∨ w = 1) (k : Nat) : ∃ cs, NCostTrace (· ∈ (eatFilePda w).allRules) signedVal cs (signedVal (k * w)) ∧
    cs.head? = some (0, List.replicate k "a" ++ ["b"]) ∧ cs.getLast? = some (0, ["b"]) := by
  induction k with
  | zero => exact ⟨[(0, ["b"])], by rw [Int.natCast_zero, Int.zero_mul]; exact .one _, rfl, rfl⟩
  | succ k ih =>
    obtain ⟨cs, h1, h2, h3⟩ := ih
    cases cs with
    | nil => cases h2
    | cons c cs =>
      cases h2
      refine ⟨(0, List.replicate (k + 1) "a" ++ ["b"]) :: (0, List.replicate k "a" ++ ["b"]) :: cs, ?_, rfl, ?_⟩
      · have := NCostTrace.cons (R := (· ∈ (eatFilePda w).allRules)) (val := signedVal) ⟨0, "a", 0, .pop, default, w⟩ (List.replicate k "a" ++ ["b"]) cs _
          (eatFile_rule w hw) h1
        have e : signedVal ((k + 1 : Nat) * w) = signedVal w + signedVal (k * w) := by
          show _ = signedVal (w + k * w)
          congr 1
          rw [Int.natCast_succ, Int.add_mul]
          omega
        rw [e]
        exact this
      · rw [List.getLast?_cons_cons]
        exact h3

theorem eatFile_runs (w : ℤ) (hw : w = -1 ∨ w = 1) (k : Nat) : signedVal ((k + 1 : Nat) * w) ∈ NRuns (· ∈ (eatFilePda w).allRules) signedVal
    (DescribedBy (findState false (eatFilePda w)) ["a", "b"] [eatStart]) (DescribedBy (findState false (eatFilePda w)) ["a", "b", "a", "b"] [eatStop]) := by
  obtain ⟨cs, h1, h2, h3⟩ := eatFile_run w hw (k + 1)
  exact ⟨cs, h1, ⟨_, h2, eatFile_ini w hw k⟩, _, h3, .inl ⟨⟨⟨_, List.mem_singleton.2 rfl, eatFile_find w hw⟩, ⟨_, rfl, by decide⟩⟩, by decide⟩⟩

/-- Non-vacuity: all hypotheses of `c83_unbounded_partial` hold for pre*; the program reports "negative infinity". -/
example : ∃ fuel0, ∀ fuel, fuel0 ≤ fuel → runFilesBy HashOrder.id exprAddr "pdaaal".toList "int".toList false (pdaDoc (eatFile (-1)))
    (.text "<0,[a]+[b]>".toList "<0,[b]>".toList) (verifyFixedFor HashOrder.id 2 fuel) =
      some ⟨.int, .report { engine := "pre*", result := true, weight := some (.text "negative infinity"), trace := [] }⟩ := by
  have hOK : ∀ c ∈ eatFileCalls (-1), c.OK 2 := by simp [eatFileCalls, PdaCall.OK, WSorted]
  have key : (fixSearch signedVal HashOrder.id 2 100 (eatFilePda (-1)).core (Aut.ofNfa 2 2 eatNfa [0]) (Aut.ofNfa 2 2 (reportNfa false 1) [0])).any
      (fun r => r.2 && r.1.1.final.edges.all (fun e => decide (e.2.2.2 ≠ ⊥))) = true := by decide +kernel
  rcases hs : fixSearch signedVal HashOrder.id 2 100 (eatFilePda (-1)).core (Aut.ofNfa 2 2 eatNfa [0]) (Aut.ofNfa 2 2 (reportNfa false 1) [0]) with
    _ | ⟨⟨i, ans⟩, byPre⟩
  · rw [hs] at key; cases key
  · rw [hs, Option.any_some, Bool.and_eq_true] at key
    obtain ⟨k1, k2⟩ := key
    cases byPre with
    | false => cases k1
    | true =>
      refine c83_unbounded_partial HashOrder.id HashOrder.id exprAddr_inj (by unfold SameWord; decide) (by unfold SameWord; decide)
        (object_in (eatFile_object _) "pda") (eatFile_read _ (.inl rfl)) eatStart_text eatStop_text (by decide) (eatFile_parse _ (.inl rfl)) (by decide) 2 (by decide)
        (.inr (lookupOK_build 2 _ hOK (by simp [eatFileCalls]; grind))) hs (autNoBottom_of_all _ k2) ⟨_, eatFile_runs _ (.inl rfl) 0⟩ ?_
      rintro x ⟨⟨cs, h1, _⟩, h2⟩
      obtain ⟨z, rfl⟩ := ncost_int h1
      have := h2 (eatFile_runs (-1) (.inl rfl) z.natAbs)
      unfold exVal signedVal at this
      rw [WithTop.coe_le_coe, WithBot.coe_le_coe] at this
      omega

/-- Non-vacuity: all hypotheses of `c83_unbounded_longest_partial` hold for pre*; the program reports "infinity". -/
example : ∃ fuel0, ∀ fuel, fuel0 ≤ fuel → runFilesBy HashOrder.id exprAddr "pdaaal".toList "int".toList false (pdaDoc (eatFile 1))
    (.text "<0,[a]+[b]>".toList "<0,[b]>".toList) (verifyLongestFor HashOrder.id 2 fuel) =
      some ⟨.int, .report { engine := "pre*", result := true, weight := some (.text "infinity"), trace := [] }⟩ := by
  have hOK : ∀ c ∈ eatFileCalls 1, c.OK 2 := by simp [eatFileCalls, PdaCall.OK, WSorted]
  have key : (fixSearch (T := (WithTop (WithBot ℤ))ᵒᵈ) signedVal HashOrder.id 2 100 (eatFilePda 1).core (Aut.ofNfa 2 2 eatNfa [0])
      (Aut.ofNfa 2 2 (reportNfa false 1) [0])).any (fun r => r.2 && r.1.1.final.edges.all (fun e => decide (e.2.2.2 ≠ ⊥))) = true := by decide +kernel
  rcases hs : fixSearch (T := (WithTop (WithBot ℤ))ᵒᵈ) signedVal HashOrder.id 2 100 (eatFilePda 1).core (Aut.ofNfa 2 2 eatNfa [0])
      (Aut.ofNfa 2 2 (reportNfa false 1) [0]) with _ | ⟨⟨i, ans⟩, byPre⟩
  · rw [hs] at key; cases key
  · rw [hs, Option.any_some, Bool.and_eq_true] at key
    obtain ⟨k1, k2⟩ := key
    cases byPre with
    | false => cases k1
    | true =>
      refine c83_unbounded_longest_partial HashOrder.id HashOrder.id exprAddr_inj (by unfold SameWord; decide) true (by unfold SameWord; decide)
        (object_in (eatFile_object _) "pda") (eatFile_read _ (.inr rfl)) eatStart_text eatStop_text (by decide) (eatFile_parse _ (.inr rfl)) (by decide) 2 (by decide)
        (.inr (lookupOK_build 2 _ hOK (by simp [eatFileCalls]; grind))) hs ?_ ⟨_, eatFile_runs _ (.inr rfl) 0⟩ ?_
      · intro t tr1 tr2 x hx
        unfold Aut.getEdge at hx
        rw [Option.map_eq_some_iff] at hx
        obtain ⟨e, h1, h2⟩ := hx
        have := List.all_eq_true.1 k2 e (List.mem_of_find?_eq_some h1)
        rw [decide_eq_true_iff, h2] at this
        exact this
      · rintro x ⟨⟨cs, h1, _⟩, h2⟩
        obtain ⟨z, rfl⟩ := ncost_int h1
        have := h2 (eatFile_runs 1 (.inr rfl) z.natAbs)
        unfold exVal signedVal at this
        rw [WithTop.coe_le_coe, WithBot.coe_le_coe] at this
        omega

/-- Non-vacuity of `c83_unweighted`. -/
example (engine fuel : Nat) (he : engine ≠ 0) : runFilesBy HashOrder.id exprAddr "pdaaal".toList "none".toList false (pdaDoc instText)
    (.text "<0,[a]>".toList "<1,[a]>".toList) (verifyLongestFor HashOrder.id engine fuel) = some ⟨.none, .error⟩ := by
  have := (c83_unweighted HashOrder.id HashOrder.id exprAddr_inj (format := "pdaaal".toList) (weight := "none".toList) (by unfold SameWord; decide)
    (by unfold SameWord; decide) (object_in instText_object "pda") inst_pdaRead fileIni_text fileFin_text file_good.1 file_good.2 unsEnv sigEnv (fun _ => false)
    engine fuel).2.1
  rwa [if_neg he] at this

end Verif.Props
