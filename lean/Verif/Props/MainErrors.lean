import Verif.Props.Main

/-!
# C85: what the program refuses
-/

namespace Verif.Props

open Verif Verif.Json

section Refused
variable {e : ProgEnv} {w : World} {o : ProgOpts} {pda : List JEv} {fs : AutFiles}

/-- C85, errors: unknown formats and types of weights, the format `moped`, and a PDA that the library or the PDA's reader does not accept. The
program throws, and it has written nothing. -/
theorem c85_refused (hk : Works o) (hs : Separate o) {text : List Char} (ht : (if o.pda = "-" then some w.stdin else w.files o.pda) = some text)
    (hr : ¬ SameWord o.format "pdaaal" ∨ (¬ SameWord o.weight "none" ∧ ¬ SameWord o.weight "uint" ∧ ¬ SameWord o.weight "int") ∨
      e.read false text = none ∨ ∀ k pda, getWeightType o.weight = some k → e.read false text = some pda → parsePda k.io o.names pda = none) :
    prog e w o = ⟨.thrown, some [], w.files⟩ := by
  refine prog_error hk ?_
  obtain ⟨o1, -⟩ := c81_options o.format
  obtain ⟨-, -, o3, o4, o5, o6⟩ := c81_options o.weight
  rw [read_sep hs]
  unfold readSeparate
  cases hf : getFormat o.format with
  | none => rfl
  | some f =>
    cases hw : getWeightType o.weight with
    | none => rfl
    | some k =>
      simp only [ht]
      cases f with
      | moped => rfl
      | pdaaal =>
        simp only []
        have key : (e.read false text).bind (parsePda k.io o.names) = none := by
          rcases hr with hr | ⟨h1, h2, h3⟩ | hr | hr
          · exact absurd (o1.1 hf) hr
          · rcases o6 k hw with rfl | rfl | rfl
            · exact absurd (o3.1 hw) h1
            · exact absurd (o4.1 hw) h2
            · exact absurd (o5.1 hw) h3
          · rw [hr]; rfl
          · cases hd : e.read false text with
            | none => rfl
            | some pda => exact hr k pda hw hd
        rw [key]

/-- How the two texts are read. -/
theorem read_two_texts {si sf : List Char} (hh : Holds e w o pda (.text si sf)) (hf : SameWord o.format "pdaaal") {k : WKind}
    (hw : getWeightType o.weight = some k) {p : NPda String String k.Carrier} (hp : parsePda k.io o.names pda = some p) :
    (parsePAutText e.order e.addr (findState o.names p) p.toTPda si = .error → readInstance e w o = .error) ∧
    ∀ x, parsePAutText e.order e.addr (findState o.names p) p.toTPda si = .ok x →
      parsePAutText e.order e.addr (findState o.names { p with toTPda := x.1 }) x.1 sf = .error → readInstance e w o = .error := by
  rw [read_pda hh hf hw hp]
  refine ⟨fun hx => ?_, fun x hx hy => ?_⟩
  · have : readAutomaton e w o o.initial p = .error := by
      unfold readAutomaton
      rw [hh.automata.2.1, hh.automata.1]
      simp only [Bool.false_eq_true, if_false]
      rw [hx]
    rw [this]
    rfl
  · rw [read_text_aut hh.automata.2.1 hh.automata.1 hx]
    show (readAutomaton e w o o.final { p with toTPda := x.1 }).bind _ = _
    have : readAutomaton e w o o.final { p with toTPda := x.1 } = .error := by
      unfold readAutomaton
      rw [hh.automata.2.2, hh.automata.1]
      simp only [Bool.false_eq_true, if_false]
      rw [hy]
    rw [this]
    rfl

theorem find_same (ha : ∀ k, Function.Injective (e.addr k)) {k : WKind} (ho : IsObject pda) {p : NPda String String k.Carrier}
    (hp : parsePda k.io o.names pda = some p) {s : List Char} {x : TPda String k.Carrier × Aut k.Carrier}
    (hx : parsePAutText e.order e.addr (findState o.names p) p.toTPda s = .ok x) :
    findState o.names { p with toTPda := x.1 } = findState o.names p := by
  obtain ⟨h1, -, h3⟩ := c77_wellformed k.io ho hp
  have hst := text_states (o := o) ha h1 h3 hx
  funext s
  unfold findState
  simp only [hst]

/-- C85, errors: the texts of the automata are not P-automata. The full statement is without the hypotheses on dangling bars (C79), for which the
behaviour is undefined. -/
theorem c85_syntax_partial (ha : ∀ k, Function.Injective (e.addr k)) (hk : Works o) {si sf : List Char} (hh : Holds e w o pda (.text si sf))
    (ho : IsObject pda) (hb : (∀ as, ¬ AtomsText as si) ∨ ∀ as, ¬ AtomsText as sf) (hi : ¬ DanglingBar si) (hf : ¬ DanglingBar sf) :
    prog e w o = ⟨.thrown, some [], w.files⟩ := by
  obtain ⟨s, h1, h2⟩ := hh.pda
  by_cases hF : SameWord o.format "pdaaal"
  · cases hw : getWeightType o.weight with
    | none =>
      refine c85_refused hk hh.sep h1 (.inr (.inr (.inr fun k pda hw' => ?_)))
      rw [hw] at hw'
      cases hw'
    | some k =>
      cases hp : parsePda k.io o.names pda with
      | none =>
        refine c85_refused hk hh.sep h1 (.inr (.inr (.inr fun k' pda' hw' hd => ?_)))
        rw [hw] at hw'
        rw [h2] at hd
        cases hw'
        cases hd
        exact hp
      | some p =>
        refine prog_error hk ?_
        obtain ⟨r1, r2⟩ := read_two_texts hh hF hw hp
        cases hx : parsePAutText e.order e.addr (findState o.names p) p.toTPda si with
        | error => exact r1 hx
        | undefined => exact absurd (c80_undefined e.order ha hx).1 hi
        | ok x =>
          rcases hb with hb | hb
          · obtain ⟨as, has, -⟩ := c80_only e.order ha hx
            exact absurd has (hb as)
          · refine r2 x hx ?_
            exact c80_error_partial e.order ha _ hb hf
  · exact c85_refused hk hh.sep h1 (.inl hF)

/-- C85, errors: the automata name a state that the PDA does not have. Otherwise the instance is read. -/
theorem c85_states (ha : ∀ k, Function.Injective (e.addr k)) (hk : Works o) {si sf : List Char} (hh : Holds e w o pda (.text si sf))
    (hf : SameWord o.format "pdaaal") {k : WKind} (hw : getWeightType o.weight = some k) (ho : IsObject pda) {p : NPda String String k.Carrier}
    (hp : parsePda k.io o.names pda = some p) {ini fin : List (PAtom String String)} (hsi : AtomsText ini si) (hsf : AtomsText fin sf) :
    (BadState o.names p ini ∨ BadState o.names p fin → prog e w o = ⟨.thrown, some [], w.files⟩) ∧
    (¬ BadState o.names p ini → ¬ BadState o.names p fin → ∃ i, readInstance e w o = .ok i ∧ i.kind = k ∧ i.names = o.names) := by
  obtain ⟨h1, h2, h3⟩ := c77_wellformed k.io ho hp
  have hnone := parseInstance_none e.order ha p.toTPda (findState_lt h3) h1 ini fin (atoms_ne hsi) (atoms_ne hsf)
  obtain ⟨r1, r2⟩ := read_two_texts hh hf hw hp
  have e1 := c80_text (find := findState o.names p) e.order ha p.toTPda hsi
  unfold parseInstance at hnone
  cases hx : parsePAut e.order e.addr (findState o.names p) p.toTPda ini with
  | none =>
    rw [hx] at hnone e1
    refine ⟨fun _ => prog_error hk (r1 e1), fun n1 n2 => ?_⟩
    exact ((hnone.1 rfl).elim n1 n2).elim
  | some x =>
    rw [hx] at hnone e1
    have hfs := find_same (o := o) ha ho hp e1
    have e2 := c80_text (find := findState o.names p) e.order ha x.1 hsf
    cases hy : parsePAut e.order e.addr (findState o.names p) x.1 fin with
    | none =>
      rw [hy] at e2
      simp only [Option.bind_some, hy] at hnone
      refine ⟨fun _ => prog_error hk (r2 x e1 (by rw [hfs]; exact e2)), fun n1 n2 => ?_⟩
      exact ((hnone.1 rfl).elim n1 n2).elim
    | some y =>
      rw [hy] at e2
      simp only [Option.bind_some, hy] at hnone
      refine ⟨fun hb => ?_, fun _ _ => ?_⟩
      · exact absurd (hnone.2 hb) (by simp)
      · exact ⟨_, read_texts hh hf hw hp e1 (by rw [hfs]; exact e2), rfl, rfl⟩

end Refused

/-! ## Printing a PDA -/

theorem move_id {S L W : Type} (m : StackMove S L W) : m.map id id = m := by
  cases m
  simp [StackMove.map]

theorem read_printPda (e : ProgEnv) (w : World) (o : ProgOpts) (s : String) : readInstance e w { o with printPda := s } = readInstance e w o := rfl

/-- C85: what is printed with `--print-pda` is a PDA with the same rules, for the labels that occur in rules. The full statement is for all PDAs and
labels; see C48. -/
theorem c85_pda_partial {e : ProgEnv} {w : World} {o : ProgOpts} (hk : Works o) (hc : CanPrint w o) {i : Inst} (hr : readInstance e w o = .ok i)
    (hp : o.printPda ≠ "") (hd : o.printPda ≠ o.printInstance) (ht : TypedOK i.pda.toTPda) (hn : NamesOK i.names i.pda) (hstar : NoStar id i.pda.toTPda)
    (hw : WeightsReadable i.kind.io i.pda.toTPda) :
    ∃ es p, (prog e w o).files o.printPda = some (e.dump es ++ ['\n']) ∧ parsePda i.kind.io i.names es = some p ∧
      (∀ l, l ∈ p.labels ↔ Used i.pda.toTPda l) ∧
      (i.names = false → ∀ m, IsMove p.toTPda m ↔ m.pre ∈ p.labels ∧ IsMove i.pda.toTPda m) ∧
      (i.names = true → ∀ m, IsNMove p m ↔ m.pre ∈ p.labels ∧ IsNMove i.pda m) := by
  refine ⟨i.pdaJson, ?_⟩
  have hfile := (c85_printed hk hc hr).2 hp hd
  unfold Inst.pdaJson at hfile ⊢
  cases hb : i.names with
  | false =>
    rw [hb] at hfile
    simp only [Bool.false_eq_true, if_false] at hfile ⊢
    obtain ⟨p, h1, -, h2, h3⟩ := c48_numbered_partial i.kind.io id ht hstar hw
    refine ⟨p, hfile, h1, fun l => (h2 l).trans ⟨?_, fun h => ⟨l, h, rfl⟩⟩, fun _ m => (h3 m).trans (and_congr_right fun _ => ⟨?_, fun h => ⟨m, h, (move_id m).symm⟩⟩),
      fun h => by cases h⟩
    · rintro ⟨a, ha, rfl⟩; exact ha
    · rintro ⟨a, ha, rfl⟩; rw [move_id]; exact ha
  | true =>
    rw [hb] at hfile
    simp only [if_true] at hfile ⊢
    obtain ⟨n1, n2⟩ := hn hb
    obtain ⟨p, h1, -, -, -, h2, h3⟩ := c48_named_partial i.kind.io id id ht ⟨by omega, by rw [List.map_id]; exact n1⟩ hstar hw
    refine ⟨p, hfile, h1, fun l => (h2 l).trans ⟨?_, fun h => ⟨l, h, rfl⟩⟩, (fun h => by cases h),
      fun _ m => (h3 m).trans (and_congr_right fun _ => ⟨?_, fun h => ⟨m, h, (move_id m).symm⟩⟩)⟩
    · rintro ⟨a, ha, rfl⟩; exact ha
    · rintro ⟨a, ha, rfl⟩; rw [move_id]; exact ha

/-! ## Cases -/

def pdaOpts (engine : Nat) : ProgOpts := { sumOpts engine .none "" with printPda := "out" }

/-- `--print-pda out` for the PDA of `sumInst`. -/
example (engine : Nat) : ∃ es p, (prog (sumEnv 0) sumWorld (pdaOpts engine)).files (pdaOpts engine).printPda = some ((sumEnv 0).dump es ++ ['\n']) ∧
    parsePda sumInst.kind.io sumInst.names es = some p ∧ ∀ m, IsMove p.toTPda m ↔ m.pre ∈ p.labels ∧ IsMove sumInst.pda.toTPda m := by
  obtain ⟨es, p, h1, h2, -, h3, -⟩ := c85_pda_partial (e := sumEnv 0) (w := sumWorld) (o := pdaOpts engine) (i := sumInst) ⟨rfl, rfl⟩
    ⟨fun _ => rfl, fun h => absurd rfl h⟩ ((read_printPda _ _ _ "out").trans (sum_read 0 engine .none "")) (by decide : "out" ≠ "") (by decide : "out" ≠ "") ⟨by decide, sumInst_ok.wf⟩
    sumInst_ok.stateNames sumInst_ok.noStar sumInst_ok.weights
  exact ⟨es, p, h1, h2, h3 rfl⟩

/-- `--weight float` is refused. -/
example : prog (sumEnv 0) sumWorld { sumOpts 1 .none "" with weight := "float".toList } = ⟨.thrown, some [], sumWorld.files⟩ :=
  c85_refused ⟨rfl, rfl⟩ ⟨rfl, (by decide : "p" ≠ ""), (by decide : "i" ≠ ""), (by decide : "f" ≠ "")⟩ (text := ['P']) ((if_neg (by decide : "p" ≠ "-")).trans rfl)
    (.inr (.inl ⟨by unfold SameWord; decide, by unfold SameWord; decide, by unfold SameWord; decide⟩))

/-- The states 0 and 1 of `sumFilePda` exist. -/
example : ∃ i, readInstance (sumEnv 0) sumWorld (sumOpts 1 .none "") = .ok i ∧ i.kind = .uint ∧ i.names = false := by
  have good : ∀ q : PAtom String String, ∀ s, q.states = [s] → s.quoted = false → (∃ c, findState false sumFilePda s.name = some (some c)) →
      ¬ BadState false sumFilePda [q] := by
    rintro q s hq hs ⟨c, hc⟩ ⟨a, ha, s', hs', h⟩
    rw [List.mem_singleton.1 ha, hq] at hs'
    rw [List.mem_singleton.1 hs', hc] at h
    rcases h with h | ⟨h, -⟩ <;> cases h
  exact (c85_states (k := .uint) exprAddr_inj ⟨rfl, rfl⟩ (sum_holds 0 1 .none "") sum_format rfl (object_in sumDoc_object "pda") sumDoc_read fileIni_text
    fileFin_text).2 (good _ ⟨false, "0"⟩ rfl rfl ⟨0, sumFile_find.1⟩) (good _ ⟨false, "1"⟩ rfl rfl ⟨1, sumFile_find.2⟩)

/-- A final automaton in the file `g`: `<7,[a]>`, or something that is no text of a P-automaton. -/
def sevenWorld (s : List Char) : World := { sumWorld with files := fun f => if f = "g" then some s else sumWorld.files f }

def sevenOpts : ProgOpts := { sumOpts 1 .none "" with final := "g" }

theorem seven_holds (s : List Char) : Holds (sumEnv 0) (sevenWorld s) sevenOpts (pdaDoc sumDoc) (.text "<0,[a]>".toList s) where
  sep := ⟨rfl, (by decide : "p" ≠ ""), (by decide : "i" ≠ ""), (by decide : "g" ≠ "")⟩
  pda := ⟨['P'], (if_neg (by decide : "p" ≠ "-")).trans rfl, by unfold sumEnv; simp only [if_true]⟩
  automata := ⟨rfl, rfl, rfl⟩

def sevenFin : List (PAtom String String) := [⟨[⟨false, "7"⟩], some (.one (.one (.mk (.set false "a" []) none)))⟩]

theorem sevenFin_text : AtomsText sevenFin "<7,[a]>".toList :=
  ⟨_, _, .nil _, .one ⟨"7,[a]>".toList, "7,[a]>".toList, ",[a]>".toList, "[a]>".toList, rfl, .nil _, .inl ⟨_, rfl, by rfl, .inl ⟨by decide, by decide⟩⟩, .nil _,
    "[a]>".toList, ">".toList, .nil _, ⟨"a]>".toList, rfl, .one ⟨by decide, by unfold NameChar; decide, by rfl⟩⟩, .nil _⟩, .nil _⟩

/-- `sumFilePda` has no state 7. -/
example : prog (sumEnv 0) (sevenWorld "<7,[a]>".toList) sevenOpts = ⟨.thrown, some [], (sevenWorld "<7,[a]>".toList).files⟩ :=
  (c85_states (k := .uint) exprAddr_inj ⟨rfl, rfl⟩ (seven_holds _) sum_format rfl (object_in sumDoc_object "pda") sumDoc_read fileIni_text sevenFin_text).1
    (.inr ⟨_, List.mem_singleton.2 rfl, _, List.mem_singleton.2 rfl, .inr ⟨by decide +kernel, rfl⟩⟩)

theorem no_bar {s : List Char} (h : '|' ∉ s) : ¬ DanglingBar s := by
  rintro ⟨pre, c, w, t, u, rfl, -, hg, -⟩
  have h1 : '|' ∈ w := (RegexText.gap_suffix hg).subset (by simp)
  exact h (by simp [h1])

/-- The text `<` is no P-automaton. -/
example : prog (sumEnv 0) (sevenWorld ['<']) sevenOpts = ⟨.thrown, some [], (sevenWorld ['<']).files⟩ :=
  c85_syntax_partial exprAddr_inj ⟨rfl, rfl⟩ (seven_holds _) (object_in sumDoc_object "pda")
    (.inr fun as h => by
      have h1 := PAutText.file_ok h
      have h2 : (match PAutText.file ['<'] with | .ok _ _ => true | _ => false) = false := by decide +kernel
      rw [h1] at h2
      cases h2)
    (no_bar (by decide)) (no_bar (by decide))

end Verif.Props
