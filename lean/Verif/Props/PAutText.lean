import Verif.Model.RunText
import Verif.Proofs.PAutTextRun
import Verif.Proofs.RegexUnique
import Verif.Props.RegexText
import Verif.Props.PAutParser
import Verif.Props.Verifier

/-! # C80: P-automata as text

What `PAutomatonParser::parse_string` makes of a text, character by character. -/

namespace Verif.Props

open Verif RegexText Peg

section Text
variable {W : Type} {addr : Nat → Nat → Nat} {find : String → Option (Option Nat)}

/-- The outcome of the syntax trees. -/
def treesOutcome {A : Type} : Option A → Parsed A
  | some x => .ok x
  | none => .error

/-- C80: the text of a P-automaton is read as its syntax trees are. -/
theorem c80_text [Zero W] (h : HashOrder) (ha : ∀ k, Function.Injective (addr k)) (t : TPda String W) {as : List (PAtom String String)}
    {text : List Char} (ht : AtomsText as text) : parsePAutText h addr find t text = treesOutcome (parsePAut h addr find t as) := by
  unfold parsePAutText parsePAut
  rw [PAutText.file_ok ht]
  simp only []
  rcases PRun.acts_atoms h addr find ha as { b := { pda := t }, r := { env := t } } with ⟨b, s', h1, h2, h3⟩ | ⟨h1, h2⟩
  · simp only [] at h1
    rw [h1, h2]
    subst h3
    simp only [Option.bind_some]
    cases s'.b.cur <;> rfl
  · simp only [] at h1
    rw [h1, h2]
    rfl

/-- C80: a text is the text of at most one P-automaton. -/
theorem c80_unique {as as' : List (PAtom String String)} {text : List Char} (h : AtomsText as text) (h' : AtomsText as' text) : as = as' := by
  have h1 := PAutText.file_ok h
  rw [PAutText.file_ok h'] at h1
  injection h1 with _ h1
  exact (PAutText.plog_inj _ _ h1).symm

/-- C80: only texts of P-automata are read. -/
theorem c80_only [Zero W] (h : HashOrder) (ha : ∀ k, Function.Injective (addr k)) {t : TPda String W} {text : List Char}
    {x : TPda String W × Aut W} (hp : parsePAutText h addr find t text = .ok x) :
    ∃ as, AtomsText as text ∧ parsePAut h addr find t as = some x := by
  cases hf : PAutText.file text with
  | ok r l =>
    obtain ⟨as, h1, -⟩ := PAutText.file_inv hf
    refine ⟨as, h1, ?_⟩
    rw [c80_text h ha t h1] at hp
    cases hs : parsePAut h addr find t as with
    | none => rw [hs] at hp; cases hp
    | some y => rw [hs] at hp; cases hp; rfl
  | fail l =>
    unfold parsePAutText at hp
    rw [hf] at hp
    simp only [] at hp
    split at hp <;> cases hp
  | throw l =>
    unfold parsePAutText at hp
    rw [hf] at hp
    simp only [] at hp
    split at hp <;> cases hp

/-- C80: other texts are rejected, unless they have a `|` behind an expression and before none. The full statement is without this
exception and fails, see `c80_bar`. -/
theorem c80_error_partial [Zero W] (h : HashOrder) (ha : ∀ k, Function.Injective (addr k)) (t : TPda String W) {text : List Char}
    (hn : ∀ as, ¬ AtomsText as text) (hd : ¬ DanglingBar text) : parsePAutText h addr find t text = .error := by
  have hs := PAutText.safe_file (W := W) (h := h) (find := find) ha text hd { b := { pda := t }, r := { env := t } }
  unfold parsePAutText
  cases hf : PAutText.file text with
  | ok r l =>
    obtain ⟨as, h1, -⟩ := PAutText.file_inv hf
    exact absurd h1 (hn as)
  | fail l =>
    rw [hf] at hs
    simp only [PAutText.logOf] at hs
    simp only []
  | throw l =>
    rw [hf] at hs
    simp only [PAutText.logOf] at hs
    simp only []

/-- C80: whatever the text, the outcome is undefined only if a `|` stands behind an expression and before none. -/
theorem c80_undefined [Zero W] (h : HashOrder) (ha : ∀ k, Function.Injective (addr k)) {t : TPda String W} {text : List Char}
    (hp : parsePAutText h addr find t text = .undefined) : DanglingBar text ∧ ∀ as, ¬ AtomsText as text := by
  have h1 : ∀ as, ¬ AtomsText as text := by
    intro as has
    rw [c80_text h ha t has] at hp
    cases hs : parsePAut h addr find t as <;> rw [hs] at hp <;> cases hp
  refine ⟨?_, h1⟩
  by_contra hd
  rw [c80_error_partial h ha t h1 hd] at hp
  cases hp

/-- C80: the automaton that is read from a text accepts what the text describes, see `c72_language_partial`. -/
theorem c80_language_partial [Zero W] (h h' : HashOrder) (ha : ∀ k, Function.Injective (addr k)) {t t' : TPda String W}
    (hfind : ∀ s c, find s = some (some c) → c < t.states.length) (hn : t.labels.Nodup) {as : List (PAtom String String)}
    {text : List Char} (ht : AtomsText as text) (hok : ∀ a ∈ as, a.ok = true) {a : Aut W}
    (hp : parsePAutText h addr find t text = .ok (t', a)) :
    ∀ c, c < t'.states.length → ∀ w,
      (a.accepts h' c w = true ↔ ∃ ls, Numbers t' w ls ∧ DescribedBy find t.labels as c ls) := by
  obtain ⟨as', h1, h2⟩ := c80_only h ha hp
  cases c80_unique ht h1
  exact c72_language_partial h h' ha t hfind hn as hok h2

/-- C80: the program on two texts does what it does on their syntax trees. -/
theorem c80_run [LinearOrder W] [Zero W] (h h' : HashOrder) (ha : ∀ k, Function.Injective (addr k)) (t : TPda String W)
    {ini fin : List (PAtom String String)} {si sf : List Char} (hi : AtomsText ini si) (hf : AtomsText fin sf) (engine : Nat) (any : Bool) :
    runText h h' addr find t si sf engine any = runPlain h h' addr find t ini fin engine any := by
  unfold runText runPlain parseInstance
  rw [c80_text h ha t hi]
  cases h1 : parsePAut h addr find t ini with
  | none => rfl
  | some x =>
    simp only [treesOutcome, Option.bind_some]
    rw [c80_text h ha x.1 hf]
    cases h2 : parsePAut h addr find x.1 fin with
    | none => rfl
    | some y => rfl

/-- C80: if one of the two texts is not a P-automaton, the program stops with an error, unless a `|` dangles in one of them. -/
theorem c80_run_error_partial [LinearOrder W] [Zero W] (h h' : HashOrder) (ha : ∀ k, Function.Injective (addr k)) (t : TPda String W)
    {si sf : List Char} (hb : (∀ as, ¬ AtomsText as si) ∨ ∀ as, ¬ AtomsText as sf) (hi : ¬ DanglingBar si) (hf : ¬ DanglingBar sf)
    (engine : Nat) (any : Bool) : runText h h' addr find t si sf engine any = .error := by
  unfold runText
  cases h1 : parsePAutText h addr find t si with
  | error => rfl
  | undefined => exact absurd (c80_undefined h ha h1).1 hi
  | ok x =>
    rcases hb with hb | hb
    · obtain ⟨as, h2, -⟩ := c80_only h ha h1
      exact absurd h2 (hb as)
    · simp only []
      rw [c80_error_partial h ha x.1 hb hf]

/-- C80: what the program reports for two texts is right, with the conditions of `c73_report_partial`. -/
theorem c80_report_partial [LinearOrder W] [Zero W] (h h' : HashOrder) (ha : ∀ k, Function.Injective (addr k)) (t : TPda String W)
    (hfind : ∀ s c, find s = some (some c) → c < t.states.length) (hn : t.labels.Nodup) (hp : t.core.WF)
    {ini fin : List (PAtom String String)} {si sf : List Char} (hsi : AtomsText ini si) (hsf : AtomsText fin sf)
    (hok : ∀ x ∈ ini ++ fin, x.ok = true) {t' : TPda String W} {a b : Aut W}
    (hi : parseInstance h addr find t ini fin = some (t', a, b)) (hl : t'.labels.length < epsilon)
    (engine : Nat) (he : 1 ≤ engine ∧ engine ≤ 3) (hk : engine = 1 ∨ t.core.LookupOK) (any : Bool)
    (hm : any = true → StatesFit (searched h t'.core a b engine)) :
    ∃ r, runText h h' addr find t si sf engine any = .report r ∧
      Right find (· ∈ t'.allRules) t.labels ini fin (["post*", "pre*", "dual*"].getD (engine - 1) "") any r := by
  rw [c80_run h h' ha t hsi hsf]
  exact c73_report_partial h h' ha t hfind hn hp ini fin hok hi hl engine he hk any hm

end Text

/-! ## Cases -/

/-- `< [0, "1"] , [a]* > | <1,> # end`. -/
def ptextEx : List Char := "< [0, \"1\"] , [a]* > | <1,> # end".toList

def ptextTrees : List (PAtom String String) :=
  [⟨[⟨false, "0"⟩, ⟨true, "1"⟩], some (.one (.one (.mk (.set false "a" []) (some .star))))⟩, ⟨[⟨false, "1"⟩], none⟩]

theorem ptextEx_text : AtomsText ptextTrees ptextEx := by
  have n1 : ∀ r, NameText "a" ('a' :: r) r := fun r => ⟨by decide, by unfold NameChar; decide, by rfl⟩
  have d0 : ∀ r, (StateTok.mk false "0").Text ('0' :: r) r := fun r => ⟨by rfl, .inl ⟨by decide, by decide⟩⟩
  have d1 : ∀ r, (StateTok.mk false "1").Text ('1' :: r) r := fun r => ⟨by rfl, .inl ⟨by decide, by decide⟩⟩
  have q1 : ∀ r, (StateTok.mk true "1").Text ('"' :: '1' :: '"' :: r) r := fun r =>
    ⟨_, rfl, .char (by decide) (by decide) (by decide) .nil⟩
  refine ⟨ptextEx, " # end".toList, .nil _, ?_, blank_gap (.last (body := " end".toList) (by decide))⟩
  refine .more (s1 := " | <1,> # end".toList) (s2 := " <1,> # end".toList) (s3 := "<1,> # end".toList) ?_ (blank_gap (.nil _)) (blank_gap (.nil _)) (.one ?_)
  · refine ⟨" [0, \"1\"] , [a]* > | <1,> # end".toList, "[0, \"1\"] , [a]* > | <1,> # end".toList, " , [a]* > | <1,> # end".toList,
      " [a]* > | <1,> # end".toList, rfl, blank_gap (.nil _), .inr ⟨"0, \"1\"] , [a]* > | <1,> # end".toList, rfl, ?_⟩, blank_gap (.nil _), ?_⟩
    · exact .more (d0 _) (.nil _) (blank_gap (.nil _)) (.one (q1 _))
    · exact ⟨"[a]* > | <1,> # end".toList, " > | <1,> # end".toList, blank_gap (.nil _), ⟨"a]* > | <1,> # end".toList, rfl, .one (n1 _)⟩,
        blank_gap (.nil _)⟩
  · exact ⟨"1,> # end".toList, "1,> # end".toList, ",> # end".toList, "> # end".toList, rfl, .nil _, .inl ⟨_, rfl, d1 _⟩, .nil _, .nil _⟩

/-- It is read, and meets the condition on `*` and `?`. -/
example : ∀ a ∈ ptextTrees, a.ok = true := by decide

/-- The names are numbers of two states. -/
def ptextFind : String → Option (Option Nat) := fun s => if s = "0" then some (some 0) else if s = "1" then some (some 1) else some none

def ptextPda : TPda String Unit := ⟨["a"], [{}, {}]⟩

example : ∃ x, parsePAutText HashOrder.id exprAddr ptextFind ptextPda ptextEx = .ok x := by
  have hx := c80_text (find := ptextFind) HashOrder.id exprAddr_inj ptextPda ptextEx_text
  have hne : parsePAut HashOrder.id exprAddr ptextFind ptextPda ptextTrees ≠ none := by
    rw [Ne, c72_errors HashOrder.id exprAddr_inj ptextPda (by
      intro s c h
      unfold ptextFind at h
      split at h
      · cases h; decide
      · split at h
        · cases h; decide
        · cases h) _ (by simp [ptextTrees])]
    rintro ⟨a, ha, s, hs, h⟩
    revert h
    simp only [ptextTrees, List.mem_cons, List.not_mem_nil, or_false] at ha
    rcases ha with rfl | rfl
    · simp only [List.mem_cons, List.not_mem_nil, or_false] at hs
      rcases hs with rfl | rfl <;> decide
    · simp only [List.mem_cons, List.not_mem_nil, or_false] at hs
      subst hs; decide
  obtain ⟨x, h⟩ := Option.ne_none_iff_exists'.1 hne
  exact ⟨x, by rw [hx, h]; rfl⟩

/-- C80 fails in full: with a dangling `|` the outcome is undefined and not an error. -/
theorem c80_bar : parsePAutText HashOrder.id (fun _ k => k) ptextFind ptextPda "<0,[a]|>".toList = .undefined ∧
    ∀ as, ¬ AtomsText as "<0,[a]|>".toList := by
  have h : parsePAutText HashOrder.id (fun _ k => k) ptextFind ptextPda "<0,[a]|>".toList = .undefined :=
    isUndefined_eq (by decide +kernel)
  exact ⟨h, (c80_undefined HashOrder.id (fun _ _ _ h => h) h).2⟩

/-- `c80_error_partial` applies to `<0,[a](>`. -/
example : ¬ DanglingBar "<0,[a](>".toList := by
  rintro ⟨pre, c, w, t, u, h, -, hg, -⟩
  have h1 : '|' ∈ w := (gap_suffix hg).subset (by simp)
  have h2 : '|' ∈ "<0,[a](>".toList := by rw [h]; simp [h1]
  revert h2
  decide

/-- The empty text is not a P-automaton. -/
example : ∀ as, ¬ AtomsText as [] := by
  intro as h
  have := PAutText.file_ok h
  have h2 : PAutText.file [] = .throw [] := by rfl
  rw [h2] at this
  cases this

end Verif.Props
