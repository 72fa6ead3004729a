import Verif.Proofs.RegexSound
import Verif.Proofs.RegexRun
import Verif.Proofs.RegexUnique
import Verif.Props.Regex

/-! # C79: regular expressions as text

What `NfaParser::parse_string` makes of a text, character by character. -/

namespace Verif.Props

open Verif RegexText Peg

theorem nfaFile_ok {e : Option (SAlt String)} {text : List Char} (h : ExprText e text []) : nfaFile text = .ok [] (optLog e) := by
  have h1 := nfaPadded_ok h solid_nil (by rintro ⟨c, r, h, -⟩; cases h)
  unfold nfaFile
  rw [seq_ok (must_ok h1), must_ok (show eof (A := NAct) [] = .ok [] [] from rfl)]
  simp [after]

theorem nfaFile_inv {text r : List Char} {l : List NAct} (h : nfaFile text = .ok r l) : ∃ e, ExprText e text [] ∧ l = optLog e := by
  obtain ⟨m, k1, k2, h1, h2, rfl⟩ := seq_inv h
  have h2 := must_inv h2
  cases m with
  | cons c m => simp [eof] at h2
  | nil =>
    simp only [eof, Peg.ok.injEq] at h2
    obtain ⟨-, ⟨e, he, rfl⟩ | ⟨-, t, ht⟩⟩ := nfaPadded_inv (must_inv h1)
    · exact ⟨e, he, by rw [← h2.2]; simp⟩
    · cases ht

/-- The actions of the text of an expression. -/
theorem file_run {addr : Nat → Nat} (ha : Function.Injective addr) (f : String → Nat) (e : Option (SAlt String)) :
    ∃ m s, RState.acts addr (fun (_ : Unit) x => ((), f x)) (optLog e) { env := () } = some s ∧ s.b.getNfa addr = some m ∧
      parseRegex addr (e.map (SAlt.toR f)) = some m := by
  cases e with
  | none => exact ⟨_, _, rfl, rfl, rfl⟩
  | some e =>
    have h1 := SAlt.run_log addr (fun (_ : Unit) x => ((), f x)) e () {}
    rw [SAlt.encWith_pure] at h1
    obtain ⟨n, b1, m, k', g1, g2, g3, g4⟩ := RAlt.acts_spec ha (e.toR f) {} (by simp)
    have h5 : Builder.reduceOr addr b1 = some ⟨[m], [], k'⟩ :=
      Builder.reduceOrLoop_eq addr n _ b1 _ [] g2 (by simp) (by rw [g2]; simp) g3
    have h6 : RAlt.acts addr (e.toR f) {} = some ⟨[m], [], k'⟩ := by
      unfold RAlt.acts
      rw [g1, Option.bind_some, h5]
    rw [h6] at h1
    refine ⟨m, _, h1, rfl, ?_⟩
    simp only [parseRegex, Option.map_some, h6, Option.bind_some]
    rfl

/-- C79: the text of an expression, or of nothing, is read, and it gives the automaton of its syntax tree. -/
theorem c79_text {addr : Nat → Nat} (ha : Function.Injective addr) (f : String → Nat) {e : Option (SAlt String)} {text : List Char}
    (h : ExprText e text []) : ∃ m, parseRegexText addr f text = .ok m ∧ parseRegex addr (e.map (SAlt.toR f)) = some m := by
  obtain ⟨m, s, h1, h2, h3⟩ := file_run ha f e
  refine ⟨m, ?_, h3⟩
  unfold parseRegexText
  rw [nfaFile_ok h]
  simp only [h1, Option.bind_some, h2]

/-- The stacks that an expression or nothing describes. -/
def OptDen (e : Option (SAlt String)) (w : List String) : Prop :=
  match e with
  | none => w = []
  | some e => e.Den w

/-- C79, for expressions in which `*` and `?` are applied only as in C49: the automaton that is read from the text of an expression accepts
exactly the words that the expression describes. The full statement is without this condition and fails, see `c49_wrong`. -/
theorem c79_language_partial {addr : Nat → Nat} (ha : Function.Injective addr) {f : String → Nat} (hf : Function.Injective f)
    {e : Option (SAlt String)} {text : List Char} (h : ExprText e text []) (hok : ∀ a, e = some a → a.ok = true) :
    ∃ m, parseRegexText addr f text = .ok m ∧ m.WF ∧ ∀ w, m.Lang (w.map f) ↔ OptDen e w := by
  obtain ⟨m, h1, h2⟩ := c79_text ha f h
  cases e with
  | none =>
    obtain ⟨m', g1, g2, g3⟩ := c49_empty addr
    rw [Option.map_none, g1] at h2
    cases h2
    exact ⟨m, h1, g2, fun w => by rw [g3]; simp [OptDen]⟩
  | some e =>
    obtain ⟨m', g1, g2, g3⟩ := c49_regex_partial ha (e.toR f)
    rw [Option.map_some, g1] at h2
    cases h2
    refine ⟨m, h1, g2, fun w => ?_⟩
    rw [g3 (by rw [(e.shape_toR f).2.2]; exact hok e rfl)]
    exact SAlt.den_toR (U := fun _ => True) (fun a b _ _ hab => hf hab) e (fun _ _ => trivial) w (fun _ _ => trivial)

/-- C79: only texts of expressions are read. -/
theorem c79_only {addr : Nat → Nat} {f : String → Nat} {text : List Char} {m : Nfa} (h : parseRegexText addr f text = .ok m) :
    ∃ e, ExprText e text [] := by
  unfold parseRegexText at h
  cases hp : nfaFile text with
  | ok r l =>
    obtain ⟨e, he, -⟩ := nfaFile_inv hp
    exact ⟨e, he⟩
  | fail l => rw [hp] at h; simp only [] at h; split at h <;> cases h
  | throw l => rw [hp] at h; simp only [] at h; split at h <;> cases h

/-- C79: a text is the text of at most one expression. -/
theorem c79_unique {e e' : Option (SAlt String)} {text : List Char} (h : ExprText e text []) (h' : ExprText e' text []) : e = e' := by
  have h1 := nfaFile_ok h
  rw [nfaFile_ok h'] at h1
  injection h1 with _ h1
  exact (optLog_inj h1).symm

/-- C79: other texts are rejected, unless they have a `|` behind an expression and before none. The full statement is without this
exception and fails, see `c79_bar`. -/
theorem c79_error_partial {addr : Nat → Nat} (ha : Function.Injective addr) (f : String → Nat) {text : List Char}
    (h : ∀ e, ¬ ExprText e text []) (hd : ¬ DanglingBar text) : parseRegexText addr f text = .error := by
  have key : ∀ l, (∃ a : SAlt String, l <+: a.log) → (RState.acts addr (fun (_ : Unit) x => ((), f x)) l { env := () }).isSome :=
    fun l ⟨a, hl⟩ => acts_prefix _ ha hl ()
  unfold parseRegexText
  cases hp : nfaFile text with
  | ok r l =>
    obtain ⟨e, he, -⟩ := nfaFile_inv hp
    exact absurd he (h e)
  | fail l =>
    exfalso
    rcases seq_fail_inv hp with h | ⟨m, k1, k2, -, h, -⟩
    · exact must_not_fail h
    · exact must_not_fail h
  | throw l =>
    have hl : ∃ a : SAlt String, l <+: a.log := by
      rcases seq_throw_inv hp with h1 | ⟨m, k1, k2, h1, h2, rfl⟩
      · rcases must_throw_inv h1 with h1 | h1
        · exact nfaPadded_throw_inv h1 hd
        · exact absurd h1 nfaPadded_not_fail
      · have hk : k2 = [] := by
          rcases must_throw_inv h2 with h2 | h2
          · cases m <;> simp [eof] at h2
          · cases m <;> simp [eof] at h2; exact h2
        obtain ⟨-, ⟨e, -, rfl⟩ | ⟨hb, -⟩⟩ := nfaPadded_inv (must_inv h1)
        · subst hk
          cases e with
          | none => exact ⟨.one (.one (.mk .dot none)), List.nil_prefix⟩
          | some a => exact ⟨a, by simp [optLog]⟩
        · exact absurd hb hd
    simp only [key l hl, if_true]

/-- C79: whatever the text, the outcome is undefined only if a `|` stands behind an expression and before none. -/
theorem c79_undefined {addr : Nat → Nat} (ha : Function.Injective addr) {f : String → Nat} {text : List Char}
    (h : parseRegexText addr f text = .undefined) : DanglingBar text ∧ ∀ e, ¬ ExprText e text [] := by
  have h1 : ∀ e, ¬ ExprText e text [] := by
    intro e he
    obtain ⟨m, h1, -⟩ := c79_text ha f he
    rw [h1] at h; cases h
  refine ⟨?_, h1⟩
  by_contra hd
  rw [c79_error_partial ha f h1 hd] at h
  cases h

/-! ## Cases -/

/-- ` [a ,b2]* | (.[^c]+) # end`. -/
def textEx : List Char := " [a ,b2]* | (.[^c]+) # end".toList

def textTree : SAlt String :=
  .more (.one (.mk (.set false "a" ["b2"]) (some .star)))
    (.one (.one (.mk (.group (.one (.more (.mk .dot none) (.one (.mk (.set true "c" []) (some .plus)))))) none)))

theorem blank_gap {s r : List Char} (h : Gap s r) : Gap (' ' :: s) r := .blank (by unfold Blank1; decide) h

theorem textEx_text : ExprText (some textTree) textEx [] := by
  have n1 : ∀ r, NameText "a" ('a' :: r) r := fun r => ⟨by decide, by unfold NameChar; decide, by rfl⟩
  have n2 : ∀ r, NameText "b2" ('b' :: '2' :: r) r := fun r => ⟨by decide, by unfold NameChar; decide, by rfl⟩
  have n3 : ∀ r, NameText "c" ('c' :: r) r := fun r => ⟨by decide, by unfold NameChar; decide, by rfl⟩
  refine ⟨"[a ,b2]* | (.[^c]+) # end".toList, " # end".toList, blank_gap (.nil _), ?_, blank_gap (.last (body := " end".toList) (by decide))⟩
  refine ⟨" | (.[^c]+) # end".toList, " (.[^c]+) # end".toList, "(.[^c]+) # end".toList, ?_, blank_gap (.nil _), blank_gap (.nil _), ?_⟩
  · exact ⟨"a ,b2]* | (.[^c]+) # end".toList, rfl, .more (n1 _) (blank_gap (.nil _)) (.nil _) (.one (n2 _))⟩
  · exact ⟨".[^c]+) # end".toList, _, ") # end".toList, rfl, .nil _, ⟨"[^c]+) # end".toList, _, rfl, .nil _,
      ⟨"c]+) # end".toList, rfl, .one (n3 _)⟩⟩, .nil _⟩

/-- The expression is read, and meets the condition on `*` and `?`. -/
example : textTree.ok = true := by decide
example : ∃ m, parseRegexText (fun k => k) (fun s => s.length) textEx = .ok m :=
  (c79_text (fun _ _ h => h) _ textEx_text).imp fun _ h => h.1
example : OptDen (some textTree) ["b2", "a"] :=
  .inl (.app ["b2"] ["a"] ⟨"b2", rfl, by simp⟩ (.app ["a"] [] ⟨"a", rfl, by simp⟩ .nil))

/-- Whether an outcome is undefined, as a value to compute. -/
def _root_.Verif.Parsed.isUndefined {A : Type} : Parsed A → Bool
  | .undefined => true
  | _ => false

/-- Whether an outcome is an error, as a value to compute. -/
def _root_.Verif.Parsed.isError {A : Type} : Parsed A → Bool
  | .error => true
  | _ => false

theorem isUndefined_eq {A : Type} {p : Parsed A} (h : p.isUndefined = true) : p = .undefined := by cases p <;> simp_all [Parsed.isUndefined]
theorem isError_eq {A : Type} {p : Parsed A} (h : p.isError = true) : p = .error := by cases p <;> simp_all [Parsed.isError]

/-- C79 fails in full: `[a]|` is not an expression, but the outcome is undefined and not an error: the automaton on the stack is combined with one
that is not there. -/
theorem c79_bar : parseRegexText (fun k => k) (fun s => s.length) "[a]|".toList = .undefined ∧
    ∀ e, ¬ ExprText e "[a]|".toList [] := by
  have h : parseRegexText (fun k => k) (fun s => s.length) "[a]|".toList = .undefined :=
    isUndefined_eq (by decide +kernel)
  exact ⟨h, (c79_undefined (fun _ _ h => h) h).2⟩

/-- Spaces inside the brackets of a set are errors, although they are allowed around the commas and everywhere else. -/
theorem c79_space : parseRegexText (fun k => k) (fun s => s.length) "[ a]".toList = .error ∧
    parseRegexText (fun k => k) (fun s => s.length) "[a ]".toList = .error ∧
    parseRegexText (fun k => k) (fun s => s.length) "[a] *".toList = .error := by
  exact ⟨isError_eq (by decide +kernel), isError_eq (by decide +kernel), isError_eq (by decide +kernel)⟩

/-- `c79_error_partial` applies to `[a](`. -/
example : ¬ DanglingBar "[a](".toList := by
  rintro ⟨pre, c, w, t, u, h, -, hg, -⟩
  have h1 : '|' ∈ w := (gap_suffix hg).subset (by simp)
  have h2 : '|' ∈ "[a](".toList := by rw [h]; simp [h1]
  revert h2
  decide

end Verif.Props
