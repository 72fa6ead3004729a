import Verif.Spec.RegexText

/-!
# Specification: how P-automata are written
-/

namespace Verif

/-- A name between quotes: quotes and backslashes have a backslash before them, control characters are not allowed. -/
inductive QuotedText : List Char → List Char → List Char → Prop where
  | nil {r} : QuotedText [] ('"' :: r) r
  | quote {x s r} : QuotedText x s r → QuotedText ('"' :: x) ('\\' :: '"' :: s) r
  | backslash {x s r} : QuotedText x s r → QuotedText ('\\' :: x) ('\\' :: '\\' :: s) r
  | char {c x s r} : c ≠ '"' → c ≠ '\\' → 32 ≤ c.toNat → QuotedText x s r → QuotedText (c :: x) (c :: s) r

/-- A number, an identifier, or a name in quotes. -/
def StateTok.Text (t : StateTok String) (s r : List Char) : Prop :=
  if t.quoted then ∃ s1, s = '"' :: s1 ∧ QuotedText t.name.toList s1 r
  else s = t.name.toList ++ r ∧
    ((t.name.toList ≠ [] ∧ ∀ c ∈ t.name.toList, c.isDigit = true) ∨
      ∃ c u, t.name.toList = c :: u ∧ (c.isAlpha = true ∨ c = '_') ∧ ∀ d ∈ u, NameChar d)

/-- A state, or states in square brackets. -/
def StatesText (ts : List (StateTok String)) (s r : List Char) : Prop :=
  (∃ t, ts = [t] ∧ t.Text s r) ∨ ∃ s1, s = '[' :: s1 ∧ SepText ',' StateTok.Text ts s1 (']' :: r)

/-- `< states , expression >`. -/
def PAtom.Text (a : PAtom String String) (s r : List Char) : Prop :=
  ∃ s1 s2 s3 s4, s = '<' :: s1 ∧ Gap s1 s2 ∧ StatesText a.states s2 s3 ∧ Gap s3 (',' :: s4) ∧ ExprText a.expr s4 ('>' :: r)

/-- Atoms with `|` between them, with white space around. -/
def AtomsText (as : List (PAtom String String)) (s : List Char) : Prop :=
  ∃ s1 s2, Gap s s1 ∧ SepText '|' PAtom.Text as s1 s2 ∧ Gap s2 []

end Verif
