import Verif.Spec.PExpr

/-!
# Specification: how regular expressions are written

A relation between an expression, a text, and the rest of the text behind the expression. Nothing here refers to the parser.
-/

namespace Verif

/-- White space: blank, line feed, carriage return, tabs and form feed. -/
def Blank1 (c : Char) : Prop := c ∈ [' ', '\n', '\r', '\t', '\x0b', '\x0c']

/-- Letters, digits and the underscore. -/
def NameChar (c : Char) : Prop := c.isAlphanum = true ∨ c = '_'

/-- White space and comments. A comment begins with `#` and ends with the line or the text. -/
inductive Gap : List Char → List Char → Prop where
  | nil (s : List Char) : Gap s s
  | blank {c : Char} {s r : List Char} : Blank1 c → Gap s r → Gap (c :: s) r
  | comment {body s r : List Char} : '\n' ∉ body → Gap s r → Gap ('#' :: (body ++ '\n' :: s)) r
  | last {body : List Char} : '\n' ∉ body → Gap ('#' :: body) []

/-- A label. -/
def NameText (l : String) (s r : List Char) : Prop := l.toList ≠ [] ∧ (∀ c ∈ l.toList, NameChar c) ∧ s = l.toList ++ r

/-- One or more with a separator between them, and white space only around the separators. -/
inductive SepText {A : Type} (sep : Char) (P : A → List Char → List Char → Prop) : List A → List Char → List Char → Prop where
  | one {x s r} : P x s r → SepText sep P [x] s r
  | more {x xs s s1 s2 s3 r} : P x s s1 → Gap s1 (sep :: s2) → Gap s2 s3 → SepText sep P xs s3 r → SepText sep P (x :: xs) s r

/-- The symbols of the operators. -/
def Post.text : Option Post → List Char
  | none => []
  | some .star => ['*']
  | some .plus => ['+']
  | some .question => ['?']

mutual
/-- `.`, `[a,b]`, `[^a,b]` or an expression in brackets. -/
def SVal.Text : SVal String → List Char → List Char → Prop
  | .dot, s, r => s = '.' :: r
  | .set neg l ls, s, r => ∃ s1, s = '[' :: ((if neg then ['^'] else []) ++ s1) ∧ SepText ',' NameText (l :: ls) s1 (']' :: r)
  | .group e, s, r => ∃ s1 s2 s3, s = '(' :: s1 ∧ Gap s1 s2 ∧ e.Text s2 s3 ∧ Gap s3 (')' :: r)
/-- The operator follows immediately. -/
def SUn.Text : SUn String → List Char → List Char → Prop
  | .mk v p, s, r => v.Text s (Post.text p ++ r)
/-- One after the other, with or without white space. -/
def SSeq.Text : SSeq String → List Char → List Char → Prop
  | .one u, s, r => u.Text s r
  | .more u q, s, r => ∃ s1 s2, u.Text s s1 ∧ Gap s1 s2 ∧ q.Text s2 r
/-- Alternatives with `|` between them. -/
def SAlt.Text : SAlt String → List Char → List Char → Prop
  | .one q, s, r => q.Text s r
  | .more q a, s, r => ∃ s1 s2 s3, q.Text s s1 ∧ Gap s1 ('|' :: s2) ∧ Gap s2 s3 ∧ a.Text s3 r
end

/-- An expression or nothing, with white space around it. -/
def ExprText (e : Option (SAlt String)) (s r : List Char) : Prop :=
  match e with
  | none => Gap s r
  | some e => ∃ s1 s2, Gap s s1 ∧ e.Text s1 s2 ∧ Gap s2 r

/-- The last character of an expression. -/
abbrev exprEnds : List Char := ['.', ')', ']', '*', '+', '?']

/-- A `|` behind an expression but before none: after white space and comments, there is no `.`, `(` or `[`. -/
def DanglingBar (s : List Char) : Prop :=
  ∃ pre c w t u, s = pre ++ c :: w ∧ c ∈ exprEnds ∧ Gap w ('|' :: t) ∧ Gap t u ∧
    ∀ d r, u = d :: r → ¬ Blank1 d ∧ d ∉ ['#', '.', '(', '[']

end Verif
