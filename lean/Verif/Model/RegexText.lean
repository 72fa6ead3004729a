import Verif.Model.Peg
import Verif.Model.PAutParser

/-!
# NfaParserGrammar.h, NfaParser.cpp: regular expressions as text

The rules of the grammar (NfaParserGrammar.h:37-73), character by character, and their actions.
-/

namespace Verif

open Peg

/-- The actions of the grammar (NfaParserGrammar.h:173-237). -/
inductive NAct where
  | neg | label (l : String) | set | dot | open | close | post (p : Post) | unary | seq | or | alt
  deriving DecidableEq, Repr

namespace RegexText

/-- `pegtl::space`. -/
def isSpace (c : Char) : Bool := c == ' ' || c == '\n' || c == '\r' || c == '\t' || c == '\x0b' || c == '\x0c'

/-- `pegtl::identifier_other`. -/
def isName (c : Char) : Bool := c.isAlphanum || c == '_'

variable {A : Type}

/-- `comment` (NfaParserGrammar.h:70). -/
def comment : PRule A := Peg.seq (one '#') untilEolf

/-- `ignored<comment>` (NfaParserGrammar.h:45-46). -/
def ignored : PRule A := sor (sat isSpace) comment

/-- `label` (NfaParserGrammar.h:69) with its action (173-177). -/
def label : PRule NAct := actOn .label (plus (sat isName))

/-- `label_set<label, comment>` (NfaParserGrammar.h:64) with its action (178-182) and that of `negation` (198-202). -/
def labelSet : PRule NAct :=
  act .set (Peg.seq (one '[') (Peg.seq (must (opt (act .neg (one '^')))) (Peg.seq (must (listMust label (one ',') ignored)) (must (one ']')))))

/-- `bracket` (NfaParserGrammar.h:50) around the expression `e`, with the actions (188-197). -/
def bracket (e : PRule NAct) : PRule NAct :=
  Peg.seq (act .open (one '(')) (Peg.seq (must (pad e ignored)) (must (act .close (one ')'))))

/-- `value_expr` (NfaParserGrammar.h:52). -/
def value (e : PRule NAct) : PRule NAct := sor (act .dot (one '.')) (sor (bracket e) labelSet)

/-- `star_symbol`, `plus_symbol` and `question_symbol` (NfaParserGrammar.h:41-43) with their actions (203-217). -/
def postfix_ : PRule NAct :=
  sor (act (.post .star) (one '*')) (sor (act (.post .plus) (one '+')) (act (.post .question) (one '?')))

/-- `unary_expr` (NfaParserGrammar.h:54) with its action (218-222). -/
def unary (e : PRule NAct) : PRule NAct := act .unary (Peg.seq (value e) (opt postfix_))

/-- `seq_expr` (NfaParserGrammar.h:56) with its action (223-227). -/
def seqExpr (e : PRule NAct) : PRule NAct :=
  act .seq (Peg.seq (unary e) (Peg.star (Peg.seq (Peg.star ignored) (unary e))))

/-- `nfa_expr` (NfaParserGrammar.h:58) with its action (233-237) and that of `or_symbol` (228-232). The number bounds the depth of
brackets; a text has no more than characters. -/
def nfaExpr : Nat → PRule NAct
  | 0 => fun _ => .throw []
  | n + 1 => act .alt (list (seqExpr (nfaExpr n)) (act .or (one '|')) ignored)

/-- `nfa_expr_or_empty` with white space around it (NfaParserGrammar.h:60, 73). -/
def nfaPadded : PRule NAct := fun s => pad (opt (nfaExpr (s.length + 1))) ignored s

/-- `nfa_file<>` (NfaParserGrammar.h:72). -/
def nfaFile : PRule NAct := Peg.seq (must nfaPadded) (must eof)

end RegexText

/-- The members of `NfaBuilder` (NfaParserGrammar.h:163-167); `env` is what the label function works on. -/
structure RState (E : Type) where
  env : E
  b : Builder := {}
  neg : Bool := false
  set : List Nat := []

/-- One action; `none` is undefined behaviour. -/
def RState.act {E : Type} (addr : Nat → Nat) (lab : E → String → E × Nat) (s : RState E) : NAct → Option (RState E)
  | .neg => some { s with neg := true }
  | .label l => some { s with env := (lab s.env l).1, set := s.set ++ [(lab s.env l).2] }
  | .set => some { s with b := s.b.emplaceSet addr (labelSet s.set) s.neg, neg := false, set := [] }
  | .dot => some { s with b := s.b.emplaceSet addr [] true }
  | .open => some { s with b := s.b.pushOp .bracket }
  | .close => (s.b.close addr).map fun b => { s with b := b }
  | .post p => (s.b.post (some p)).map fun b => { s with b := b }
  | .unary => some { s with b := s.b.pushOp .concat }
  | .seq => s.b.reduceConcat.map fun b => { s with b := b }
  | .or => some { s with b := s.b.pushOp .or }
  | .alt => (s.b.reduceOr addr).map fun b => { s with b := b }

/-- The actions in order. -/
def RState.acts {E : Type} (addr : Nat → Nat) (lab : E → String → E × Nat) (l : List NAct) (s : RState E) : Option (RState E) :=
  l.foldlM (RState.act addr lab) s

/-- What a parser ends with: a value, an exception, or undefined behaviour. -/
inductive Parsed (A : Type) where
  | ok (a : A)
  | error
  | undefined

/-- `NfaParser::parse_string` (NfaParser.cpp:34-49, 56-59), where `f` is the label function. Undefined behaviour of an action comes before
an error of a later rule. -/
def parseRegexText (addr : Nat → Nat) (f : String → Nat) (text : List Char) : Parsed Nfa :=
  let run (l : List NAct) := RState.acts addr (fun (_ : Unit) x => ((), f x)) l { env := () }
  match RegexText.nfaFile text with
  | .ok _ l => match (run l).bind fun s => s.b.getNfa addr with
    | some m => .ok m
    | none => .undefined
  | .fail l => if (run l).isSome then .error else .undefined
  | .throw l => if (run l).isSome then .error else .undefined

end Verif
