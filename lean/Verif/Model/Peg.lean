/-!
# The parts of PEGTL that the grammars use

PEGTL is a library and not part of the repository. A rule reads the beginning of the text and succeeds, fails, or fails for good by
throwing `parse_error` (`must`). The actions attached to the rules run when a rule succeeds, and they are not undone if a rule around it
fails later; this is modelled by the log of the actions, which is also part of a failure. Texts are lists of characters, so bytes that
are not valid UTF-8 are left out.
-/

namespace Verif

variable {A : Type}

/-- What a rule ends with: the rest of the text, and the actions that have been run. -/
inductive Peg (A : Type) where
  | ok (rest : List Char) (log : List A)
  | fail (log : List A)
  | throw (log : List A)

/-- A rule of a grammar. -/
abbrev PRule (A : Type) := List Char → Peg A

namespace Peg

/-- The actions `l` have been run before. -/
def after (l : List A) : Peg A → Peg A
  | .ok r k => .ok r (l ++ k)
  | .fail k => .fail (l ++ k)
  | .throw k => .throw (l ++ k)

/-- One character of a class (`one`, `space`, `digit`, `identifier_other`, NfaParserGrammar.h:37-44, 48, 69). -/
def sat (f : Char → Bool) : PRule A
  | [] => .fail []
  | c :: r => if f c then .ok r [] else .fail []

/-- `one<c>`. -/
def one (c : Char) : PRule A := sat (· == c)

/-- `eof`. -/
def eof : PRule A
  | [] => .ok [] []
  | _ => .fail []

/-- `seq<p, q>`. -/
def seq (p q : PRule A) : PRule A := fun s =>
  match p s with
  | .ok r l => after l (q r)
  | .fail l => .fail l
  | .throw l => .throw l

/-- `sor<p, q>`: `q` is tried where `p` began. -/
def sor (p q : PRule A) : PRule A := fun s =>
  match p s with
  | .ok r l => .ok r l
  | .fail l => after l (q s)
  | .throw l => .throw l

/-- `opt<p>`. -/
def opt (p : PRule A) : PRule A := fun s =>
  match p s with
  | .ok r l => .ok r l
  | .fail l => .ok s l
  | .throw l => .throw l

/-- `must<p>`. -/
def must (p : PRule A) : PRule A := fun s =>
  match p s with
  | .ok r l => .ok r l
  | .fail l => .throw l
  | .throw l => .throw l

/-- `star<p>`, at most `n` rounds. -/
def starN (p : PRule A) : Nat → PRule A
  | 0, s => .ok s []
  | n + 1, s =>
    match p s with
    | .ok r l => after l (starN p n r)
    | .fail l => .ok s l
    | .throw l => .throw l

/-- `star<p>`, where every round reads a character. -/
def star (p : PRule A) : PRule A := fun s => starN p (s.length + 1) s

/-- `plus<p>`. -/
def plus (p : PRule A) : PRule A := seq p (star p)

/-- `pad<p, q>`. -/
def pad (p q : PRule A) : PRule A := seq (star q) (seq p (star q))

/-- `list<p, sep, q>`. -/
def list (p sep q : PRule A) : PRule A := seq p (star (seq (pad sep q) p))

/-- `list_must<p, sep, q>`. -/
def listMust (p sep q : PRule A) : PRule A := seq p (star (seq (pad sep q) (must p)))

/-- `until<eolf>`: up to the end of the line or of the text. -/
def untilEolf : PRule A
  | [] => .ok [] []
  | '\n' :: r => .ok r []
  | '\r' :: '\n' :: r => .ok r []
  | _ :: r => untilEolf r

/-- A rule with an action (`apply0`). -/
def act (a : A) (p : PRule A) : PRule A := fun s =>
  match p s with
  | .ok r l => .ok r (l ++ [a])
  | .fail l => .fail l
  | .throw l => .throw l

/-- A rule with an action on the characters that have been read (`apply`). -/
def actOn (f : String → A) (p : PRule A) : PRule A := fun s =>
  match p s with
  | .ok r l => .ok r (l ++ [f (String.ofList (s.take (s.length - r.length)))])
  | .fail l => .fail l
  | .throw l => .throw l

end Peg

end Verif
