import Verif.Model.RegexText

/-!
# parsing/PAutomatonParser.h: P-automata as text

The rules of the grammar (PAutomatonParser.h:37-64), character by character, and their actions.
-/

namespace Verif

open Peg RegexText

/-- The actions of the grammar: those on a state (PAutomatonParser.h:43-46, 85-87, 128-134), the construction and the end of the builder of
an NFA (NfaParserGrammar.h:82-89), its actions, and `finish_atom` (PAutomatonParser.h:135-139). -/
inductive PAct where
  | state (t : StateTok String)
  | begin
  | nfa (a : NAct)
  | finish
  | atom

namespace PAutText

/-- `pegtl::identifier_first`. -/
def isFirst (c : Char) : Bool := c.isAlpha || c == '_'

/-- `p_automaton_state_1` (PAutomatonParser.h:61). -/
def state1 : PRule PAct :=
  actOn (fun x => .state ⟨false, x⟩)
    (sor (plus (sat Char.isDigit)) (Peg.seq (sat isFirst) (Peg.star (sat isName))))

/-- `until<one<'"'>, character>` with the actions that collect the characters (PAutomatonParser.h:38-39, 48, 126-127): what is in the
quotes, and the rest. -/
def quoted : List Char → Option (List Char × List Char)
  | '"' :: r => some ([], r)
  | '\\' :: '"' :: r => (quoted r).map fun x => ('"' :: x.1, x.2)
  | '\\' :: '\\' :: r => (quoted r).map fun x => ('\\' :: x.1, x.2)
  | '\\' :: _ => none
  | c :: r => if 32 ≤ c.toNat then (quoted r).map fun x => (c :: x.1, x.2) else none
  | [] => none

/-- `string_literal` (PAutomatonParser.h:48). -/
def stringLiteral : PRule PAct
  | '"' :: r => match quoted r with
    | some (x, r') => .ok r' [.state ⟨true, String.ofList x⟩]
    | none => .fail []
  | _ => .fail []

/-- `p_automaton_state` (PAutomatonParser.h:62). -/
def state : PRule PAct := sor state1 stringLiteral

/-- `p_automaton_initial` (PAutomatonParser.h:50-54). -/
def initial : PRule PAct :=
  sor (Peg.seq (one '[') (Peg.seq (must (listMust state (one ',') ignored)) (must (one ']')))) state

/-- `state<NfaBuilder<uint32_t>, nfa_expr_default>`: the rule works on a new builder. -/
def nfaState : PRule PAct := fun s =>
  match nfaPadded s with
  | .ok r l => .ok r (.begin :: (l.map PAct.nfa ++ [.finish]))
  | .fail l => .fail (.begin :: l.map PAct.nfa)
  | .throw l => .throw (.begin :: l.map PAct.nfa)

/-- `p_automaton_atom` (PAutomatonParser.h:57). -/
def atom : PRule PAct :=
  act .atom (Peg.seq (one '<') (Peg.seq (pad initial ignored) (Peg.seq (one ',') (Peg.seq nfaState (one '>')))))

/-- `p_automaton_file` (PAutomatonParser.h:59, 64). -/
def file : PRule PAct := Peg.seq (must (pad (listMust atom (one '|') ignored) ignored)) (must eof)

end PAutText

/-- The builders: that of the P-automaton, which has a reference to the PDA, the number of the atom, that of the current NFA, and
`_current_nfa`. -/
structure PRun (W : Type) where
  b : PBuild String W
  k : Nat := 0
  r : RState (TPda String W)
  m : Nfa := {}

variable {W : Type} [Zero W]

/-- One action. -/
def PRun.act (h : HashOrder) (addr : Nat → Nat → Nat) (find : String → Option (Option Nat)) (s : PRun W) : PAct → Parsed (PRun W)
  | .state t => match s.b.addState find t with
    | some b => .ok { s with b := b }
    | none => .error
  | .begin => .ok { s with r := { env := s.b.pda } }
  | .nfa a => match s.r.act (addr s.k) (fun t x => t.insertLabel x) a with
    | some r => .ok { s with r := r, b := { s.b with pda := r.env } }
    | none => .undefined
  | .finish => match s.r.b.getNfa (addr s.k) with
    | some m => .ok { s with m := m }
    | none => .undefined
  | .atom => .ok { s with b := s.b.finish h s.m, k := s.k + 1 }

/-- The actions in order, up to one that throws or is undefined. -/
def PRun.acts (h : HashOrder) (addr : Nat → Nat → Nat) (find : String → Option (Option Nat)) : List PAct → PRun W → Parsed (PRun W)
  | [], s => .ok s
  | a :: l, s => match s.act h addr find a with
    | .ok s => PRun.acts h addr find l s
    | .error => .error
    | .undefined => .undefined

/-- `PAutomatonParser::parse_string` (PAutomatonParser.h:152-186). `find` gives the number of the state with a name, and `none` where
`std::stoul` throws. -/
def parsePAutText (h : HashOrder) (addr : Nat → Nat → Nat) (find : String → Option (Option Nat)) (t : TPda String W) (text : List Char) :
    Parsed (TPda String W × Aut W) :=
  let run (l : List PAct) := PRun.acts h addr find l { b := { pda := t }, r := { env := t } }
  match PAutText.file text with
  | .ok _ l => match run l with
    | .ok s => match s.b.cur with
      | some a => .ok (s.b.pda, a)
      | none => .error
    | .error => .error
    | .undefined => .undefined
  | .fail l => match run l with
    | .undefined => .undefined
    | _ => .error
  | .throw l => match run l with
    | .undefined => .undefined
    | _ => .error

end Verif
