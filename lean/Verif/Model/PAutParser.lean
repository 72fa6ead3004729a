import Verif.Model.Typed
import Verif.Model.Regex
import Verif.Model.FromNfa

/-!
# parsing/PAutomatonParser.h: P-automata from expressions

As in `Model/Regex`, the grammar (PAutomatonParser.h:37-64) is modelled by its syntax trees and parsing by the actions in the
order in which the rules succeed. Here labels are still names, of type `L`, since the actions insert them into the PDA; `S`
is the type of the names of states. Reading characters is left out, and so is input that does not match the grammar.
-/

namespace Verif

mutual
/-- `value_expr` (NfaParserGrammar.h:52) over names of labels. -/
inductive SVal (L : Type) where
  | dot
  | set (neg : Bool) (l : L) (ls : List L)
  | group (e : SAlt L)
/-- `unary_expr` (NfaParserGrammar.h:54). -/
inductive SUn (L : Type) where
  | mk (v : SVal L) (p : Option Post)
/-- `seq_expr` (NfaParserGrammar.h:56). -/
inductive SSeq (L : Type) where
  | one (u : SUn L)
  | more (u : SUn L) (s : SSeq L)
/-- `nfa_expr` (NfaParserGrammar.h:58). -/
inductive SAlt (L : Type) where
  | one (s : SSeq L)
  | more (s : SSeq L) (a : SAlt L)
end

variable {L S W : Type} [DecidableEq L]

/-- `add_label(label)` for the labels of a set (NfaParserGrammar.h:110-112), where the label function is
`pda.insert_label(label)` (PAutomatonParser.h:74). -/
def insertLabels (t : TPda L W) : List L → TPda L W × List Nat
  | [] => (t, [])
  | l :: ls => ((insertLabels (t.insertLabel l).1 ls).1, (t.insertLabel l).2 :: (insertLabels (t.insertLabel l).1 ls).2)

mutual
/-- The calls of the label function while an expression is read: the labels enter the PDA, and the builder of the NFA sees
their numbers. -/
def SVal.enc (t : TPda L W) : SVal L → TPda L W × RVal
  | .dot => (t, .dot)
  | .set neg l ls =>
    ((insertLabels (t.insertLabel l).1 ls).1, .set neg (t.insertLabel l).2 (insertLabels (t.insertLabel l).1 ls).2)
  | .group e => ((e.enc t).1, .group (e.enc t).2)
def SUn.enc (t : TPda L W) : SUn L → TPda L W × RUn
  | .mk v p => ((v.enc t).1, .mk (v.enc t).2 p)
def SSeq.enc (t : TPda L W) : SSeq L → TPda L W × RSeq
  | .one u => ((u.enc t).1, .one (u.enc t).2)
  | .more u s => ((s.enc (u.enc t).1).1, .more (u.enc t).2 (s.enc (u.enc t).1).2)
def SAlt.enc (t : TPda L W) : SAlt L → TPda L W × RAlt
  | .one s => ((s.enc t).1, .one (s.enc t).2)
  | .more s a => ((a.enc (s.enc t).1).1, .more (s.enc t).2 (a.enc (s.enc t).1).2)
end

/-- An expression or nothing (`nfa_expr_or_empty`, NfaParserGrammar.h:60). -/
def encOpt (t : TPda L W) : Option (SAlt L) → TPda L W × Option RAlt
  | none => (t, none)
  | some e => ((e.enc t).1, some (e.enc t).2)

/-- `p_automaton_state` (PAutomatonParser.h:61-62): a number or an identifier, or a string in quotes. -/
structure StateTok (S : Type) where
  quoted : Bool
  name : S

/-- `p_automaton_atom` (PAutomatonParser.h:57): the states and the expression of `<[..], ..>`. -/
structure PAtom (L S : Type) where
  states : List (StateTok S)
  expr : Option (SAlt L)

/-- `PAutomatonBuilder` (PAutomatonParser.h:68-118). The PDA is a reference there, to which the label function adds labels. -/
structure PBuild (L W : Type) where
  pda : TPda L W
  states : List Nat := []
  cur : Option (Aut W) := none

/-- `add_state` (PAutomatonParser.h:78-84) as the actions use it: a name that is not a state is an error if it is not in
quotes (128-134), and nothing otherwise (85-87). `find` is `exists_state(_state_mapping(name))`; it gives `none` where
`std::stoul` throws. -/
def PBuild.addState (find : S → Option (Option Nat)) (b : PBuild L W) (s : StateTok S) : Option (PBuild L W) :=
  match find s.name with
  | none => none
  | some (some id) => some { b with states := b.states ++ [id] }
  | some none => if s.quoted then some b else none

/-- The states of an atom. -/
def PBuild.addStates (find : S → Option (Option Nat)) : PBuild L W → List (StateTok S) → Option (PBuild L W)
  | b, [] => some b
  | b, s :: ss => (b.addState find s).bind fun b => b.addStates find ss

/-- `std::sort` and `erase(unique(..))` in `finish_atom` (PAutomatonParser.h:95-97). -/
def sortUnique (l : List Nat) : List Nat := uniqueBy (fun x y => decide (x = y)) (sortBy natLt l)

/-- `accept_nfa(nfa)` and `finish_atom()` (PAutomatonParser.h:91-106). -/
def PBuild.finish [Zero W] (h : HashOrder) (b : PBuild L W) (m : Nfa) : PBuild L W :=
  let a : Aut W := Aut.ofNfa b.pda.states.length b.pda.labels.length m.compile (sortUnique b.states)
  { b with
    cur := match b.cur with
      | some c => some (c.orExtend h b.pda.states.length a)
      | none => some a
    states := [] }

/-- The actions of an atom: those of the states, then those of the expression, then `finish_atom`. `addr` gives the
addresses of the states of the NFA. -/
def PBuild.atom [Zero W] (h : HashOrder) (addr : Nat → Nat) (find : S → Option (Option Nat)) (b : PBuild L W) (a : PAtom L S) :
    Option (PBuild L W) :=
  (b.addStates find a.states).bind fun b =>
    (parseRegex addr (encOpt b.pda a.expr).2).map fun m => { b with pda := (encOpt b.pda a.expr).1 }.finish h m

/-- The atoms of an expression, from number `k` on. -/
def PBuild.atoms [Zero W] (h : HashOrder) (addr : Nat → Nat → Nat) (find : S → Option (Option Nat)) :
    Nat → PBuild L W → List (PAtom L S) → Option (PBuild L W)
  | _, b, [] => some b
  | k, b, a :: as => (b.atom h (addr k) find a).bind fun b => b.atoms h addr find (k + 1) as

/-- `PAutomatonParser::parse_string` (PAutomatonParser.h:152-186): the PDA with the new labels, and the automaton. `none`
if an exception is thrown. -/
def parsePAut [Zero W] (h : HashOrder) (addr : Nat → Nat → Nat) (find : S → Option (Option Nat)) (t : TPda L W)
    (as : List (PAtom L S)) : Option (TPda L W × Aut W) :=
  (PBuild.atoms h addr find 0 { pda := t } as).bind fun b => b.cur.map fun a => (b.pda, a)

end Verif
