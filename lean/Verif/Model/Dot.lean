import Verif.Model.Nfa
import Verif.Model.ShortestPath

/-!
# GraphViz output: NFA.h:384-424, internal/PAutomaton.h:288-386, PAutomatonProduct.h:144-159, utils/vector_printer.h

Streams are lists of characters.
-/

namespace Verif

/-- The texts in order with a comma and a blank between them (NFA.h:398-405, internal/PAutomaton.h:311-317, 351-358). -/
def commaList : List (List Char) → List Char
  | [] => []
  | x :: l => x ++ l.flatMap fun y => ',' :: ' ' :: y

/-! ## NFAs -/

/-- What an edge of an NFA is labelled with (NFA.h:393-414). -/
def NEdge.dotLabel (sym : Nat → List Char) (e : NEdge) : List Char :=
  (if e.neg && !e.syms.isEmpty then ['^'] else []) ++
    (if !e.syms.isEmpty then "\\[".toList ++ commaList (e.syms.map sym) ++ "\\]".toList else []) ++
    (if e.syms.isEmpty && e.neg then ['*'] else []) ++
    (if e.eps then (if !e.syms.isEmpty || e.neg then [' '] else []) ++ ['𝜀'] else [])

/-- The lines for one state (NFA.h:387-417). -/
def Nfa.dotState (ptr sym : Nat → List Char) (x : Nat × NState) : List Char :=
  ['"'] ++ ptr x.1 ++ "\" [shape=".toList ++ (if x.2.acc then "double".toList else []) ++ "circle];\n".toList ++
    x.2.edges.flatMap fun e => ['"'] ++ ptr x.1 ++ "\" -> \"".toList ++ ptr e.dst ++ "\" [ label=\"".toList ++ e.dotLabel sym ++ "\"];\n".toList

/-- The lines for an initial state (NFA.h:420-421, internal/PAutomaton.h:377-383). -/
def dotInitial (name : List Char) : List Char :=
  "\"I".toList ++ name ++ "\" -> \"".toList ++ name ++ "\";\n".toList ++ "\"I".toList ++ name ++ "\" [style=invisible];\n".toList

/-- `NFA::to_dot` (NFA.h:384-424). `ptr` is how the stream writes pointers, `sym` is the printer of symbols. -/
def Nfa.toDot (ptr sym : Nat → List Char) (m : Nfa) : List Char :=
  "digraph NFA {\n".toList ++ m.states.flatMap (Nfa.dotState ptr sym) ++ m.initial.flatMap (fun i => dotInitial (ptr i)) ++ "}\n".toList

/-! ## P-automata -/

/-- The text for the weight of a transition (internal/PAutomaton.h:318-342): `max()` and, for some types, `bottom()` have their own text. -/
def dotWeight {W : Type} [DecidableEq W] (max : W) (bottom : Option (W × List Char)) (num : W → List Char) (w : W) : List Char :=
  if w = max then "(-)".toList
  else match bottom with
    | none => ['('] ++ num w ++ [')']
    | some b => if w = b.1 then ['('] ++ b.2 ++ [')'] else ['('] ++ num w ++ [')']

/-- `vector_printer() << v` (utils/vector_printer.h:52-68) for a vector of numbers that are written by `num`. -/
def vectorText {W : Type} (num : W → List Char) : List W → List Char
  | [] => ['[', ']']
  | x :: l => ['['] ++ num x ++ (l.flatMap fun y => [','] ++ num y) ++ [']']

/-- What the output depends on besides the automaton: the printer of states, the texts for a label with its weight and for the weight of an
epsilon transition, and for unweighted automata `number_of_labels()`. -/
structure DotStyle (W : Type) where
  state : Nat → List Char
  item : Nat → W → List Char
  eps : W → List Char
  all : Option Nat

/-- Automata without weights. -/
def DotStyle.plain (state label : Nat → List Char) (labels : Nat) : DotStyle Unit := ⟨state, fun l _ => label l, fun _ => [], some labels⟩

/-- Automata with weights. -/
def DotStyle.weighted {W : Type} [DecidableEq W] (state label : Nat → List Char) (max : W) (bottom : Option (W × List Char)) (num : W → List Char) : DotStyle W :=
  ⟨state, fun l w => label l ++ dotWeight max bottom num w, fun w => ['('] ++ num w ++ [')'], none⟩

/-- The printer of states in `automaton_to_dot` (PAutomatonProduct.h:156-158): names for the states of the PDA, numbers for others. -/
def nameOrNumber (names : List String) (q : Nat) : List Char :=
  match names[q]? with
  | some s => s.toList
  | none => q.repr.toList

/-- What the edge for the transitions with these labels is labelled with (internal/PAutomaton.h:306-372). -/
def DotStyle.label {W : Type} (s : DotStyle W) (labels : List (Nat × W)) : List Char :=
  let hasEps := labels.any fun x => x.1 == epsilon
  let size := labels.length - (if hasEps then 1 else 0)
  (if s.all = some size then ['*']
    else if 0 < size then "\\[".toList ++ commaList ((labels.filter fun x => x.1 != epsilon).map fun x => s.item x.1 x.2) ++ "\\]".toList
    else []) ++
    match labels.find? fun x => x.1 == epsilon with
    | none => []
    | some x => (if 1 < labels.length then [' '] else []) ++ ['𝜀'] ++ s.eps x.2

/-- The lines for one state (internal/PAutomaton.h:293-374). -/
def Aut.dotState {W : Type} (s : DotStyle W) (h : HashOrder) (a : Aut W) (q : Nat) : List Char :=
  ['"'] ++ s.state q ++ "\" [shape=".toList ++ (if a.isAcc q then "double".toList else []) ++ "circle];\n".toList ++
    (a.outTos h q).flatMap fun u => ['"'] ++ s.state q ++ "\" -> \"".toList ++ s.state u ++ "\" [ label=\"".toList ++ s.label (a.labelsTo q u) ++ "\"];\n".toList

/-- `PAutomaton::to_dot` (internal/PAutomaton.h:288-386); the first `n` states are the initial ones. -/
def Aut.toDot {W : Type} (s : DotStyle W) (h : HashOrder) (n : Nat) (a : Aut W) : List Char :=
  "digraph NFA {\n".toList ++ (List.range a.n).flatMap (a.dotState s h) ++ (List.range n).flatMap (fun i => dotInitial (s.state i)) ++ "}\n".toList

end Verif
