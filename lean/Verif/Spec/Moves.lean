import Verif.Spec.Pds

/-!
# Moves of a pushdown automaton with named labels

A move takes the automaton from one state to another and replaces the topmost label of the stack by a word. What a
rule does is its move; a NOOP rule and a SWAP rule with the same label on both sides make the same move.
-/

namespace Verif

/-- A move: from state `src` with `pre` on top of the stack to state `dst`, with `repl` in place of `pre` (top first). -/
structure StackMove (S L W : Type) where
  src : S
  pre : L
  weight : W
  dst : S
  repl : List L

/-- What an operation puts in place of the topmost label. -/
def replacement {L : Type} (op : Op) (opLabel pre : L) : List L :=
  match op with
  | .pop => []
  | .swap => [opLabel]
  | .noop => [pre]
  | .push => [opLabel, pre]

/-- The same move with labels and states renamed. -/
def StackMove.map {S S' L L' W : Type} (f : S → S') (g : L → L') (m : StackMove S L W) : StackMove S' L' W :=
  { src := f m.src, pre := g m.pre, weight := m.weight, dst := f m.dst, repl := m.repl.map g }

end Verif
