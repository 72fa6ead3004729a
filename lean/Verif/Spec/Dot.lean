/-!
# Graphs in the language of GraphViz
-/

namespace Verif

/-- The statements that occur. -/
inductive DotStmt where
  | node (name : List Char) (double : Bool)
  | edge (src dst label : List Char)
  | arrow (src dst : List Char)
  | hidden (name : List Char)
  deriving DecidableEq, Repr

namespace DotStmt

/-- A name in quotes. -/
def quoted (s : List Char) : List Char := '"' :: s ++ ['"']

def text : DotStmt → List Char
  | node n d => quoted n ++ (if d then " [shape=doublecircle];\n" else " [shape=circle];\n").toList
  | edge a b l => quoted a ++ " -> ".toList ++ quoted b ++ " [ label=".toList ++ quoted l ++ "];\n".toList
  | arrow a b => quoted a ++ " -> ".toList ++ quoted b ++ ";\n".toList
  | hidden n => quoted n ++ " [style=invisible];\n".toList

/-- Nothing in quotes contains a quote. -/
def Safe : DotStmt → Prop
  | node n _ => '"' ∉ n
  | edge a b l => '"' ∉ a ∧ '"' ∉ b ∧ '"' ∉ l
  | arrow a b => '"' ∉ a ∧ '"' ∉ b
  | hidden n => '"' ∉ n

end DotStmt

/-- The graph with these statements. -/
def DotText (xs : List DotStmt) (text : List Char) : Prop := text = "digraph NFA {\n".toList ++ xs.flatMap DotStmt.text ++ "}\n".toList

end Verif
