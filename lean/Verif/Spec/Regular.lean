import Verif.Model.Nfa

/-!
# Specification: the language of a nondeterministic automaton, and operations on languages

Only the data of `Nfa` is used here, none of the functions that model the code.
-/

namespace Verif

/-- A set of words. -/
abbrev Words := List Nat → Prop

/-- Concatenation of languages. -/
def Words.concat (L M : Words) : Words := fun w => ∃ u v, w = u ++ v ∧ L u ∧ M v

/-- Zero or more words of `L` one after the other. -/
inductive Words.Star (L : Words) : Words where
  | nil : Star L []
  | app (u v : List Nat) : L u → Star L v → Star L (u ++ v)

/-- One or more words of `L` one after the other. -/
def Words.Plus (L : Words) : Words := L.concat L.Star

/-- A path that reads a word, with moves that read nothing and moves that read a symbol. -/
inductive WPath (eps : Nat → Nat → Prop) (sym : Nat → Nat → Nat → Prop) : Nat → List Nat → Nat → Prop where
  | nil (q : Nat) : WPath eps sym q [] q
  | eps {p q r : Nat} {w : List Nat} : eps p q → WPath eps sym q w r → WPath eps sym p w r
  | sym {p g q r : Nat} {w : List Nat} : sym p g q → WPath eps sym q w r → WPath eps sym p (g :: w) r

/-- The symbols an edge reads: those listed, or with negation those not listed. -/
def NEdge.Reads (e : NEdge) (g : Nat) : Prop := if e.neg then g ∉ e.syms else g ∈ e.syms

namespace Nfa

/-- The automaton has an edge from `p` to `q` that reads nothing. -/
def Eps (m : Nfa) (p q : Nat) : Prop := ∃ s e, (p, s) ∈ m.states ∧ e ∈ s.edges ∧ e.eps = true ∧ e.dst = q

/-- The automaton has an edge from `p` to `q` that reads `g`. -/
def Sym (m : Nfa) (p g q : Nat) : Prop := ∃ s e, (p, s) ∈ m.states ∧ e ∈ s.edges ∧ e.Reads g ∧ e.dst = q

/-- The state at `q` is accepting. -/
def Acc (m : Nfa) (q : Nat) : Prop := ∃ s, (q, s) ∈ m.states ∧ s.acc = true

/-- The language of the automaton. -/
def Lang (m : Nfa) : Words := fun w => ∃ i ∈ m.initial, ∃ f, m.Acc f ∧ WPath m.Eps m.Sym i w f

end Nfa

end Verif
