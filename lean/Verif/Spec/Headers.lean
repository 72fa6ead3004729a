import Verif.Spec.Regular

/-!
# Specification: stacks read along a path of an automaton
-/

namespace Verif

/-- From the state before position `i` of the path (an initial state for position 0) the automaton can read `l` and then
nothing to reach the state of the path at position `i`. -/
def ReadsAt (n : Nfa) (path : List Nat) (i l : Nat) : Prop :=
  ∃ q, path[i]? = some q ∧ ∃ p, (if i = 0 then p ∈ n.initial else path[i - 1]? = some p) ∧
    ∃ r, n.Sym p l r ∧ WPath n.Eps n.Sym r [] q

/-- The automaton can read the stack (top first) along the path. -/
def Along (n : Nfa) (path s : List Nat) : Prop :=
  s.length = path.length ∧ ∀ i l, s[i]? = some l → ReadsAt n path i l

/-- A stack whose first labels are known to be `conc` (bottom first), and whose other labels, `wild` many, are only known
to be readable along the last part of the path. -/
def Stands (n : Nfa) (path : List Nat) (wild : Nat) (conc s : List Nat) : Prop :=
  ∃ ws : List Nat, s = conc.reverse ++ ws ∧ ws.length = wild ∧
    ∀ j l, ws[j]? = some l → ReadsAt n path (path.length - wild + j) l

end Verif
