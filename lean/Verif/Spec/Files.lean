import Verif.Model.Json

/-!
# Specification: names of states, and options
-/

namespace Verif

variable {W : Type}

/-- The number in decimal notation, perhaps with zeros before it. -/
def Numeral (s : String) (n : Nat) : Prop := ∃ z, s.toList = List.replicate z '0' ++ n.repr.toList

/-- Which state of the PDA a name stands for. -/
def NamesState (names : Bool) (p : NPda String String W) (s : String) (c : Nat) : Prop :=
  if names then p.names[c]? = some s else Numeral s c ∧ c < p.states.length

/-- A text that differs from another, in lower case, at most by upper case letters. -/
def SameWord (s : List Char) (lower : String) : Prop := s.map Char.toLower = lower.toList

end Verif
