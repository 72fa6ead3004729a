import Verif.Spec.Weighted

/-!
# Specification: paths with their states and weights
-/

namespace Verif

variable {T : Type} [AddCommMonoid T]

/-- A path through the given states that spells the word, and the sum of the weights of its transitions. -/
def CostSpells (E : Tr → T → Prop) : List Nat → List Nat → T → Prop
  | [_], [], x => x = 0
  | q :: q' :: qs, g :: w, x => ∃ y z, E ⟨q, g, q'⟩ y ∧ CostSpells E (q' :: qs) w z ∧ x = y + z
  | _, _, _ => False

/-- A path that spells the word, where epsilon transitions may be taken before a symbol is read, and the sum of the
weights of its transitions. The list of states has, for each symbol, the state in which it is read, and then the last
state of the path. -/
inductive CostReads (E : Tr → T → Prop) : Nat → List Nat → List Nat → T → Prop where
  | nil (q : Nat) : CostReads E q [q] [] 0
  | cons {p g q : Nat} {qs w : List Nat} {x y : T} :
      E ⟨p, g, q⟩ x → CostReads E q qs w y → CostReads E p (p :: qs) (g :: w) (x + y)
  | eps {p g q : Nat} {qs w : List Nat} {x y : T} :
      E ⟨p, epsilon, q⟩ x → CostReads E q qs (g :: w) y → CostReads E p qs (g :: w) (x + y)

/-- The weights of the accepting paths of a configuration, where epsilon transitions may be taken before a symbol is
read, but not after the last symbol. -/
def ReadWeights (E : Tr → T → Prop) (F : Nat → Prop) (c : Config) : Set T :=
  { x | ∃ qs f, CostReads E c.1 qs c.2 x ∧ qs.getLast? = some f ∧ F f }

end Verif
