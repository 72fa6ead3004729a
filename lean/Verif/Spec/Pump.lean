import Verif.Spec.Weighted
import Mathlib.Order.Defs.PartialOrder

/-! # Specification: weights that cannot be improved again and again -/

namespace Verif

variable {W T : Type} [AddCommMonoid T] [Preorder T]

/-- The set does not contain the weights of something that can be repeated, each time improving the weight by the same
amount. -/
def Unpumped (R : Set T) : Prop := ∀ x y : T, (∀ k : Nat, x + k • y ∈ R) → 0 ≤ y

/-- No weight can be improved again and again on the way from one symbol on the stack to a state of the automaton. -/
def UnpumpedTo (R : URule W → Prop) (val : W → T) (n : Nat) (E0 : Tr → Prop) : Prop :=
  ∀ q g f, q < n → Unpumped (RunWeightsTo R val E0 (· = f) (q, [g]))

/-- No weight can be improved again and again on the way from a state of the automaton to a configuration. -/
def UnpumpedFrom (R : URule W → Prop) (val : W → T) (n : Nat) (E0 : Tr → Prop) : Prop :=
  ∀ q w f, q < n → Unpumped (RunWeightsFrom R val n E0 (· = f) (q, w))

end Verif
