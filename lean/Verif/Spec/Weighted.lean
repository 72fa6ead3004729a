import Verif.Spec.Pds
import Mathlib.Algebra.Group.Defs
import Mathlib.Order.Bounds.Defs

/-!
# Specification: weights of runs and of paths

`val` turns the weight stored in a rule into a weight of the solver. The order on `T` says which weights are
better: the usual order for `Trace_Type::Shortest`, the reversed order for `Trace_Type::Longest`.
-/

namespace Verif

variable {W T : Type} [AddCommMonoid T]

/-- A run of the pushdown system and the sum of the weights of its rules. -/
inductive CostRun (R : URule W → Prop) (val : W → T) : Config → T → Config → Prop where
  | nil (c : Config) : CostRun R val c 0 c
  | cons (r : URule W) (w : List Nat) (x : T) (c : Config) (hr : R r)
      (h : CostRun R val (r.dst, effect r.op r.pre r.opLabel w) x c) :
      CostRun R val (r.src, r.pre :: w) (val r.weight + x) c

/-- A path that spells the word, and the sum of the weights of its transitions. `E t x`: the transition `t` exists
and has weight `x`. -/
inductive CostPath (E : Tr → T → Prop) : Nat → List Nat → T → Nat → Prop where
  | nil (q : Nat) : CostPath E q [] 0 q
  | cons {p g q r : Nat} {w : List Nat} {x y : T} :
      E ⟨p, g, q⟩ x → CostPath E q w y r → CostPath E p (g :: w) (x + y) r

/-- A path in which epsilon transitions read nothing, and the sum of the weights of its transitions. -/
inductive CostEPath (E : Tr → T → Prop) : Nat → List Nat → T → Nat → Prop where
  | nil (q : Nat) : CostEPath E q [] 0 q
  | cons {p g q r : Nat} {w : List Nat} {x y : T} :
      g ≠ epsilon → E ⟨p, g, q⟩ x → CostEPath E q w y r → CostEPath E p (g :: w) (x + y) r
  | eps {p q r : Nat} {w : List Nat} {x y : T} :
      E ⟨p, epsilon, q⟩ x → CostEPath E q w y r → CostEPath E p w (x + y) r

/-- The weights of the accepting paths of a configuration. -/
def PathWeights (E : Tr → T → Prop) (F : Nat → Prop) (c : Config) : Set T :=
  { x | ∃ q, CostPath E c.1 c.2 x q ∧ F q }

/-- The weights of the accepting paths of a configuration, with epsilon transitions. -/
def EPathWeights (E : Tr → T → Prop) (F : Nat → Prop) (c : Config) : Set T :=
  { x | ∃ q, CostEPath E c.1 c.2 x q ∧ F q }

/-- The weights of the runs from `c` to a configuration accepted by the automaton `E0`, `F`. -/
def RunWeightsTo (R : URule W → Prop) (val : W → T) (E0 : Tr → Prop) (F : Nat → Prop) (c : Config) : Set T :=
  { x | ∃ c', CostRun R val c x c' ∧ Accepted E0 F c' }

/-- The weights of the runs to `c` from a configuration with a control state below `n` accepted by the automaton
`E0`, `F`. -/
def RunWeightsFrom (R : URule W → Prop) (val : W → T) (n : Nat) (E0 : Tr → Prop) (F : Nat → Prop) (c : Config) :
    Set T :=
  { x | ∃ c', c'.1 < n ∧ Accepted E0 F c' ∧ CostRun R val c' x c }

/-- The weights of the runs from a configuration with a control state below `n` accepted by the first automaton to one
accepted by the second. -/
def ConnectWeights (R : URule W → Prop) (val : W → T) (n : Nat) (E0 : Tr → Prop) (F0 : Nat → Prop) (E1 : Tr → Prop)
    (F1 : Nat → Prop) : Set T :=
  { x | ∃ c c', c.1 < n ∧ Accepted E0 F0 c ∧ CostRun R val c x c' ∧ Accepted E1 F1 c' }

end Verif
