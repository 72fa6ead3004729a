import Verif.Model.FixedPoint
import Mathlib.Algebra.Order.Monoid.Defs

/-!
# Paths of a weighted automaton and their weights
-/

namespace Verif.WAut

variable {T : Type}

/-- A transition from `u` to `v` with label `l` and weight `x`. -/
def Edge (A : WAut T) (u l v : Nat) (x : T) : Prop :=
  ∃ ls, (v, ls) ∈ A.edges u ∧ (l, x) ∈ ls

variable [AddCommMonoid T]

/-- A path from the first to the second state, the list of its (label, target) pairs, and the sum of its
weights. -/
inductive Path (A : WAut T) : Nat → List (Nat × Nat) → Nat → T → Prop where
  | nil (u : Nat) : Path A u [] u 0
  | snoc {u v t l : Nat} {p : List (Nat × Nat)} {w x : T} :
      Path A u p v w → A.Edge v l t x → Path A u (p ++ [(l, t)]) t (w + x)

/-- An accepting path: from one of the initial states `0, …, m - 1` to an accepting state. -/
def Accepting (A : WAut T) (i : Nat) (p : List (Nat × Nat)) (a : Nat) (w : T) : Prop :=
  i < A.m ∧ A.Path i p a w ∧ A.accepting a = true

/-- No cycle of negative weight lies on an accepting path. -/
def NoNegativeCycle [LE T] (A : WAut T) : Prop :=
  ∀ (i v a : Nat) (p c q : List (Nat × Nat)) (w x y : T), i < A.m → A.Path i p v w → A.Path v c v x → A.Path v q a y →
    A.accepting a = true → 0 ≤ x

/-- The automata the algorithms are called on: the PDA states are automaton states, targets exist, and no
transition has the weight "unreachable". -/
structure OK [LE T] [OrderTop T] (A : WAut T) : Prop where
  init : A.m ≤ A.n
  target : ∀ u l v x, A.Edge u l v x → v < A.n
  weight : ∀ u l v x, A.Edge u l v x → x ≠ ⊤

end Verif.WAut
