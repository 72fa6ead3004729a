import Mathlib.Logic.Relation
import Mathlib.Data.List.Chain
import Mathlib.Algebra.Group.Defs
import Mathlib.Data.Set.Defs
import Verif.Spec.Moves
import Verif.Model.Typed

/-! # Specification: runs of a pushdown automaton whose rules have label names -/

namespace Verif

variable {L W : Type}

/-- One move with a rule of `R`. -/
inductive NStep (R : TRule L W → Prop) : Nat × List L → Nat × List L → Prop where
  | mk (r : TRule L W) (w : List L) (h : R r) : NStep R (r.src, r.pre :: w) (r.dst, replacement r.op r.opLabel r.pre ++ w)

/-- Zero or more moves. -/
def NReach (R : TRule L W → Prop) : Nat × List L → Nat × List L → Prop := Relation.ReflTransGen (NStep R)

/-- The configurations follow each other by rules of `R`; the first satisfies `I` and the last `F`. -/
def NTrace (R : TRule L W → Prop) (I F : Nat → List L → Prop) (cs : List (Nat × List L)) : Prop :=
  cs.IsChain (NStep R) ∧ (∃ c, cs.head? = some c ∧ I c.1 c.2) ∧ ∃ c, cs.getLast? = some c ∧ F c.1 c.2

/-- The configurations follow each other by rules of `R` the sum of whose weights is the given weight. -/
inductive NCostTrace {T : Type} [AddCommMonoid T] (R : TRule L W → Prop) (val : W → T) : List (Nat × List L) → T → Prop where
  | one (c : Nat × List L) : NCostTrace R val [c] 0
  | cons (r : TRule L W) (w : List L) (cs : List (Nat × List L)) (x : T) (hr : R r)
      (h : NCostTrace R val ((r.dst, replacement r.op r.opLabel r.pre ++ w) :: cs) x) :
      NCostTrace R val ((r.src, r.pre :: w) :: (r.dst, replacement r.op r.opLabel r.pre ++ w) :: cs) (val r.weight + x)

/-- The configurations are a run of weight `x`; the first satisfies `I` and the last `F`. -/
def NRunOf {T : Type} [AddCommMonoid T] (R : TRule L W → Prop) (val : W → T) (I F : Nat → List L → Prop) (cs : List (Nat × List L)) (x : T) :
    Prop :=
  NCostTrace R val cs x ∧ (∃ c, cs.head? = some c ∧ I c.1 c.2) ∧ ∃ c, cs.getLast? = some c ∧ F c.1 c.2

/-- The weights of all runs from `I` to `F`. -/
def NRuns {T : Type} [AddCommMonoid T] (R : TRule L W → Prop) (val : W → T) (I F : Nat → List L → Prop) : Set T :=
  {x | ∃ cs, NRunOf R val I F cs x}

end Verif
