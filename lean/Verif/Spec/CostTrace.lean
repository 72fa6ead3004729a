import Verif.Spec.Weighted

/-! # Specification: sequences of configurations with the weight of a run through them -/

namespace Verif

variable {W T : Type} [AddCommMonoid T]

/-- The configurations follow each other by rules the sum of whose weights is the given weight. -/
inductive CostTrace (R : URule W → Prop) (val : W → T) : List Config → T → Prop where
  | one (c : Config) : CostTrace R val [c] 0
  | cons (r : URule W) (w : List Nat) (cs : List Config) (x : T) (hr : R r)
      (h : CostTrace R val ((r.dst, effect r.op r.pre r.opLabel w) :: cs) x) :
      CostTrace R val ((r.src, r.pre :: w) :: (r.dst, effect r.op r.pre r.opLabel w) :: cs) (val r.weight + x)

end Verif
