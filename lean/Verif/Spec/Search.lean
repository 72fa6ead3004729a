/-!
# Specification: sequences of configurations along a trace
-/

namespace Verif

/-- For a trace of `len` rules: the configurations that the first `d` rules can lead to. `first` are those of the first
rule, and `next d c` those that rule number `d` (from 0) gives after `c`. -/
inductive ReachConf {C : Type} (len : Nat) (first : List C) (next : Nat → C → List C) : Nat → C → Prop where
  | first {c : C} : 0 < len → c ∈ first → ReachConf len first next 1 c
  | next {d : Nat} {c c' : C} : ReachConf len first next d c → d < len → c' ∈ next d c → ReachConf len first next (d + 1) c'

/-- The configurations `cs` after the first, the second, ... rule, each from the one before. -/
inductive ConfChain {C : Type} (first : List C) (next : Nat → C → List C) : List C → Prop where
  | one {c : C} : c ∈ first → ConfChain first next [c]
  | snoc {cs : List C} {c c' : C} : ConfChain first next (cs ++ [c]) → c' ∈ next (cs.length + 1) c →
      ConfChain first next (cs ++ [c] ++ [c'])

end Verif
