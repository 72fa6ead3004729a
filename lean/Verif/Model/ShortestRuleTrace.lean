import Verif.Model.ProductTrace
import Verif.Model.ShortestProduct

/-! # Solver.h:317-322: `get_rule_trace_and_paths` for `Trace_Type::Shortest` -/

namespace Verif

variable {W T : Type} [LinearOrder T] [AddCommMonoid T]

/-- `Solver::get_rule_trace_and_paths<Trace_Type::Shortest, use_dual>(instance)` (Solver.h:317-322). It does not look at
`use_dual`: the path is always unwound in `automaton()` alone. `swap` is `_swap_initial_final`, set by
`enable_pre_star`, which `pre_star_accepts` calls and the other two searches do not. -/
def SInstance.getRuleTrace (p : Pda W) (swap : Bool) (i : SInstance T) : Option (RuleTrace W) × WithTop T :=
  (ruleTrace p (i.automaton swap) i.prod.findPairs.1, i.prod.findPairs.2)

end Verif
