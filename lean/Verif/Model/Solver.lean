import Verif.Model.PreStar
import Verif.Model.AutOps

/-! # Solver.h: entry points that need no product automaton -/

namespace Verif

variable {W : Type} [LinearOrder W] [Zero W]

/-- The callback of `pre_star_accepts` for a stack of one symbol (Solver.h:173-175). -/
def oneSymbolCb (q g : Nat) : Callback W Unit :=
  fun a _ t _ => ((), t.src == q && t.label == g && a.isAcc t.dst)

/-- `Solver::pre_star_accepts(automaton, state, stack)` (Solver.h:168-179), not `Shortest`. -/
def preStarAccepts (h : HashOrder) (p : Pda W) (a : Aut W) (q : Nat) (w : List Nat) : Bool :=
  match w with
  | [g] => a.accepts h q [g] || (preStar h p (oneSymbolCb q g) a ()).found
  | w => (preStar h p noCb a ()).found || (preStar h p noCb a ()).aut.accepts h q w

end Verif
