import Verif.Model.SolverProduct
import Verif.Model.TraceBack

/-!
# Solver.h:260-330, 393-460: traces of a solver instance (not `Shortest`, not the fixed-point ones)

A path of the product is mapped back to the states of the two automata and unwound in one of them, or, after
`dual_search`, in both.
-/

namespace Verif

variable {W T : Type}

/-- A path with another name for each state: what `find_path(state_map)` (internal/PAutomaton.h:391-432) builds
instead of the path of `find_path()`. The code maps each state when it writes it; every state of the returned
path has been written. -/
def APath.map {S S' : Type} (f : S → S') (p : APath S) : APath S' := ⟨f p.fin, p.edges.map fun x => (x.1, f x.2)⟩

namespace Product

/-- `find_path<trace_type, true>()` (PAutomatonProduct.h:197-210), `none` for the null path. -/
def findPairs (h : HashOrder) (s : Product W) : Option (APath (Nat × Nat)) :=
  if (s.aut.findPath h s.size).isNull then none else some ((s.aut.findPath h s.size).map s.orig)

/-- `find_path<trace_type, false>()` (PAutomatonProduct.h:197-210), with `get_original` (421-429). -/
def findFirst (h : HashOrder) (s : Product W) : APath Nat :=
  if (s.aut.findPath h s.size).isNull then APath.null else (s.aut.findPath h s.size).map fun q => (s.orig q).1

end Product

/-- The tuple of `_get_rule_trace_and_paths` (Solver.h:394-401). -/
structure RuleTrace (W : Type) where
  state : Nat
  rules : List (URule W)
  initialStack : List Nat
  finalStack : List Nat
  initialPath : List Nat
  finalPath : List Nat
  deriving DecidableEq

namespace RuleTrace

/-- The tuple for "no trace" (Solver.h:406). -/
def null : RuleTrace W := ⟨sizeMax, [], [], [], [], []⟩

end RuleTrace

/-- `_get_rule_trace_and_paths(automaton, paths)` (Solver.h:393-432). The outer `none` is undefined behaviour or lack
of fuel. -/
def ruleTrace (p : Pda W) (a : Aut T) : Option (APath (Nat × Nat)) → Option (RuleTrace W)
  | none => some RuleTrace.null
  | some paths =>
    let goal := paths.split.2.pathAndStack
    match tbAll p a (tbFuel a paths.split.1) (tbFuel a paths.split.1) { path := paths.split.1 } with
    | none => none
    | some (rs, tb) =>
      let start := tb.path.pathAndStack
      if tb.post then
        match rs.reverse with
        | [] => none
        | r :: rs => some ⟨r.src, r :: rs, start.2, goal.2, start.1, goal.1⟩
      else some ⟨paths.frontState.1, rs, goal.2, start.2, goal.1, start.1⟩

/-- `_get_rule_trace_and_paths(initial_automaton, final_automaton, paths)` (Solver.h:434-460). The parameter is an
`optional` made from an `AutomatonPath`, so it always has a value; for the null path `split` runs into an assertion,
and without assertions the traces are empty and `trace[0]` is undefined. -/
def ruleTraceDual (p : Pda W) (a b : Aut W) : Option (APath (Nat × Nat)) → Option (RuleTrace W)
  | none => none
  | some paths =>
    match traceStackPath p a paths.split.1, traceStackPath p b paths.split.2.removeEpsilon with
    | some (rs, iStack, iPath), some (rs', fStack, fPath) =>
      match rs ++ rs' with
      | [] => none
      | r :: rs => some ⟨r.src, r :: rs, iStack, fStack, iPath, fPath⟩
    | _, _ => none

namespace Instance

/-- `automaton()` (PAutomatonProduct.h:122-127); `swap` is `_swap_initial_final`, set by `enable_pre_star`. -/
def automaton (swap : Bool) (i : Instance W) : Aut W := if swap then i.final else i.initial

/-- `Solver::get_trace(instance)` (Solver.h:260-281). -/
def getTrace (h : HashOrder) (p : Pda W) (swap : Bool) (i : Instance W) : Option (List Config) :=
  Verif.getTrace p (i.automaton swap) (i.prod.findFirst h)

/-- `Solver::get_trace_dual_search(instance)` (Solver.h:282-316). -/
def getTraceDual (h : HashOrder) (p : Pda W) (i : Instance W) : Option (List Config) :=
  match i.prod.findPairs h with
  | none => some []
  | some paths =>
    match Verif.getTrace p i.initial paths.split.1, Verif.getTrace p i.final paths.split.2.removeEpsilon with
    | some t1, some (_ :: t2) => some (t1 ++ t2)
    | _, _ => none

/-- `Solver::get_rule_trace_and_paths(instance)` (Solver.h:317-330), `use_dual` false. -/
def getRuleTrace (h : HashOrder) (p : Pda W) (swap : Bool) (i : Instance W) : Option (RuleTrace W) :=
  ruleTrace p (i.automaton swap) (i.prod.findPairs h)

/-- `Solver::get_rule_trace_and_paths(instance)` (Solver.h:317-330), `use_dual` true. -/
def getRuleTraceDual (h : HashOrder) (p : Pda W) (i : Instance W) : Option (RuleTrace W) :=
  ruleTraceDual p i.initial i.final (i.prod.findPairs h)

end Instance

end Verif
