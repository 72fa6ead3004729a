import Verif.Model.FixedSat
import Verif.Model.FixedPoint
import Verif.Model.ProductTrace

/-!
# Solver.h:40-82, 260-281, PAutomatonProduct.h:172-190 and internal/PAutomatonAlgorithms.h:140-218:
the fixed-point search on a solver instance

As in `FixedSat`, the annotation of a transition is the pair of traces and the weight. `T` is the solver's weight
type: `less` is `<`, `max()` is `⊤`, `bottom()` is `⊥`, `zero()` is `0` and `add` is `+`.
-/

namespace Verif

variable {W T : Type}

/-- `edge_annotation::make_default()` (internal/PAutomaton.h:134-140) for a pair of traces. -/
instance [Zero T] : Zero (Trace × T) := ⟨(Trace.null, 0)⟩

namespace FP

variable {S : Type}

/-- `AutomatonTraceBack::next<avoid_loop>()` (internal/PAutomatonAlgorithms.h:156-171) from the state `v` with the path
built so far; `f` is `_state_map`. `none` where an assertion fails, `some none` for `nullopt`. -/
def backNext (f : Nat → S) (avoid : Bool) (s : FP T) (v : Nat) (path : APath S) : Option (Option (Nat × APath S)) :=
  match if avoid then (s.states v).firstPred else (s.states v).pred with
  | .noState => some none
  | .uninitialized => none
  | .state u => some (some (u, path.emplace (f u) (if avoid then (s.states v).firstLabel else (s.states v).label)))

/-- The first loop of `get_path_with_loop` (internal/PAutomatonAlgorithms.h:191-202), with fuel: the state that was met
twice, if any, and the path. -/
def findLoop (f : Nat → S) (s : FP T) : Nat → List Nat → Nat → APath S → Option (Option Nat × APath S)
  | 0, _, _, _ => none
  | k + 1, seen, v, path =>
    match backNext f false s v path with
    | none => none
    | some none => some (none, path)
    | some (some (u, path)) => if u ∈ seen then some (some u, path) else findLoop f s k (u :: seen) u path

/-- Once more around the loop (internal/PAutomatonAlgorithms.h:206-212), with fuel. The assertion fails if there is
no predecessor. -/
def aroundLoop (f : Nat → S) (s : FP T) (e : Nat) : Nat → Nat → APath S → Option (APath S)
  | 0, _, _ => none
  | k + 1, v, path =>
    match backNext f false s v path with
    | none => none
    | some none => none
    | some (some (u, path)) => if u = e then some path else aroundLoop f s e k u path

/-- To the end by first predecessors (internal/PAutomatonAlgorithms.h:214), with fuel. -/
def leaveLoop (f : Nat → S) (s : FP T) : Nat → Nat → APath S → Option (APath S)
  | 0, _, _ => none
  | k + 1, v, path =>
    match backNext f true s v path with
    | none => none
    | some none => some path
    | some (some (u, path)) => leaveLoop f s k u path

/-- `get_path_with_loop(state_map)` (internal/PAutomatonAlgorithms.h:185-217). -/
def getPathWithLoop (f : Nat → S) (s : FP T) (fuel : Nat) : Option (APath S) :=
  s.minAcc.bind fun a =>
    match findLoop f s fuel [a] a ⟨f a, []⟩ with
    | none => none
    | some (none, path) => some path
    | some (some e, path) => (aroundLoop f s e fuel e path).bind (leaveLoop f s fuel e)

end FP

namespace Product

/-- What `PAutomatonFixedPoint` reads of the product (internal/PAutomatonAlgorithms.h:54-107). -/
def wAut [Zero T] (h : HashOrder) (s : Product (Trace × T)) : WAut T where
  n := s.aut.n
  m := s.size
  accepting := s.aut.isAcc
  edges q := (s.aut.outTos h q).map fun u => (u, (labelsOf s.aut q u).map fun l => (l, (ann s.aut ⟨q, l, u⟩).2.2))

section
variable [LinearOrder T] [OrderBot T] [OrderTop T] [AddCommMonoid T]

/-- The part of `find_path_fixed_point` after `run()` (PAutomatonProduct.h:179-188). -/
def fixedPointPath (s : Product (Trace × T)) (fuel : Nat) (r : FP T) : Option (APath Nat × T) :=
  match r.getWeight with
  | none => some (APath.null, ⊤)
  | some w =>
    if w = ⊥ then (r.getPathWithLoop (fun q => (s.orig q).1) fuel).map fun path => (path, ⊥)
    else (r.getPath fuel).map fun path => (path.map fun q => (s.orig q).1, w)

/-- `find_path_fixed_point()` (PAutomatonProduct.h:172-190). -/
def findPathFixedPoint (h : HashOrder) (s : Product (Trace × T)) (fuel : Nat) : Option (APath Nat × T) :=
  (FP.run (s.wAut h) fuel (FP.init (s.wAut h))).bind (s.fixedPointPath fuel)

end

end Product

/-- What `TraceBack::next<false>` reads (internal/PdaSaturation.h:1075-1086): of the pair of traces the second. -/
def Aut.lastTraces (a : Aut (Trace × T)) : Aut T := { acc := a.acc, edges := a.edges.map fun e => (e.1, e.2.2) }

namespace Instance

section
variable [LinearOrder W] [Zero W] [LinearOrder T] [OrderBot T] [AddCommMonoid T] (val : W → T)

/-- The end of `pre_star_fixed_point_accepts` (Solver.h:42-44), given the saturation: `none` if it has run into
undefined behaviour. -/
def preFixedEnd (h : HashOrder) (i : Instance (Trace × T)) (s : FPre T) : Option (Instance (Trace × T) × Bool) :=
  if s.undef then none
  else
    let r := i.prod.initProduct h false false s.aut i.initial
    some ({ i with final := s.aut, prod := r.1 }, r.2)

/-- The end of `post_star_fixed_point_accepts` (Solver.h:55-57). -/
def postFixedEnd (h : HashOrder) (i : Instance (Trace × T)) (s : FPost T) : Option (Instance (Trace × T) × Bool) :=
  if s.undef then none
  else
    let r := i.prod.initProduct h false false s.aut i.final
    some ({ i with initial := s.aut, prod := r.1 }, r.2)

/-- `Solver::pre_star_fixed_point_accepts(instance)` (Solver.h:40-45). -/
def preStarFixedPointAccepts (h : HashOrder) (p : Pda W) (i : Instance (Trace × T)) (fuel : Nat) :
    Option (Instance (Trace × T) × Bool) :=
  (preStarFixedPoint val h p i.final fuel).bind (i.preFixedEnd h)

/-- `Solver::post_star_fixed_point_accepts(instance)` (Solver.h:52-57). -/
def postStarFixedPointAccepts (h : HashOrder) (p : Pda W) (i : Instance (Trace × T)) (fuel : Nat) :
    Option (Instance (Trace × T) × Bool) :=
  (postStarFixedPoint val h p i.initial fuel).bind (i.postFixedEnd h)

/-- The body of the loop of `interleaving_fixed_point_accepts` (Solver.h:72-74). The two saturations work on different
automata. -/
def interleaveStep (p : Pda W) (x : FPre T × FPost T) : Option (FPre T × FPost T) :=
  if x.1.isDone || x.2.isDone then none
  else some (fixStep (fpreStepWith val p) false x.1, fixStep (fpostStepWith val p) false x.2)

/-- `Solver::interleaving_fixed_point_accepts(instance, instance_copy)` (Solver.h:64-82) for an instance and its copy:
the instance the answer is about, the answer, and whether pre* has given it. -/
def interleavingFixedPointAccepts (h : HashOrder) (p : Pda W) (i copy : Instance (Trace × T)) (fuel : Nat) :
    Option ((Instance (Trace × T) × Bool) × Bool) :=
  (whileSome (interleaveStep val p) fuel (fpreInit val h p copy.final, fpostInit h p i.initial)).bind fun x =>
    if x.1.isDone then
      ((fixFinalize (fpreStepWith val p) fuel x.1).bind (copy.preFixedEnd h)).map fun r => (r, true)
    else
      ((fixFinalize (fpostStepWith val p) fuel x.2).bind (i.postFixedEnd h)).map fun r => (r, false)

end

/-- `Solver::get_trace<ShortestFixedPoint>(instance)` and `get_trace<Longest>(instance)` (Solver.h:262-272): the trace and
its weight. `unsig` holds for `ShortestFixedPoint` with an unsigned weight type. -/
def getTraceFixedPoint [LinearOrder T] [OrderBot T] [OrderTop T] [AddCommMonoid T] (h : HashOrder) (p : Pda W)
    (unsig swap : Bool) (i : Instance (Trace × T)) (fuel : Nat) : Option (List Config × T) :=
  (i.prod.findPathFixedPoint h fuel).bind fun r =>
    if unsig || decide (r.2 ≠ ⊥) then (Verif.getTrace p (i.automaton swap).lastTraces r.1).map fun t => (t, r.2)
    else some ([], r.2)

end Instance

end Verif
