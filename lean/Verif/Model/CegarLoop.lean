import Verif.Model.Cegar
import Verif.Model.Pda
import Mathlib.Algebra.Order.PUnit

/-!
# cegar/AbstractionPAutomaton.h, cegar/AbstractionSolverInstance.h and `CEGAR::cegar_solve`

The user's classes derived from `CegarPdaFactory` and `CegarPdaReconstruction` are a record of functions, `Client`.
Weights are `weight<void>`, the only case that `reconstruct_trace` supports (cegar/CegarPdaFactory.h:136).
-/

namespace Verif

namespace ConSt

variable {W : Type} [Zero W]

/-- The loop over the initial states (internal/PAutomaton.h:865-875) with `map_edge`: `enc e` are the labels of the
edges added for `e`. -/
def initialMap (m : Nfa) (enc : NEdge → List Nat) (nl : Nat) (states : List Nat) (s : ConSt W) : ConSt W :=
  m.initial.foldl (fun s i => edges m (fun e a id => a.addEdgesFrom nl states id e.neg (enc e)) (m.get i).edges s) s

/-- The `while` loop (internal/PAutomaton.h:876-889) with `map_edge`, with fuel. -/
def loopMap (m : Nfa) (enc : NEdge → List Nat) (nl : Nat) : Nat → ConSt W → ConSt W
  | 0, s => s
  | k + 1, s =>
    match s.waiting with
    | [] => s
    | (top, id) :: ws =>
      loopMap m enc nl k
        (edges m (fun e a q => a.addEdges nl id q e.neg (enc e)) (m.get top).edges { s with waiting := ws })

end ConSt

namespace Cegar

/-- The argument `map_edge` of `construct` (cegar/AbstractionPAutomaton.h:43). Where `encode_labels` is undefined
because a label is not in the map, the list is empty; the theorems exclude this. -/
def encodeEdge (m : RMap Nat) (e : NEdge) : List Nat := (m.encodeLabels e.syms e.neg).getD []

/-- `AbstractionPAutomaton(pda, nfa, states)` (cegar/AbstractionPAutomaton.h:40-45), with
`construct<T,true,true>` (internal/PAutomaton.h:841-890). `ids` is `_pautomaton_to_nfastate_map`, read from right to
left. `number_of_labels()` is the size of the map (cegar/AbstractionPDA.h:52-54). -/
def absConstruct (size : Nat) (m : RMap Nat) (n : Nfa) (states : List Nat) : ConSt Unit :=
  ConSt.loopMap n (encodeEdge m) m.size (n.states.length + 1)
    (ConSt.initialMap n (encodeEdge m) m.size states { a := Aut.special size states n.emptyAccept })

/-- `get_nfastate(id)` (cegar/AbstractionPAutomaton.h:47-50); the null pointer is 0. -/
def nfaState (ids : List (Nat × Nat)) (id : Nat) : Nat :=
  match ids.find? fun x => x.2 == id with
  | some x => x.1
  | none => 0

/-- `build_nfa_path(automaton, path)` (cegar/CegarPdaFactory.h:145-154). -/
def buildNfaPath (ids : List (Nat × Nat)) (path : List Nat) : List Nat := path.tail.map (nfaState ids)

/-- `AbstractionSolverInstance` (cegar/AbstractionSolverInstance.h:41-45), with the constructor of the product
(PAutomatonProduct.h:62-67). -/
def absInstance (size : Nat) (m : RMap Nat) (ini : Nfa) (ms : List Nat) (fin : Nfa) (ks : List Nat) : Instance Unit :=
  ⟨(absConstruct size m ini ms).a, (absConstruct size m fin ks).a,
    { size := size, aut := Aut.special size (setInter ms ks) (ini.emptyAccept && fin.emptyAccept) }⟩

/-- `refinement_t` (cegar/CegarPdaFactory.h:124). -/
inductive Split (X : Type) where
  /-- A refinement of the states and one of the labels. -/
  | labels (states : X) (r : Refinement Nat)
  /-- An abstract rule. -/
  | rule (r : URule Unit)

/-- The user's classes (cegar/CegarPdaFactory.h:42-71, 261-270; PDAFactory.h:63-67). `S` is the state of the factory apart
from the label map, `C` is `configuration_t`, `R` is `concrete_trace_t`, and `X` is `Refinement<state_t>`. The functions of
the reconstruction get its members (`Recon`). -/
structure Client (S X C R : Type) where
  /-- The calls of `add_rule` in `build_pda()`. -/
  calls : S → RMap Nat → List (PdaCall Unit)
  /-- `initial()` -/
  initial : S → RMap Nat → List Nat
  /-- `accepting()` -/
  accepting : S → RMap Nat → List Nat
  /-- `initial_concrete_rules(rule)` -/
  first : S → Recon → URule Unit → List C
  /-- `search_concrete_rules(rule, conf)` -/
  next : S → Recon → URule Unit → C → List C
  /-- `get_header(conf)` -/
  header : C → Header
  /-- `get_concrete_trace(configurations, final_header, initial_abstract_state)` -/
  trace : S → Recon → List C → List Nat → Nat → R
  /-- `find_initial_refinement(rule)` -/
  refineFirst : S → Recon → URule Unit → Split X
  /-- `find_refinement(rule, configurations)` -/
  refineNext : S → Recon → URule Unit → List C → Split X
  /-- `factory.refine(refinement)` -/
  refine : S → Split X → S
  /-- `factory.refine(header_refinement)` -/
  refineHeader : S → HeaderRefinement Nat → S

/-- The template arguments of `cegar_solve`. -/
inductive Mode where
  | post | pre | dual
  deriving DecidableEq

/-- The call of the solver (cegar/CegarPdaFactory.h:457-463). -/
def Mode.accepts (h : HashOrder) (p : Pda Unit) (i : Instance Unit) : Mode → Instance Unit × Bool
  | .post => Instance.postStarAccepts h p i
  | .pre => Instance.preStarAccepts h p i
  | .dual => Instance.dualSearchAccepts h p i

/-- The call of `get_rule_trace_and_paths` (cegar/CegarPdaFactory.h:142). -/
def Mode.ruleTrace (h : HashOrder) (p : Pda Unit) (i : Instance Unit) : Mode → Option (RuleTrace Unit)
  | .post => Instance.getRuleTrace h p false i
  | .pre => Instance.getRuleTrace h p true i
  | .dual => Instance.getRuleTraceDual h p i

/-- The outcome of one iteration of the loop. -/
inductive Round (S R : Type) where
  /-- A trace is returned. -/
  | trace (r : R)
  /-- `std::nullopt` is returned. -/
  | no
  /-- The next iteration. -/
  | again (s : S) (m : RMap Nat)
  /-- Undefined behaviour, or lack of fuel in the search. -/
  | undef
  deriving DecidableEq

variable {S X C R : Type}

namespace Client

/-- The abstract PDA of an iteration: `build_pda()` (PDAFactory.h:59-60). -/
def pda (cl : Client S X C R) (s : S) (m : RMap Nat) : Pda Unit := Pda.build m.size (cl.calls s m)

/-- `factory.compile(initial_headers, final_headers)` (PDAFactory.h:59-62). -/
def instance_ (cl : Client S X C R) (ini fin : Nfa) (s : S) (m : RMap Nat) : Instance Unit :=
  absInstance (cl.pda s m).size m ini (cl.initial s m) fin (cl.accepting s m)

/-- The members of the reconstruction (cegar/CegarPdaFactory.h:142-158). -/
def recon (cl : Client S X C R) (ini fin : Nfa) (s : S) (m : RMap Nat) (t : RuleTrace Unit) : Recon :=
  { map := m, initNfa := ini, finNfa := fin, initStack := t.initialStack, finStack := t.finalStack,
    initPath := buildNfaPath (absConstruct (cl.pda s m).size m ini (cl.initial s m)).ids t.initialPath,
    finPath := buildNfaPath (absConstruct (cl.pda s m).size m fin (cl.accepting s m)).ids t.finalPath }

/-- The rule at a position of the trace. -/
def ruleAt (t : RuleTrace Unit) (i : Nat) : URule Unit := (t.rules[i]?).getD ⟨0, 0, 0, .pop, 0, ()⟩

/-- What the search of `reconstruct_trace` calls. -/
def search (cl : Client S X C R) (s : S) (k : Recon) (t : RuleTrace Unit) : Search C :=
  { len := t.rules.length, first := cl.first s k (ruleAt t 0), next := fun i c => cl.next s k (ruleAt t i) c,
    fin := fun c => k.finalizeHeader (cl.header c) }

/-- The end of an iteration, for a refinement of labels and states or a rule (cegar/CegarPdaFactory.h:474-480). -/
def applySplit (cl : Client S X C R) (s : S) (m : RMap Nat) : Split X → Round S R
  | .labels x r =>
    match m.refine r with
    | some m' => .again (cl.refine s (.labels x r)) m'
    | none => .undef
  | .rule r => .again (cl.refine s (.rule r)) m

/-- The end of `reconstruct_trace` (cegar/CegarPdaFactory.h:231-250) and of the iteration (470-486). -/
def finish (cl : Client S X C R) (s : S) (m : RMap Nat) (k : Recon) (t : RuleTrace Unit) : Found C → Round S R
  | .trace cs h => .trace (cl.trace s k cs h.conc (t.initialPath.headD 0))
  | .stuck depth cs =>
    cl.applySplit s m (if depth = 0 then cl.refineFirst s k (ruleAt t 0) else cl.refineNext s k (ruleAt t depth) cs)
  | .header info =>
    match m.refineHeader info with
    | some m' => .again (cl.refineHeader s info) m'
    | none => .undef

/-- One iteration of the loop of `cegar_solve` (cegar/CegarPdaFactory.h:455-487). `h` and `h'` are the orders in which
hash tables are enumerated, `fuel` is for the search. -/
def round (cl : Client S X C R) (h h' : HashOrder) (mode : Mode) (ini fin : Nfa) (fuel : Nat) (s : S) (m : RMap Nat) :
    Round S R :=
  let res := mode.accepts h (cl.pda s m) (cl.instance_ ini fin s m)
  if !res.2 then .no
  else
    match mode.ruleTrace h' (cl.pda s m) res.1 with
    | none => .undef
    | some t =>
      let k := cl.recon ini fin s m t
      match Cegar.search (cl.search s k t) (k.finalizeHeader k.initialHeader) fuel with
      | none => .undef
      | some f => cl.finish s m k t f

/-- `cegar_solve(factory, initial_headers, final_headers)` (cegar/CegarPdaFactory.h:453-489), with fuel: `some none` is
`std::nullopt`, and `none` is undefined behaviour or lack of fuel. -/
def solve (cl : Client S X C R) (h h' : HashOrder) (mode : Mode) (ini fin : Nfa) : Nat → S → RMap Nat → Option (Option R)
  | 0, _, _ => none
  | fuel + 1, s, m =>
    match cl.round h h' mode ini fin fuel s m with
    | .trace r => some (some r)
    | .no => some none
    | .again s' m' => cl.solve h h' mode ini fin fuel s' m'
    | .undef => none

end Client

end Cegar

end Verif
