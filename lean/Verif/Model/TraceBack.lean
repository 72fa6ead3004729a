import Verif.Model.AutOps

/-!
# internal/PdaSaturation.h:1062-1159: trace reconstruction (`TraceBack`), and Solver.h:357-391, 462-476

Automata with a single trace per transition (`TraceInfoType::Single`). The weights of the transitions have a type `T` of
their own (in the code it is the weight type of the PDA): nothing here reads them.
-/

namespace Verif

variable {W T : Type}

/-- The members `_path` and `_post` of `TraceBack` (internal/PdaSaturation.h:1071-1074). -/
structure TB where
  path : APath Nat
  post : Bool := false

/-- The outcomes of one round of the loop in `next`: return nothing, return a rule, go round again, or
undefined behaviour (a transition, rule or path edge that does not exist). -/
inductive TBRes (W : Type) where
  | done (tb : TB)
  | rule (r : URule W) (tb : TB)
  | again (tb : TB)
  | stuck

/-- `get_trace_label(from, label, to)` (internal/PAutomaton.h:650-655), `none` where the assertion
fails. -/
def Aut.traceLabel (a : Aut T) (t : Tr) : Option Trace := (a.getEdge t).map Prod.fst

/-- `rule_t(from, label, rule)` (internal/PDA.h:149-205). -/
def mkURule (src label : Nat) (r : Rule W) : URule W :=
  { src := src, pre := label, dst := r.to, op := r.op, opLabel := r.opLabel, weight := r.weight }

/-- The pre* case of `next` (internal/PdaSaturation.h:1112-1129); `path` is the path after `pop()`. -/
def tbPre (p : Pda W) (tb : TB) (path : APath Nat) (src label : Nat) (tr : Trace) : TBRes W :=
  match (p.st src).rules[tr.ruleId]? with
  | none => .stuck
  | some (r, _) =>
    .rule (mkURule src label r) { tb with path :=
      match r.op with
      | .pop => path
      | .swap => path.emplace r.to r.opLabel
      | .noop => path.emplace r.to label
      | .push => (path.emplace tr.state label).emplace r.to r.opLabel }

/-- The post* case of `next` (internal/PdaSaturation.h:1137-1155). -/
def tbPost (p : Pda W) (a : Aut T) (path : APath Nat) (tr : Trace) : TBRes W :=
  match (p.st tr.state).rules[tr.ruleId]? with
  | none => .stuck
  | some (r, _) =>
    match r.op with
    | .push =>
      match path.frontEdge with
      | none => .stuck
      | some (src2, label2, dst2) =>
        match a.traceLabel ⟨src2, label2, dst2⟩ with
        | none => .stuck
        | some tr2 =>
          .rule (mkURule tr2.state tr2.label r)
            { path := path.pop.emplace tr2.state tr2.label, post := true }
    | _ => .rule (mkURule tr.state tr.label r) { path := path.emplace tr.state tr.label, post := true }

/-- One round of the loop in `next` (internal/PdaSaturation.h:1105-1157). -/
def tbRound (p : Pda W) (a : Aut T) (tb : TB) : TBRes W :=
  match tb.path.frontEdge with
  | none => .done tb
  | some (src, label, dst) =>
    match a.traceLabel ⟨src, label, dst⟩ with
    | none => .stuck
    | some tr =>
      if tr.isNull then .done tb
      else if tr.isPre then tbPre p tb tb.path.pop src label tr
      else if tr.isPostEps then
        .again { tb with path := (tb.path.pop.emplace tr.state label).emplace src epsilon }
      else tbPost p a tb.path.pop tr

/-- `next()` (internal/PdaSaturation.h:1103-1158), with fuel: the outer `none` is undefined behaviour
or lack of fuel, the inner one is `nullopt`. -/
def tbNext (p : Pda W) (a : Aut T) : Nat → TB → Option (Option (URule W) × TB)
  | 0, _ => none
  | k + 1, tb =>
    match tbRound p a tb with
    | .done tb => some (none, tb)
    | .rule r tb => some (some r, tb)
    | .again tb => tbNext p a k tb
    | .stuck => none

/-- The loop `while (auto rule = tb.next()) trace.emplace_back(rule)` (Solver.h:416-418, 467-469), with
fuel `f` for every call of `next` and `k` for the loop. -/
def tbAll (p : Pda W) (a : Aut T) (f : Nat) : Nat → TB → Option (List (URule W) × TB)
  | 0, _ => none
  | k + 1, tb =>
    match tbNext p a f tb with
    | none => none
    | some (none, tb) => some ([], tb)
    | some (some r, tb) => (tbAll p a f k tb).map fun x => (r :: x.1, x.2)

/-- Fuel for the loops; `c14_traceback_terminates` shows that it suffices. -/
def tbFuel (a : Aut T) (path : APath Nat) : Nat := path.edges.length * 3 ^ a.edges.length + 1

/-- `_get_trace_stack_path` (Solver.h:462-476): the rules in the order in which they are applied, the
stack and the states of the remaining path. -/
def traceStackPath (p : Pda W) (a : Aut T) (path : APath Nat) :
    Option (List (URule W) × List Nat × List Nat) :=
  (tbAll p a (tbFuel a path) (tbFuel a path) { path := path }).map fun x =>
    (if x.2.post then x.1.reverse else x.1, x.2.path.pathAndStack.2, x.2.path.pathAndStack.1)

/-- `_decode_edges` (Solver.h:357-369), with label ids for the symbols. -/
def decodeEdges (p : Pda W) (path : APath Nat) : Config :=
  (path.frontState, path.stack.filter fun l => l < p.nLabels)

/-- The loop of `_get_trace` (Solver.h:384-386). -/
def traceLoop (p : Pda W) (a : Aut T) (f : Nat) : Nat → TB → Option (List Config × TB)
  | 0, _ => none
  | k + 1, tb =>
    match tbNext p a f tb with
    | none => none
    | some (none, tb) => some ([], tb)
    | some (some _, tb) => (traceLoop p a f k tb).map fun x => (decodeEdges p tb.path :: x.1, x.2)

/-- `_get_trace(pda, automaton, path)` (Solver.h:371-391). -/
def getTrace (p : Pda W) (a : Aut T) (path : APath Nat) : Option (List Config) :=
  if path.isNull then some []
  else (traceLoop p a (tbFuel a path) (tbFuel a path) { path := path }).map fun x =>
    if x.2.post then (decodeEdges p path :: x.1).reverse else decodeEdges p path :: x.1

/-- `get_trace(pda, automaton, state, stack)` (Solver.h:343-354), not `Shortest`. `none` where the
constructor of the path reads `back()` of an empty vector. -/
def getTraceFor (h : HashOrder) (p : Pda W) (a : Aut T) (q : Nat) (w : List Nat) : Option (List Config) :=
  match APath.mk? (a.acceptPath h q w) w with
  | none => none
  | some path => getTrace p a path

end Verif
