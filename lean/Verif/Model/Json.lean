import Verif.Model.Typed
import Verif.Model.Weight
import Mathlib.Data.String.Basic

/-!
# PDA.h:279-384 (printing a PDA as JSON) and pdaaal-bin/parsing/PdaJsonParser.h:153-495 (reading it)

Between the two lies the text of the JSON document, which the library nlohmann json writes and reads. It is not modelled:
the reader receives the SAX events of the printed document in order (`JDoc.events`). A non-negative number is reported
by `number_unsigned`, a negative one by `number_integer`. A JSON object is a `std::map`, so its keys are visited in
ascending order.
-/

namespace Verif

variable {L S W : Type}

/-! ## Weights in JSON -/

/-- What printing and reading uses of a weight type: `W::is_weight`, `W::is_vector`, `W::is_signed`, the default value of
`pda_rule_t::_weight`, the numbers that are printed for a weight, and storing a number that was read
(`PdaJsonParser.h`:205-213, 221-229, 241-245, 258-262), where `none` is the error for a number out of range. -/
structure WeightIO (W : Type) where
  isWeight : Bool
  isVector : Bool
  isSigned : Bool
  zero : W
  nums : W → List Int
  put : W → Int → Option W

/-- `weight<void>`. -/
def WeightIO.void : WeightIO Unit :=
  { isWeight := false, isVector := false, isSigned := false, zero := (), nums := fun _ => [], put := fun _ _ => none }

/-- The test of a number against the bounds of the type: at least the maximum is too large, and for signed types at most
the minimum is too small. -/
def WeightIO.inRange (t : NumT) (z : Int) : Bool := decide (z < t.nmax) && (!t.signed || decide (t.nmin < z))

/-- `weight<T>` for an integer type `T`. -/
def WeightIO.scalar (t : NumT) : WeightIO Int :=
  { isWeight := true, isVector := false, isSigned := t.signed, zero := 0, nums := fun w => [w]
    put := fun _ z => if WeightIO.inRange t z then some z else none }

/-- `weight<std::vector<T>>` for an integer type `T`. -/
def WeightIO.vector (t : NumT) : WeightIO (List Int) :=
  { isWeight := true, isVector := true, isSigned := t.signed, zero := [], nums := fun w => w
    put := fun w z => if WeightIO.inRange t z then some (w ++ [z]) else none }

/-! ## The printed document -/

/-- The values inside the JSON object of a rule. -/
inductive JVal where
  | str (s : String)
  | num (z : Int)
  | nums (l : List Int)
  deriving DecidableEq, Repr

/-- The JSON object of a rule. -/
abbrev JRule := VMap String JVal

/-- What stands under a label in the JSON object of a state: one rule or an array of rules. -/
inductive JEntry where
  | one (r : JRule)
  | many (rs : List JRule)

/-- The JSON object of a state. -/
abbrev JState := VMap String JEntry

/-- `{"pda": {"states": [...]}}` with numbered states, or `{"pda": {"states": {...}}}` with named states. -/
inductive JDoc where
  | numbered (states : List JState)
  | named (states : VMap String JState)

/-- `j[key] = value` on a JSON object. -/
def jset {V : Type} (m : VMap String V) (k : String) (v : V) : VMap String V := (m.insertOrAssign ltB k v).1

/-- `j_state[pre_label]` is made an array or extended (PDA.h:314-324). -/
def jadd (m : JState) (k : String) (r : JRule) : JState :=
  match m.find ltB k with
  | some (.many rs) => jset m k (.many (rs ++ [r]))
  | some (.one r0) => jset m k (.many [r0, r])
  | none => jset m k (.one r)

/-- The first part of `pda_rule_to_json` (PDA.h:296-313); `j_rule["to"]` has been set by the caller. -/
def jrule [Inhabited L] (io : WeightIO W) (str : L → String) (t : TPda L W) (dst : JVal) (pre : String) (r : Rule W) : JRule :=
  let j := jset [] "to" dst
  let j := match r.op with
    | .pop => jset j "pop" (.str "")
    | .swap => jset j "swap" (.str (str (t.symbol r.opLabel)))
    | .noop => jset j "swap" (.str pre)
    | .push => jset j "push" (.str (str (t.symbol r.opLabel)))
  if io.isWeight then
    jset j "weight" (if io.isVector then .nums (io.nums r.weight) else .num ((io.nums r.weight).headD 0))
  else j

/-- The labels under which a rule is printed (PDA.h:334-344, 361-370). -/
def jlabels [Inhabited L] (str : L → String) (t : TPda L W) (l : Labels) : List String :=
  if l.wildcard then ["*"] else l.labels.map fun g => str (t.symbol g)

/-- The JSON object of a state: the loop over the rules (PDA.h:333-345, 357-371). -/
def jstate [Inhabited L] (io : WeightIO W) (str : L → String) (dst : Nat → JVal) (t : TPda L W) (s : PState W) : JState :=
  s.rules.foldl (fun m e => (jlabels str t e.2).foldl (fun m k => jadd m k (jrule io str t (dst e.1.to) k e.1)) m) []

/-- `to_json` for PDAs with numbered states (PDA.h:327-349). -/
def TPda.toJson [Inhabited L] (io : WeightIO W) (str : L → String) (t : TPda L W) : JDoc :=
  .numbered (t.states.map (jstate io str (fun i => .num i) t))

/-- `PDA<label_t, W, .., state_t, false>`: with a map for the names of states (PDA.h:40-58). -/
structure NPda (L S W : Type) extends TPda L W where
  names : List S := []

/-- `get_state(id)`; an id out of range, undefined in C++, gives the default name. -/
def NPda.stateName [Inhabited S] (t : NPda L S W) (i : Nat) : S := (t.names[i]?).getD default

/-- `insert_label(label)` (PDA.h:196-198): the new automaton and the id. -/
def NPda.insertLabel [DecidableEq L] (t : NPda L S W) (l : L) : NPda L S W × Nat :=
  let u := t.toTPda.insertLabel l
  ({ t with toTPda := u.1 }, u.2)

/-- `insert_state(state)` (PDA.h:199-208) with a state map: the new automaton and the id. -/
def NPda.insertState [DecidableEq S] (t : NPda L S W) (n : S) : NPda L S W × Nat :=
  match t.names.idxOf? n with
  | some i => ({ t with states := (t.core.addState i).states }, i)
  | none => ({ t with names := t.names ++ [n], states := (t.core.addState t.names.length).states }, t.names.length)

/-- `add_rule_detail(from, rule, wildcard, pre)` (PDA.h:209-211). -/
def NPda.addRuleDetail [LinearOrder W] (t : NPda L S W) (src : Nat) (r : Rule W) (wc : Bool) (pre : List Nat) : NPda L S W :=
  { t with states := (t.core.addRuleImpl src r wc pre).states }

/-- `to_json` for PDAs with named states (PDA.h:350-384): the states with rules, then the names beyond them. -/
def NPda.toJson [Inhabited L] [Inhabited S] (io : WeightIO W) (str : L → String) (strS : S → String) (t : NPda L S W) : JDoc :=
  let m := t.states.zipIdx.foldl (fun m x =>
    jset m (strS (t.stateName x.2)) (jstate io str (fun i => .str (strS (t.stateName i))) t.toTPda x.1)) []
  .named (((List.range t.names.length).drop t.states.length).foldl (fun m i => jset m (strS (t.stateName i)) []) m)

/-! ## SAX events -/

/-- The events of `nlohmann::json::sax_parse`. -/
inductive JEv where
  | null
  | bool (b : Bool)
  | int (z : Int)
  | uns (n : Nat)
  | float
  | str (s : String)
  | startObj
  | key (s : String)
  | endObj
  | startArr
  | endArr
  deriving DecidableEq, Repr

/-- A number in the text of the document. -/
def numEv (z : Int) : JEv := if 0 ≤ z then .uns z.toNat else .int z

def JVal.events : JVal → List JEv
  | .str s => [.str s]
  | .num z => [numEv z]
  | .nums l => .startArr :: l.map numEv ++ [.endArr]

/-- The events of a JSON object. -/
def objEvents {V : Type} (f : V → List JEv) (m : VMap String V) : List JEv :=
  .startObj :: m.flatMap (fun e => .key e.1 :: f e.2) ++ [.endObj]

def JRule.events (r : JRule) : List JEv := objEvents JVal.events r

def JEntry.events : JEntry → List JEv
  | .one r => JRule.events r
  | .many rs => .startArr :: rs.flatMap JRule.events ++ [.endArr]

def JState.events (s : JState) : List JEv := objEvents JEntry.events s

/-- The events of a document. -/
def JDoc.events : JDoc → List JEv
  | .numbered ss => [.startObj, .key "pda", .startObj, .key "states", .startArr] ++ ss.flatMap JState.events ++ [.endArr, .endObj, .endObj]
  | .named ss => [.startObj, .key "pda", .startObj, .key "states"] ++ objEvents JState.events ss ++ [.endObj, .endObj]

/-! ## The SAX handler -/

/-- `PdaSaxHelper::keys` (PdaJsonParser.h:45). -/
inductive JKey where
  | none | unknown | pda | states | stateName | fromLabel | dest | pop | swap | push | weight
  deriving DecidableEq, Repr

/-- `PdaSaxHelper::context_type` (PdaJsonParser.h:84). -/
inductive JCtx where
  | unknown | initial | pda | stateArray | statesObject | state | ruleArray | rule | weightArray
  deriving DecidableEq, Repr

/-- The variant in `JsonParserContext` (utils/SaxHandlerHelpers.h:64-91): the required keys still missing, or the index.
The mask of flags (see C38) is the list of its flags. -/
inductive JBody where
  | object (missing : List Nat)
  | array (index : Nat)
  deriving DecidableEq, Repr

/-- `JsonParserContext`. -/
structure JContext where
  type : JCtx
  body : JBody
  deriving DecidableEq, Repr

/-- `PdaSaxHandler` (PdaJsonParser.h:153-495). The automaton is built in the vector container; `c23_hash_container` shows
that the hash container used by the code gives the same result. -/
structure Sax (W : Type) where
  pda : NPda String String W := {}
  src : Nat := 0
  pre : List Nat := []
  wc : Bool := false
  rule : Rule W
  lastKey : JKey := .none
  stack : List JContext := []

namespace Sax

/-- `current_rule = {}` (internal/PDA.h:96-122). -/
def rule0 (io : WeightIO W) : Rule W := { «to» := 0, op := .push, weight := io.zero, opLabel := 0 }

/-- `insert_label` on the automaton under construction. -/
def insertLabel (s : Sax W) (l : String) : Sax W × Nat := ({ s with pda := (s.pda.insertLabel l).1 }, (s.pda.insertLabel l).2)

/-- `insert_state` on the automaton under construction. -/
def insertState (s : Sax W) (n : String) : Sax W × Nat := ({ s with pda := (s.pda.insertState n).1 }, (s.pda.insertState n).2)

/-- `element_done()` (utils/SaxHandlerHelpers.h:157-164). -/
def elementDone (s : Sax W) : Sax W :=
  match s.stack with
  | ⟨ty, .array i⟩ :: r => { s with stack := ⟨ty, .array (i + 1)⟩ :: r }
  | _ => { s with lastKey := .none }

/-- `current_context_type()`. -/
def top (s : Sax W) : Option JCtx := s.stack.head?.map (·.type)

def push (s : Sax W) (ty : JCtx) (b : JBody) : Sax W := { s with stack := ⟨ty, b⟩ :: s.stack }

/-- `null()`, `boolean(value)`, `number_float(value)` (PdaJsonParser.h:196-201, 273-275). -/
def skip (s : Sax W) : Option (Sax W) := if s.lastKey = .unknown then some s.elementDone else none

/-- Store a number in the weight of the current rule. -/
def putWeight (io : WeightIO W) (s : Sax W) (z : Int) : Option (Sax W) :=
  (io.put s.rule.weight z).map fun w => { s with rule := { s.rule with weight := w } }.elementDone

/-- `number_integer(value)` (PdaJsonParser.h:202-236). -/
def int (io : WeightIO W) (s : Sax W) (z : Int) : Option (Sax W) :=
  if io.isWeight && io.isVector && io.isSigned && s.top == some .weightArray then s.putWeight io z
  else match s.lastKey with
    | .unknown => some s.elementDone
    | .weight => if io.isWeight && !io.isVector && io.isSigned then s.putWeight io z else none
    | _ => none

/-- `number_unsigned(value)` (PdaJsonParser.h:237-272). -/
def uns (io : WeightIO W) (names : Bool) (s : Sax W) (n : Nat) : Option (Sax W) :=
  if io.isWeight && io.isVector && s.top == some .weightArray then s.putWeight io n
  else match s.lastKey with
    | .dest => if names then none else some { s with rule := { s.rule with «to» := n } }.elementDone
    | .weight => if io.isWeight && !io.isVector then s.putWeight io n else some s.elementDone
    | .unknown => some s.elementDone
    | _ => none

/-- `string(value)` (PdaJsonParser.h:276-314). -/
def str (names : Bool) (s : Sax W) (v : String) : Option (Sax W) :=
  if s.stack.isEmpty then none
  else match s.lastKey with
    | .dest =>
      if names then
        let u := s.insertState v
        some { u.1 with rule := { u.1.rule with «to» := u.2 } }.elementDone
      else none
    | .pop => some { s with rule := { s.rule with op := .pop, opLabel := epsilon } }.elementDone
    | .swap =>
      if s.wc && v == "*" then some { s with rule := { s.rule with op := .noop, opLabel := epsilon } }.elementDone
      else
        let u := s.insertLabel v
        some { u.1 with rule := { u.1.rule with op := .swap, opLabel := u.2 } }.elementDone
    | .push =>
      let u := s.insertLabel v
      some { u.1 with rule := { u.1.rule with op := .push, opLabel := u.2 } }.elementDone
    | .unknown => some s.elementDone
    | _ => none

/-- The required keys of a rule (PdaJsonParser.h:177). -/
def ruleKeys (io : WeightIO W) : List Nat := if io.isWeight then [1, 2, 3] else [1, 2]

/-- `start_object()` (PdaJsonParser.h:318-362). -/
def startObj (io : WeightIO W) (names : Bool) (s : Sax W) : Option (Sax W) :=
  match s.top with
  | none => some (s.push .initial (.object [1]))
  | some .stateArray => some (s.push .state (.object []))
  | some .ruleArray => some (s.push .rule (.object (ruleKeys io)))
  | some _ => match s.lastKey with
    | .pda => some (s.push .pda (.object [1]))
    | .states => if names then some (s.push .statesObject (.object [])) else none
    | .stateName => some (s.push .state (.object []))
    | .fromLabel => some (s.push .rule (.object (ruleKeys io)))
    | .unknown => some (s.push .unknown (.object []))
    | _ => none

/-- `handle_key` (utils/SaxHandlerHelpers.h:141-155). -/
def handleKey (s : Sax W) (flag : Nat) (k : JKey) : Option (Sax W) :=
  match s.stack with
  | ⟨ty, .object m⟩ :: r =>
    if m.contains flag then some { s with stack := ⟨ty, .object (m.filter (· ≠ flag))⟩ :: r, lastKey := k } else none
  | _ => none

/-- `key(key)` (PdaJsonParser.h:363-428). -/
def key (io : WeightIO W) (names : Bool) (s : Sax W) (k : String) : Option (Sax W) :=
  match s.top with
  | none => none
  | some .initial => if k = "pda" then s.handleKey 1 .pda else some { s with lastKey := .unknown }
  | some .pda => if k = "states" then s.handleKey 1 .states else some { s with lastKey := .unknown }
  | some .statesObject =>
    if names then
      let u := { s with lastKey := .stateName }.insertState k
      some { u.1 with src := u.2 }
    else none
  | some .state =>
    if k = "*" then some { s with lastKey := .fromLabel, pre := [], wc := true }
    else
      let u := { s with lastKey := .fromLabel }.insertLabel k
      some { u.1 with pre := [u.2], wc := false }
  | some .rule =>
    if k = "to" then s.handleKey 1 .dest
    else if k = "pop" then s.handleKey 2 .pop
    else if k = "swap" then s.handleKey 2 .swap
    else if k = "push" then s.handleKey 2 .push
    else if io.isWeight && k == "weight" then s.handleKey 3 .weight
    else none
  | some .unknown => some s
  | some _ => none

/-- `end_object()` (PdaJsonParser.h:429-459) with `embedded_parser = false`. -/
def endObj [LinearOrder W] (io : WeightIO W) (names : Bool) (s : Sax W) : Option (Sax W) :=
  match s.stack with
  | ⟨ty, .object []⟩ :: r =>
    let s := match ty with
      | .state => if names then s else { s with src := s.src + 1 }
      | .rule => { s with pda := s.pda.addRuleDetail s.src s.rule s.wc s.pre, rule := rule0 io }
      | _ => s
    some { s with stack := r }.elementDone
  | _ => none

/-- `start_array()` (PdaJsonParser.h:460-489). -/
def startArr (io : WeightIO W) (names : Bool) (s : Sax W) : Option (Sax W) :=
  if s.stack.isEmpty then none
  else match s.lastKey with
    | .states => if names then none else some { s.push .stateArray (.array 0) with src := 0 }
    | .fromLabel => some (s.push .ruleArray (.array 0))
    | .unknown => some (s.push .unknown (.object []))
    | .weight => if io.isWeight && io.isVector then some (s.push .weightArray (.array 0)) else none
    | _ => none

/-- `end_array()` (PdaJsonParser.h:490-497). -/
def endArr (s : Sax W) : Option (Sax W) :=
  match s.stack with
  | [] => none
  | _ :: r => some { s with stack := r }.elementDone

/-- One event; `none` is an error, reported by an exception. -/
def event [LinearOrder W] (io : WeightIO W) (names : Bool) (s : Sax W) : JEv → Option (Sax W)
  | .null => s.skip
  | .bool _ => s.skip
  | .float => s.skip
  | .int z => s.int io z
  | .uns n => s.uns io names n
  | .str v => s.str names v
  | .startObj => s.startObj io names
  | .key k => s.key io names k
  | .endObj => s.endObj io names
  | .startArr => s.startArr io names
  | .endArr => s.endArr

/-- The events in order. -/
def run [LinearOrder W] (io : WeightIO W) (names : Bool) : List JEv → Sax W → Option (Sax W)
  | [], s => some s
  | e :: es, s => (s.event io names e).bind (run io names es)

end Sax

/-- `PdaJsonParser::parse<W, use_state_names>` on the events of a document (PdaJsonParser.h:499-511). -/
def parsePda [LinearOrder W] (io : WeightIO W) (names : Bool) (es : List JEv) : Option (NPda String String W) :=
  (Sax.run io names es { rule := Sax.rule0 io }).map (·.pda)

end Verif
