import Verif.Model.JsonInstance
import Mathlib.Data.List.Lex
import Mathlib.Algebra.Order.Group.Int

/-!
# pdaaal-bin/parsing/SolverInstanceJsonParser.h: a PDA with two P-automata in one document

The document is `{"instance": [type, pda, automaton, automaton]}`. The parser switches between four handlers, see
SaxHandlerDispatch.h: a handler that returns `false` without having reported an error is left, and `callback` chooses the next one.
Here a handler tells by a flag that it stops.
-/

namespace Verif

variable {W : Type}

/-! ## The weight types -/

/-- `PdaTypeSaxHandler::weight_types` (PdaJsonParser.h:590). -/
inductive WKind where
  | none | uint | int | uints | ints
  deriving DecidableEq, Repr

/-- The values of the weights. -/
def WKind.Carrier : WKind → Type
  | .none => Unit
  | .uint => Int
  | .int => Int
  | .uints => List Int
  | .ints => List Int

instance : (k : WKind) → LinearOrder k.Carrier
  | .none => inferInstanceAs (LinearOrder Unit)
  | .uint => inferInstanceAs (LinearOrder Int)
  | .int => inferInstanceAs (LinearOrder Int)
  | .uints => inferInstanceAs (LinearOrder (List Int))
  | .ints => inferInstanceAs (LinearOrder (List Int))

/-- `W::zero()`. -/
instance : (k : WKind) → Zero k.Carrier
  | .none => ⟨()⟩
  | .uint => ⟨(0 : Int)⟩
  | .int => ⟨(0 : Int)⟩
  | .uints => ⟨([] : List Int)⟩
  | .ints => ⟨([] : List Int)⟩

/-- How these weights are printed and read. -/
def WKind.io : (k : WKind) → WeightIO k.Carrier
  | .none => WeightIO.void
  | .uint => WeightIO.scalar (.uint 32)
  | .int => WeightIO.scalar (.sint 32)
  | .uints => WeightIO.vector (.uint 32)
  | .ints => WeightIO.vector (.sint 32)

/-! ## The handler for the type -/

/-- `PdaTypeSaxHelper::keys` (PdaJsonParser.h:513). -/
inductive TKey where
  | none | stateNames | weightType
  deriving DecidableEq, Repr

/-- `PdaTypeSaxHelper::context_type` (PdaJsonParser.h:528). -/
inductive TCtx where
  | initial | weightArray
  deriving DecidableEq, Repr

/-- `PdaTypeSaxHandler` (PdaJsonParser.h:561-741). -/
structure TSax where
  weight : String := ""
  names : Bool := false
  array : Bool := false
  size : Option Nat := none
  lastKey : TKey := .none
  stack : List (TCtx × JBody) := []

namespace TSax

/-- `element_done()` (utils/SaxHandlerHelpers.h:152-159). -/
def elementDone (s : TSax) : TSax :=
  match s.stack with
  | (ty, .array i) :: r => { s with stack := (ty, .array (i + 1)) :: r }
  | _ => { s with lastKey := .none }

/-- `get_pda_sax_handler()` (PdaJsonParser.h:603-642): which handler is made for the PDA. -/
def kind (s : TSax) : WKind :=
  if s.weight = "uint" then (if s.array then .uints else .uint)
  else if s.weight = "int" then (if s.array then .ints else .int)
  else .none

/-- `handle_index` (PdaJsonParser.h:567-576), which also moves to the next index. -/
def handleIndex (s : TSax) (i : Nat) : SaxRes TSax :=
  match s.stack with
  | (ty, .array j) :: r => if j = i then .ok { s with stack := (ty, .array (j + 1)) :: r } else .error
  | _ => .error

/-- `number_unsigned(value)` (PdaJsonParser.h:658-665), which looks at the top of the stack in any case. -/
def uns (s : TSax) (n : Nat) : SaxRes TSax :=
  match s.stack with
  | [] => .undefined
  | (.weightArray, _) :: _ => (s.handleIndex 1).bind fun s => .ok { s with size := some n }.elementDone
  | _ => .error

/-- `string(value)` (PdaJsonParser.h:669-683). -/
def str (s : TSax) (v : String) : SaxRes TSax :=
  match s.stack with
  | [] => .error
  | (.weightArray, _) :: _ => (s.handleIndex 0).bind fun s => .ok { s with weight := v }.elementDone
  | _ => if s.lastKey = .weightType then .ok { s with weight := v }.elementDone else .error

/-- `handle_key` (utils/SaxHandlerHelpers.h:136-150). -/
def handleKey (s : TSax) (flag : Nat) (k : TKey) : SaxRes TSax :=
  match s.stack with
  | (ty, .object m) :: r =>
    if m.contains flag then .ok { s with stack := (ty, .object (m.filter (· ≠ flag))) :: r, lastKey := k } else .error
  | _ => .error

/-- `key(key)` (PdaJsonParser.h:694-706). -/
def key (s : TSax) (k : String) : SaxRes TSax :=
  match s.stack with
  | (.initial, _) :: _ =>
    if k = "state-names" then s.handleKey 1 .stateNames
    else if k = "weight-type" then s.handleKey 2 .weightType
    else .error
  | _ => .error

/-- `end_object()` (PdaJsonParser.h:707-720). -/
def endObj (s : TSax) : SaxRes (TSax × Bool) :=
  match s.stack with
  | [(_, .object [])] => .ok ({ s with stack := [] }, true)
  | (_, .object []) :: r => .ok ({ s with stack := r }.elementDone, false)
  | _ => .error

/-- `start_array()` (PdaJsonParser.h:721-732). -/
def startArr (s : TSax) : SaxRes TSax :=
  if s.stack.isEmpty then .error
  else if s.lastKey = .weightType then .ok { s with stack := (.weightArray, .array 0) :: s.stack, array := true }
  else .error

/-- `end_array()` (PdaJsonParser.h:733-740). -/
def endArr (s : TSax) : SaxRes TSax :=
  match s.stack with
  | [] => .error
  | _ :: r => .ok { s with stack := r }.elementDone

/-- One event; the flag tells whether the handler stops. -/
def event (s : TSax) : JEv → SaxRes (TSax × Bool)
  | .null => .error
  | .bool b => if s.lastKey = .stateNames then .ok ({ s with names := b }.elementDone, false) else .error
  | .float => .error
  | .int _ => .error
  | .uns n => (s.uns n).bind fun s => .ok (s, false)
  | .str v => (s.str v).bind fun s => .ok (s, false)
  | .startObj => if s.stack.isEmpty then .ok ({ s with stack := [(.initial, .object [1, 2])] }, false) else .error
  | .key k => (s.key k).bind fun s => .ok (s, false)
  | .endObj => s.endObj
  | .startArr => s.startArr.bind fun s => .ok (s, false)
  | .endArr => s.endArr.bind fun s => .ok (s, false)

end TSax

/-! ## The handlers for the PDA and the automata inside an instance -/

/-- `PdaSaxHandler::init()` with `embedded_parser = true` (PdaJsonParser.h:184-189). -/
def Sax.inside (io : WeightIO W) : Sax W := { rule := Sax.rule0 io, stack := [⟨.initial, .object [1]⟩], lastKey := .pda }

/-- `end_object()` (PdaJsonParser.h:427-455) up to `pop_context()`. -/
def Sax.close [LinearOrder W] (io : WeightIO W) (names : Bool) (s : Sax W) : Option (Sax W) :=
  match s.stack with
  | ⟨ty, .object []⟩ :: r =>
    let s := match ty with
      | .state => if names then s else { s with src := s.src + 1 }
      | .rule => { s with pda := s.pda.addRuleDetail s.src s.rule s.wc s.pre, rule := rule0 io }
      | _ => s
    some { s with stack := r }
  | _ => none

/-- `end_object()` with `embedded_parser = true`. -/
def Sax.endObjIn [LinearOrder W] (io : WeightIO W) (names : Bool) (s : Sax W) : SaxRes (Sax W × Bool) :=
  match s.close io names with
  | none => .error
  | some s' => match s'.stack with
    | [] => .undefined
    | ⟨.initial, _⟩ :: _ => .ok (s', true)
    | _ => .ok (s'.elementDone, false)

/-- One event of `PdaSaxHandler` with `embedded_parser = true`. -/
def Sax.eventIn [LinearOrder W] (io : WeightIO W) (names : Bool) (s : Sax W) (e : JEv) : SaxRes (Sax W × Bool) :=
  if e = .endObj then s.endObjIn io names
  else match s.event io names e with
    | some s' => .ok (s', false)
    | none => .error

/-- `PAutomatonSaxHandler::init()` with `embedded_parser = true` (PAutomatonJsonParser.h:136-141). -/
def PSax.inside [Zero W] (p : NPda String String W) : PSax W :=
  { make := { pda := p, aut := Aut.special p.states.length [] true }, req := false, stack := [(.initial, .object [1])], lastKey := .pAutomaton }

/-- `end_object()` (PAutomatonJsonParser.h:329-344) with `embedded_parser = true`. -/
def PSax.endObjIn (s : PSax W) : SaxRes (PSax W × Bool) :=
  match s.stack with
  | (_, .object []) :: r => match r with
    | [] => .undefined
    | (.initial, _) :: _ => .ok ({ s with stack := r }, true)
    | _ => .ok ({ s with stack := r }.elementDone, false)
  | _ => .error

/-- One event of `PAutomatonSaxHandler` with `embedded_parser = true`. -/
def PSax.eventIn [Zero W] (names : Bool) (s : PSax W) (e : JEv) : SaxRes (PSax W × Bool) :=
  if e = .endObj then s.endObjIn else (s.event names e).bind fun s => .ok (s, false)

/-- The automaton of a handler: `get_automaton()`. -/
def PSax.aut (s : PSax W) : NAut W := { toAut := s.make.aut, stateNames := s.make.stateNames }

/-! ## The handler for the instance -/

/-- A solver instance, `std::variant` over the types of weights and states. -/
structure Inst where
  kind : WKind
  names : Bool
  pda : NPda String String kind.Carrier
  ini : NAut kind.Carrier
  fin : NAut kind.Carrier

/-- Which handler receives the events, with what has been read before. The PDA is handed on from handler to handler, since the
code gives them a reference. -/
inductive IPhase where
  | self (done : Option Inst)
  | type
  | pda (k : WKind) (names : Bool) (s : Sax k.Carrier)
  | first (k : WKind) (names : Bool) (s : PSax k.Carrier)
  | second (k : WKind) (names : Bool) (a : NAut k.Carrier) (s : PSax k.Carrier)

/-- `SolverInstanceSaxHelper::context_type` (SolverInstanceJsonParser.h:64). -/
inductive ICtx where
  | initial | instance
  deriving DecidableEq, Repr

/-- `SolverInstanceSaxHandler` (SolverInstanceJsonParser.h:87-231); `lastKey` tells whether `last_key` is `instance`. -/
structure ISax where
  stack : List (ICtx × JBody) := []
  lastKey : Bool := false
  type : TSax := {}
  phase : IPhase := .self none

namespace ISax

/-- `element_done()` (utils/SaxHandlerHelpers.h:152-159). -/
def elementDone (s : ISax) : ISax :=
  match s.stack with
  | (ty, .array i) :: r => { s with stack := (ty, .array (i + 1)) :: r }
  | _ => { s with lastKey := false }

/-- `callback` (SolverInstanceJsonParser.h:143-173). -/
def callback (s : ISax) : SaxRes ISax :=
  match s.stack with
  | (_, .array i) :: _ => match i, s.phase with
    | 0, _ => .ok { s with phase := .type }.elementDone
    | 1, _ => .ok { s with phase := .pda s.type.kind s.type.names (Sax.inside s.type.kind.io) }.elementDone
    | 2, .pda k names u => .ok { s with phase := .first k names (PSax.inside u.pda) }.elementDone
    | 3, .first k names u => .ok { s with phase := .second k names u.aut (PSax.inside u.make.pda) }.elementDone
    | 4, .second k names a u => .ok { s with phase := .self (some ⟨k, names, u.make.pda, a, u.aut⟩) }.elementDone
    | _, _ => .error
  | _ => .undefined

/-- The handler's own events (SolverInstanceJsonParser.h:175-229); the flag tells whether `callback` is called. -/
def own (s : ISax) : JEv → SaxRes (ISax × Bool)
  | .startObj => if s.stack.isEmpty then .ok ({ s with stack := [(.initial, .object [1])] }, false) else .error
  | .key k => match s.stack with
    | (.initial, .object m) :: r =>
      if k = "instance" ∧ m.contains 1 = true then
        .ok ({ s with stack := (.initial, .object (m.filter (· ≠ 1))) :: r, lastKey := true }, false)
      else .error
    | _ => .error
  | .endObj => match s.stack with
    | (_, .object []) :: r => .ok ({ s with stack := r }.elementDone, false)
    | _ => .error
  | .startArr =>
    if s.stack.isEmpty then .error
    else if s.lastKey then .ok ({ s with stack := (.instance, .array 0) :: s.stack }, true)
    else .error
  | .endArr => match s.stack with
    | [] => .error
    | _ :: r => .ok ({ s with stack := r }.elementDone, false)
  | _ => .error

/-- `SAXHandlerDispatch` (SaxHandlerDispatch.h:73-111): the event goes to the chosen handler, and `callback` is called if it stops. -/
def event (s : ISax) (e : JEv) : SaxRes ISax :=
  let next (x : ISax × Bool) : SaxRes ISax := if x.2 then x.1.callback else .ok x.1
  match s.phase with
  | .self _ => (s.own e).bind next
  | .type => (s.type.event e).bind fun x => next ({ s with type := x.1 }, x.2)
  | .pda k names u => (u.eventIn k.io names e).bind fun x => next ({ s with phase := .pda k names x.1 }, x.2)
  | .first k names u => (u.eventIn names e).bind fun x => next ({ s with phase := .first k names x.1 }, x.2)
  | .second k names a u => (u.eventIn names e).bind fun x => next ({ s with phase := .second k names a x.1 }, x.2)

/-- The events in order. -/
def run : List JEv → ISax → SaxRes ISax
  | [], s => .ok s
  | e :: es, s => (s.event e).bind (run es)

end ISax

/-- `get_solver_instance()` (SolverInstanceJsonParser.h:128-141), whose values must have been set. -/
def ISax.result (s : ISax) : SaxRes Inst :=
  match s.phase with
  | .self (some i) => .ok i
  | _ => .undefined

/-- `SolverInstanceJsonParser::parse` (SolverInstanceJsonParser.h:235-246). -/
def parseInstDoc (es : List JEv) : SaxRes Inst := (ISax.run es {}).bind ISax.result

/-! ## Documents -/

/-- The value of `weight-type`. -/
inductive TVal where
  | str (s : String)
  | arr (l : List JRef)
  deriving DecidableEq, Repr

/-- The entries of the first element. -/
inductive TField where
  | names (b : Bool)
  | weight (v : TVal)
  deriving DecidableEq, Repr

def TVal.events : TVal → List JEv
  | .str s => [.str s]
  | .arr l => .startArr :: l.map JRef.event ++ [.endArr]

def TField.events : TField → List JEv
  | .names b => [.key "state-names", .bool b]
  | .weight v => .key "weight-type" :: v.events

def typeEvents (ts : List TField) : List JEv := .startObj :: ts.flatMap TField.events ++ [.endObj]

/-- The second element of an instance, and the value of `pda` in the document of a PDA. -/
def JDoc.inner : JDoc → List JEv
  | .numbered ss => [.startObj, .key "states", .startArr] ++ ss.flatMap JState.events ++ [.endArr, .endObj]
  | .named ss => [.startObj, .key "states"] ++ objEvents JState.events ss ++ [.endObj]

/-- The third and the fourth element of an instance. -/
def autInner (fs : List JField) : List JEv := .startObj :: fs.flatMap JField.events ++ [.endObj]

/-- The document with these four elements. -/
def instEvents (t p a b : List JEv) : List JEv :=
  [.startObj, .key "instance", .startArr] ++ t ++ p ++ a ++ b ++ [.endArr, .endObj]

/-! ## Printing -/

/-- `params_state_names` and `params_weight_type` (PDA.h:386-430). -/
def Inst.typeFields (i : Inst) : List TField :=
  [.names i.names, .weight (match i.kind with
    | .none => .str "none"
    | .uint => .str "uint"
    | .int => .str "int"
    | .uints => .arr [.name "uint"]
    | .ints => .arr [.name "int"])]

/-- `to_json` of an instance (PAutomatonProduct.h:213-217, 520-530): the initial states of the automata are not printed. -/
def Inst.toJson (h : HashOrder) (i : Inst) : List JEv :=
  instEvents (typeEvents i.typeFields)
    (if i.names then i.pda.toJson i.kind.io id id else i.pda.toTPda.toJson i.kind.io id).inner
    (autInner { i.ini.toJson h i.names i.pda with initial := [] }.fields)
    (autInner { i.fin.toJson h i.names i.pda with initial := [] }.fields)

/-! ## The program -/

/-- `run` (main.cpp:77-86) on a document with an instance, for trace types none and any. -/
def runInst (h h' : HashOrder) (es : List JEv) (engine : Nat) (any : Bool) : Outcome String :=
  match parseInstDoc es with
  | .ok i => verifyPlain h h' i.pda.toTPda i.ini.toAut i.fin.toAut engine any
  | .error => .error
  | .undefined => .undefined

end Verif
