import Verif.Model.Json
import Verif.Model.AutOps

/-!
# pdaaal-bin/parsing/PAutomatonJsonParser.h and `to_json` of PAutomaton.h: P-automata in JSON

`names` tells whether the PDA has named states (`state_t = std::string`) or numbered ones (`state_t = size_t` without state
map); these are the PDAs the program makes. The PDA is a reference in the code, to which labels are added.
-/

namespace Verif

variable {W : Type}

/-- A state in a document: a number or a string. -/
inductive JRef where
  | num (n : Nat)
  | name (s : String)
  deriving DecidableEq, Repr

/-- The document `{"P-automaton": {...}}` that `to_json` makes (PAutomaton.h:68-72, 138-182): a list that stays empty is left
out, except for `edges`. -/
structure JAut where
  initial : List JRef := []
  accepting : List JRef := []
  edges : List (JRef × String × JRef) := []
  deriving DecidableEq, Repr

/-! ## Printing -/

/-- `PAutomaton<std::string, W, state_t, ..>` with its map for the names of states beyond those of the PDA. -/
structure NAut (W : Type) extends Aut W where
  stateNames : List String := []

/-- `get_state_optional(id)` (PAutomaton.h:98-113) and its use (145-153, 164-172); out of range of the PDA's map, undefined in
C++, gives the empty name. -/
def NAut.ref (a : NAut W) (names : Bool) (p : NPda String String W) (q : Nat) : JRef :=
  if !names then .num q
  else if q < p.states.length then .name (p.stateName q)
  else match a.stateNames[q - p.states.length]? with
    | some s => .name s
    | none => .num q

/-- `to_json_impl` (PAutomaton.h:138-182). `h` is the order of the edges in the hash maps. -/
def NAut.toJson (h : HashOrder) (names : Bool) (p : NPda String String W) (a : NAut W) : JAut :=
  { initial := ((List.range a.n).filter fun q => decide (q < p.states.length)).map (a.ref names p)
    accepting := ((List.range a.n).filter a.isAcc).map (a.ref names p)
    edges := (List.range a.n).flatMap fun q => (a.out h q).map fun t =>
      (a.ref names p q, if t.label = epsilon then "" else p.symbol t.label, a.ref names p t.dst) }

/-! ## Events -/

def JRef.event : JRef → JEv
  | .num n => .uns n
  | .name s => .str s

/-- One of the three entries of a document. -/
inductive JField where
  | initial (l : List JRef)
  | accepting (l : List JRef)
  | edges (l : List (JRef × String × JRef))

def edgeEvents (e : JRef × String × JRef) : List JEv := [.startArr, e.1.event, .str e.2.1, e.2.2.event, .endArr]

def JField.events : JField → List JEv
  | .initial l => .key "initial" :: .startArr :: l.map JRef.event ++ [.endArr]
  | .accepting l => .key "accepting" :: .startArr :: l.map JRef.event ++ [.endArr]
  | .edges l => .key "edges" :: .startArr :: l.flatMap edgeEvents ++ [.endArr]

/-- The events of a document with these entries. -/
def autEvents (fs : List JField) : List JEv :=
  [.startObj, .key "P-automaton", .startObj] ++ fs.flatMap JField.events ++ [.endObj, .endObj]

/-- The entries in the order of `std::map`. -/
def JAut.fields (d : JAut) : List JField :=
  (if d.accepting.isEmpty then [] else [.accepting d.accepting]) ++ [.edges d.edges] ++
    (if d.initial.isEmpty then [] else [.initial d.initial])

/-! ## The SAX handler -/

/-- `PAutomatonSaxHelper::keys` (PAutomatonJsonParser.h:36). -/
inductive PKey where
  | none | pAutomaton | initial | accepting | edges
  deriving DecidableEq, Repr

/-- `PAutomatonSaxHelper::context_type` (PAutomatonJsonParser.h:57). -/
inductive PCtx where
  | initial | pAutomaton | initialArray | acceptingArray | edgesArray | edge
  deriving DecidableEq, Repr

/-- The automaton under construction: the PDA, the automaton, its state map and `extra_state_map`. -/
structure PMake (W : Type) where
  pda : NPda String String W
  aut : Aut W
  stateNames : List String := []
  extra : List (Nat × Nat) := []

/-- `PAutomatonSaxHandler` (PAutomatonJsonParser.h:113-394) with `embedded_parser = false`. `req` is its parameter
`require_initial`, which tells whether the entry `initial` must be there. -/
structure PSax (W : Type) where
  make : PMake W
  req : Bool := true
  label : String := ""
  src : Nat := 0
  dst : Nat := 0
  lastKey : PKey := .none
  stack : List (PCtx × JBody) := []

/-- The result of reading: an object, an exception, or undefined behaviour. -/
inductive SaxRes (α : Type) where
  | ok (a : α)
  | error
  | undefined

def SaxRes.bind {α β : Type} (x : SaxRes α) (f : α → SaxRes β) : SaxRes β :=
  match x with
  | .ok a => f a
  | .error => .error
  | .undefined => .undefined

/-- `number_state(state)` (PAutomatonJsonParser.h:144-170). -/
def PMake.numberState (names : Bool) (b : PMake W) (n : Nat) : PMake W × Nat :=
  if !names && decide (n < b.pda.states.length) then (b, n)
  else match b.extra.lookup n with
    | some id => (b, id)
    | none => ({ b with aut := b.aut.addState false, extra := (n, b.aut.n) :: b.extra }, b.aut.n)

/-- `string_state(state)` (PAutomatonJsonParser.h:171-187) for named states, with `exists_state` and `insert_state` of
PAutomaton.h:74-97. -/
def PMake.stringState (b : PMake W) (s : String) : PMake W × Nat :=
  match b.pda.names.idxOf? s with
  | some id => (b, id)
  | none => match b.stateNames.idxOf? s with
    | some id => (b, id + b.pda.states.length)
    | none => ({ b with aut := b.aut.addState false, stateNames := b.stateNames ++ [s] }, b.aut.n)

/-- A state of the document; `none` is the error of `string_state`. -/
def PMake.state (names : Bool) (b : PMake W) : JRef → Option (PMake W × Nat)
  | .num n => some (b.numberState names n)
  | .name s => if names then some (b.stringState s) else none

/-- The edge at the end of its array (PAutomatonJsonParser.h:379-387). -/
def PMake.edge [Zero W] (b : PMake W) (src dst : Nat) (l : String) : PMake W :=
  if l = "" then { b with aut := b.aut.addEdge src dst epsilon }
  else { b with pda := (b.pda.insertLabel l).1, aut := b.aut.addEdge src dst (b.pda.insertLabel l).2 }

/-- `pda.exists_state(value).first` (PDA.h:189-195), an error if the type of the state is wrong. -/
def PMake.isInitial (names : Bool) (b : PMake W) : JRef → Bool
  | .num n => !names && decide (n < b.pda.states.length)
  | .name s => names && b.pda.names.contains s

namespace PSax

/-- `element_done()` (utils/SaxHandlerHelpers.h:157-164). -/
def elementDone (s : PSax W) : PSax W :=
  match s.stack with
  | (ty, .array i) :: r => { s with stack := (ty, .array (i + 1)) :: r }
  | _ => { s with lastKey := .none }

def push (s : PSax W) (ty : PCtx) (b : JBody) : PSax W := { s with stack := (ty, b) :: s.stack }

/-- `number_unsigned(value)` (PAutomatonJsonParser.h:201-234) and `string(value)` (238-282). Without a context the former looks
at the top of an empty stack. -/
def value (names : Bool) (s : PSax W) (r : JRef) : SaxRes (PSax W) :=
  match s.stack with
  | [] => match r with
    | .num _ => .undefined
    | .name _ => .error
  | (.initialArray, _) :: _ => if s.make.isInitial names r then .ok s.elementDone else .error
  | (.acceptingArray, _) :: _ => match s.make.state names r with
    | some x => .ok { s with make := { x.1 with aut := x.1.aut.setAccepting x.2 } }.elementDone
    | none => .error
  | (.edge, .array 0) :: _ => match s.make.state names r with
    | some x => .ok { s with make := x.1, src := x.2 }.elementDone
    | none => .error
  | (.edge, .array 1) :: _ => match r with
    | .num _ => .error
    | .name l => .ok { s with label := l }.elementDone
  | (.edge, .array 2) :: _ => match s.make.state names r with
    | some x => .ok { s with make := x.1, dst := x.2 }.elementDone
    | none => .error
  | _ => .error

/-- `start_object()` (PAutomatonJsonParser.h:286-296). -/
def startObj (s : PSax W) : SaxRes (PSax W) :=
  if s.stack.isEmpty then .ok (s.push .initial (.object [1]))
  else if s.lastKey = .pAutomaton then .ok (s.push .pAutomaton (.object (if s.req then [1, 2, 3] else [1, 2])))
  else .error

/-- `handle_key` (utils/SaxHandlerHelpers.h:141-155). -/
def handleKey (s : PSax W) (flag : Nat) (k : PKey) : SaxRes (PSax W) :=
  match s.stack with
  | (ty, .object m) :: r =>
    if m.contains flag then .ok { s with stack := (ty, .object (m.filter (· ≠ flag))) :: r, lastKey := k } else .error
  | _ => .error

/-- `key(key)` (PAutomatonJsonParser.h:297-328). -/
def key (s : PSax W) (k : String) : SaxRes (PSax W) :=
  match s.stack with
  | (.initial, _) :: _ => if k = "P-automaton" then s.handleKey 1 .pAutomaton else .error
  | (.pAutomaton, _) :: _ =>
    if k = "accepting" then s.handleKey 1 .accepting
    else if k = "edges" then s.handleKey 2 .edges
    else if k = "initial" then (if s.req then s.handleKey 3 .initial else .ok { s with lastKey := .initial })
    else .error
  | _ => .error

/-- `end_object()` (PAutomatonJsonParser.h:329-344). -/
def endObj (s : PSax W) : SaxRes (PSax W) :=
  match s.stack with
  | (_, .object []) :: r => .ok { s with stack := r }.elementDone
  | _ => .error

/-- `start_array()` (PAutomatonJsonParser.h:345-372). -/
def startArr (s : PSax W) : SaxRes (PSax W) :=
  match s.stack with
  | [] => .error
  | (.edgesArray, _) :: _ => .ok { s.push .edge (.array 0) with src := sizeMax, dst := sizeMax, label := "" }
  | _ => match s.lastKey with
    | .initial => .ok (s.push .initialArray (.array 0))
    | .accepting => .ok (s.push .acceptingArray (.array 0))
    | .edges => .ok (s.push .edgesArray (.array 0))
    | _ => .error

/-- `end_array()` (PAutomatonJsonParser.h:373-394). An edge with a missing state is only excluded by an assertion; its state is
out of range. -/
def endArr [Zero W] (s : PSax W) : SaxRes (PSax W) :=
  match s.stack with
  | [] => .error
  | (.edge, _) :: r =>
    if s.src = sizeMax ∨ s.dst = sizeMax then .undefined
    else .ok { s with make := s.make.edge s.src s.dst s.label, stack := r }.elementDone
  | _ :: r => .ok { s with stack := r }.elementDone

/-- One event. -/
def event [Zero W] (names : Bool) (s : PSax W) : JEv → SaxRes (PSax W)
  | .null => .error
  | .bool _ => .error
  | .float => .error
  | .int _ => .error
  | .uns n => s.value names (.num n)
  | .str v => s.value names (.name v)
  | .startObj => s.startObj
  | .key k => s.key k
  | .endObj => s.endObj
  | .startArr => s.startArr
  | .endArr => s.endArr

/-- The events in order. -/
def run [Zero W] (names : Bool) : List JEv → PSax W → SaxRes (PSax W)
  | [], s => .ok s
  | e :: es, s => (s.event names e).bind (run names es)

end PSax

/-- The handler with this parameter `require_initial` on the events of a document: the PDA with the new labels, and the automaton. -/
def parseJAutR [Zero W] (req names : Bool) (p : NPda String String W) (es : List JEv) : SaxRes (NPda String String W × NAut W) :=
  (PSax.run names es { make := { pda := p, aut := Aut.special p.states.length [] true }, req := req }).bind fun s =>
    .ok (s.make.pda, { toAut := s.make.aut, stateNames := s.make.stateNames })

/-- `PAutomatonJsonParser::parse` on the events of a document (PAutomatonJsonParser.h:396-417): the PDA with the new labels, and
the automaton. -/
def parseJAut [Zero W] (names : Bool) (p : NPda String String W) (es : List JEv) : SaxRes (NPda String String W × NAut W) :=
  parseJAutR true names p es

end Verif
