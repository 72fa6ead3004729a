import Verif.Model.Reducer
import Verif.Model.AutomatonPath
import Mathlib.Order.Defs.LinearOrder
import Mathlib.Order.BoundedOrder.Basic
import Mathlib.Algebra.Notation.Defs

/-!
# utils/workset.h and internal/PAutomatonAlgorithms.h: shortest accepting path by rounds

`T` is the solver's weight type: `less` is `<`, `max()` is `⊤`, `bottom()` is `⊥`, `zero()` is `0` and `add` is
`+` (see `c30_*` for when the arithmetic types behave like this).
-/

namespace Verif

variable {T : Type}

/-- What the algorithms read of a weighted `PAutomaton` (internal/PAutomaton.h:106-157): the number of states, the
number of PDA states (the initial ones), the accepting flags, and `_edges` of each state, a map from target
states to maps from labels to weights, in iteration order. -/
structure WAut (T : Type) where
  n : Nat
  m : Nat
  accepting : Nat → Bool
  edges : Nat → List (Nat × List (Nat × T))

/-- `std::min_element(labels.begin(), labels.end(), less on weights)`: the first minimal element. -/
def minElement [LT T] [DecidableLT T] : List (Nat × T) → Option (Nat × T)
  | [] => none
  | e :: es => some (es.foldl (fun best x => if x.2 < best.2 then x else best) e)

/-- The sentinels `uninitialized_state`, `no_state` and proper states (internal/PAutomatonAlgorithms.h:37-38). -/
inductive Pred where
  | uninitialized
  | noState
  | state (s : Nat)
  deriving DecidableEq, Repr

/-- `state_info` (internal/PAutomatonAlgorithms.h:42-49). -/
structure SInfo (T : Type) where
  weight : T
  firstLabel : Nat := 4294967295
  label : Nat := 4294967295
  firstPred : Pred := .uninitialized
  pred : Pred := .uninitialized
  inQueue : Bool := false

/-- `fixed_point_workset` (utils/workset.h:37-42) with the members of `PAutomatonFixedPoint`
(internal/PAutomatonAlgorithms.h:50-52). The vector `_states` is a function of the index. -/
structure FP (T : Type) where
  done : Bool := false
  limit : Nat
  rounds : Nat := 0
  workset : List Nat := []
  next : List Nat := []
  states : Nat → SInfo T
  minAcc : Option Nat := none

namespace FP

/-- Overwrite one element of `_states`. -/
def setState (s : FP T) (i : Nat) (x : SInfo T) : FP T :=
  { s with states := fun j => if j = i then x else s.states j }

variable [LinearOrder T]

/-- The constructor with `initialize()` (internal/PAutomatonAlgorithms.h:54-70). -/
def init [OrderTop T] [Zero T] (A : WAut T) : FP T :=
  { limit := A.n
    next := List.range A.m
    states := fun i =>
      if i < A.m then { weight := 0, inQueue := true, firstPred := .noState, pred := .noState }
      else { weight := ⊤ } }

/-- The assignments to `_states[to]` when its weight improves (internal/PAutomatonAlgorithms.h:89-99), without
the queue. `bottomMode` is `change_is_bottom`. -/
def improved [OrderBot T] (bottomMode : Bool) (cur lab : Nat) (w : T) (x : SInfo T) : SInfo T :=
  { weight := if bottomMode then ⊥ else w
    firstLabel := if x.firstPred = .uninitialized then lab else x.firstLabel
    firstPred := if x.firstPred = .uninitialized then .state cur else x.firstPred
    label := lab
    pred := .state cur
    inQueue := true }

/-- The body of the loop over the edges of `current` (internal/PAutomatonAlgorithms.h:84-105). `current_weight` is a
reference, so it is read again for every edge. -/
def relax [OrderBot T] [Add T] (bottomMode : Bool) (cur : Nat) (s : FP T) (e : Nat × List (Nat × T)) : FP T :=
  match minElement e.2 with
  | none => s
  | some (lab, x) =>
    let w := (s.states cur).weight + x
    let info := s.states e.1
    if w < info.weight then
      let s' := s.setState e.1 (improved bottomMode cur lab w info)
      if info.inQueue then s' else { s' with next := s'.next ++ [e.1] }
    else s

/-- The accepting test at the start of `step_with` (internal/PAutomatonAlgorithms.h:76-83): the new
`_min_accepting_state`. -/
def updateMin [OrderBot T] (s : FP T) (cur : Nat) : FP T :=
  match s.minAcc with
  | none => { s with minAcc := some cur }
  | some a => if (s.states cur).weight < (s.states a).weight then { s with minAcc := some cur } else s

/-- `step_with<change_is_bottom>(current)` (internal/PAutomatonAlgorithms.h:72-107): the new state and the
returned flag. -/
def stepWith [OrderBot T] [Add T] (A : WAut T) (bottomMode : Bool) (s : FP T) (cur : Nat) : FP T × Bool :=
  let s := s.setState cur { s.states cur with inQueue := false }
  if A.accepting cur && decide ((s.states cur).weight = ⊥) then ({ s with minAcc := some cur }, false)
  else
    let s := if A.accepting cur then s.updateMin cur else s
    ((A.edges cur).foldl (relax bottomMode cur) s, true)

/-- The part of `step` (utils/workset.h:48-66) after a possible swap: pop and process. -/
def popStep [OrderBot T] [Add T] (A : WAut T) (bottomMode : Bool) (s : FP T) : FP T :=
  match s.workset.getLast? with
  | none => s
  | some cur =>
    let r := stepWith A bottomMode { s with workset := s.workset.dropLast } cur
    if r.2 then r.1 else { r.1 with done := true }

/-- `step<change_is_bottom>()` with `enforce_set = false` (utils/workset.h:45-67). -/
def step [OrderBot T] [Add T] (A : WAut T) (bottomMode : Bool) (s : FP T) : FP T :=
  if s.workset = [] then
    if s.next = [] then { s with rounds := s.rounds + 1, done := true }
    else popStep A bottomMode { s with rounds := s.rounds + 1, workset := s.next, next := [] }
  else popStep A bottomMode s

/-- `done()` (utils/workset.h:74-76). -/
def isDone (s : FP T) : Bool := s.done || s.rounds == s.limit

/-- `while (!done()) step<change_is_bottom>();` -/
def loop [OrderBot T] [Add T] (A : WAut T) (bottomMode : Bool) (fuel : Nat) (s : FP T) : Option (FP T) :=
  whileSome (fun s => if s.isDone then none else some (s.step A bottomMode)) fuel s

/-- `run()` with `finalize()` (utils/workset.h:68-82). -/
def run [OrderBot T] [Add T] (A : WAut T) (fuel : Nat) (s : FP T) : Option (FP T) :=
  (loop A false fuel s).bind fun s => loop A true fuel { s with rounds := 0 }

/-- The loop of `get_path` (internal/PAutomatonAlgorithms.h:131-137). `none`: the loop has not ended within the fuel,
or it meets an uninitialised predecessor and would read outside the vector. -/
def pathLoop (s : FP T) : Nat → Nat → APath Nat → Option (APath Nat)
  | 0, v, p => if (s.states v).pred = .noState then some p else none
  | fuel + 1, v, p => match (s.states v).pred with
    | .noState => some p
    | .uninitialized => none
    | .state u => pathLoop s fuel u (p.emplace u (s.states v).label)

/-- `get_path()` (internal/PAutomatonAlgorithms.h:122-139). -/
def getPath (s : FP T) (fuel : Nat) : Option (APath Nat) :=
  s.minAcc.bind fun a => pathLoop s fuel a ⟨a, []⟩

/-- `not_accepting()` (internal/PAutomatonAlgorithms.h:108-110). -/
def notAccepting (s : FP T) : Bool := s.minAcc.isNone

/-- `get_weight()` (internal/PAutomatonAlgorithms.h:111-114), `none` where the assertion fails. -/
def getWeight (s : FP T) : Option T := s.minAcc.map fun a => (s.states a).weight

end FP

end Verif
