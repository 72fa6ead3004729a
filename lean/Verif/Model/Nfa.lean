import Verif.Model.VectorSet

/-!
# NFA.h: nondeterministic finite automata

States live on a heap. A pointer is modelled by its address, a `Nat`, and `_states` by the list of the
addresses with the states stored there; moving a `unique_ptr` keeps the address. Vectors of pointers are
compared by address, so every theorem holds for every placement of the states in memory. A `new` takes
its address from the caller; the theorems assume only that it is not in use. Symbols are `Nat`s.
`_backedges` is left out: only `prelabels` reads it, which nothing calls.
-/

namespace Verif

/-- `edge_t` (NFA.h:49-57). -/
structure NEdge where
  eps : Bool := false
  neg : Bool := false
  syms : List Nat := []
  dst : Nat
  deriving DecidableEq, Repr

/-- `edge_t::contains` (NFA.h:71-75). -/
def NEdge.contains (e : NEdge) (g : Nat) : Bool := e.neg == !(VSet.contains natLt e.syms g)

/-- `state_t` (NFA.h:83-88). -/
structure NState where
  edges : List NEdge := []
  acc : Bool := false
  deriving DecidableEq, Repr

/-- `has_non_epsilon()` (NFA.h:89-96). -/
def NState.hasNonEps (s : NState) : Bool := s.edges.any fun e => e.neg || !e.syms.isEmpty

/-- `add_epsilon_edge(to)` (NFA.h:98-101) with the constructor of the edge (58-61): not negated, no
symbols. -/
def NState.addEps (s : NState) (q : Nat) : NState := { s with edges := s.edges ++ [{ eps := true, dst := q }] }

/-- `NFA` (NFA.h:43, members 440-442). -/
structure Nfa where
  states : List (Nat × NState) := []
  initial : List Nat := []
  accepting : List Nat := []
  deriving DecidableEq, Repr

namespace Nfa

/-- The addresses of the states. -/
def ptrs (m : Nfa) : List Nat := m.states.map Prod.fst

/-- Dereferencing a pointer; a pointer that is not in `ptrs` dangles, which the theorems exclude. -/
def get (m : Nfa) (q : Nat) : NState :=
  match m.states.find? fun x => x.1 == q with
  | some x => x.2
  | none => {}

/-- Writing through a pointer. -/
def modify (m : Nfa) (q : Nat) (f : NState → NState) : Nfa :=
  { m with states := m.states.map fun x => if x.1 = q then (x.1, f x.2) else x }

/-- `NFA(initially_accepting)` (NFA.h:148-154), with the new state at `q`. -/
def ofBool (q : Nat) (acc : Bool) : Nfa :=
  { states := [(q, { acc := acc })], initial := [q], accepting := if acc then [q] else [] }

/-- `NFA(initial_accepting, negated)` (NFA.h:156-164), with the new states at `q0` and `q1`. The symbols
of an `unordered_set` in the order in which `edge_t` sorts them (NFA.h:56). -/
def ofSet (q0 q1 : Nat) (syms : List Nat) (neg : Bool) : Nfa :=
  if !syms.isEmpty || neg then
    { states := [(q0, { edges := [{ neg := neg, syms := syms, dst := q1 }] }), (q1, { acc := true })],
      initial := [q0], accepting := [q1] }
  else {}

/-! ## Construction -/

/-- The inner loop of `concat` (NFA.h:324-326). -/
def addEpsAll (m : Nfa) (q : Nat) (qs : List Nat) : Nfa := qs.foldl (fun m s => m.modify q (·.addEps s)) m

/-- `concat(other)` (NFA.h:319-330). -/
def concat (m o : Nfa) : Nfa :=
  let m1 := { m with states := m.states ++ o.states }
  let m2 := m.accepting.foldl (fun m sa => (m.addEpsAll sa o.initial).modify sa ({ · with acc := false })) m1
  { m2 with accepting := o.accepting }

/-- One round of the loop of `question_extend` (NFA.h:333-338). -/
def questionStep (m : Nfa) (s : Nat) : Nfa :=
  if !(m.get s).acc then { m.modify s ({ · with acc := true }) with accepting := m.accepting ++ [s] } else m

/-- `question_extend()` (NFA.h:332-339). -/
def question (m : Nfa) : Nfa := m.initial.foldl questionStep m

/-- The body of the inner loop of `plus_extend` (NFA.h:344-353). -/
def plusEdge (m : Nfa) (s si : Nat) : Nfa :=
  if (m.get s).edges.any fun e => e.dst == si then
    m.modify s fun st =>
      { st with edges := st.edges.map fun e => if e.dst = si then { e with eps := true } else e }
  else m.modify s (·.addEps si)

/-- `plus_extend()` (NFA.h:341-356). -/
def plus (m : Nfa) : Nfa := m.accepting.foldl (fun m s => m.initial.foldl (fun m si => m.plusEdge s si) m) m

/-- `star_extend()` (NFA.h:358-361). -/
def star (m : Nfa) : Nfa := m.plus.question

/-- `or_extend(other)` (NFA.h:368-382), with the new initial state at `q`. -/
def or (m o : Nfa) (q : Nat) : Nfa :=
  let m1 : Nfa := { m with states := m.states ++ o.states ++ [(q, {})] }
  let m2 := (m1.addEpsAll q m.initial).addEpsAll q o.initial
  { m2 with initial := [q], accepting := m.accepting ++ o.accepting }

/-- `operator=(const NFA&)` (NFA.h:293-315): copies `o` into `m`, which is not cleared first. `f` gives the
addresses of the new states. All links of `_states` go through `indir`, where a missing key yields
`nullptr`, also those of states that `m` already had (NFA.h:300-307). -/
def assign (m o : Nfa) (f : Nat → Nat) : Nfa :=
  { states := (m.states ++ o.states.map fun x => (f x.1, x.2)).map fun x =>
      (x.1, { x.2 with edges := x.2.edges.map fun e =>
        { e with dst := if e.dst ∈ o.ptrs then f e.dst else 0 } }),
    initial := m.initial ++ o.initial.map f,
    accepting := m.accepting ++ o.accepting.map f }

/-! ## Runs -/

/-- The loop over the edges in `follow_epsilon` (NFA.h:191-199): `acc` is (`states`, `waiting`), the back of
`waiting` at the head. -/
def epsScan (es : List NEdge) (acc : List Nat × List Nat) : List Nat × List Nat :=
  es.foldl (fun acc e =>
    if e.eps then
      match VSet.emplace natLt acc.1 e.dst with
      | (s, true) => (s, e.dst :: acc.2)
      | (_, false) => acc
    else acc) acc

/-- The `while` loop of `follow_epsilon` (NFA.h:188-200). -/
def epsLoop (m : Nfa) : Nat → List Nat × List Nat → List Nat
  | 0, acc => acc.1
  | k + 1, acc =>
    match acc.2 with
    | [] => acc.1
    | s :: ws => epsLoop m k (epsScan (m.get s).edges (acc.1, ws))

/-- `follow_epsilon(states)` (NFA.h:183-203). -/
def followEps (m : Nfa) (states : List Nat) : List Nat :=
  (epsLoop m (m.states.length + states.length + 1) (states, states.reverse)).filter fun s =>
    (m.get s).acc || (m.get s).hasNonEps

/-- `compile()` (NFA.h:166-171). -/
def compile (m : Nfa) : Nfa :=
  { states := m.states.mergeSort fun x y => decide (x.1 ≤ y.1),
    accepting := m.accepting.mergeSort,
    initial := m.followEps m.initial.mergeSort }

/-- `empty_accept()` (NFA.h:179-183). -/
def emptyAccept (m : Nfa) : Bool := m.initial.any fun s => (m.get s).acc

/-- The states collected by `successor` before `follow_epsilon` (NFA.h:208-219). -/
def succRaw (m : Nfa) (states : List Nat) (g : Nat) : List Nat :=
  states.foldl (fun next s => (m.get s).edges.foldl (fun next e =>
    if e.contains g then (VSet.emplace natLt next e.dst).1 else next) next) []

/-- `successor(states, label)` (NFA.h:206-222). -/
def successor (m : Nfa) (states : List Nat) (g : Nat) : List Nat := m.followEps (m.succRaw states g)

/-- `has_as_successor(states, label, goal)` (NFA.h:224-233). -/
def hasAsSuccessor (m : Nfa) (states : List Nat) (g goal : Nat) : Bool :=
  VSet.contains natLt (m.successor states g) goal

/-- The loop over the edges in `leads_to_by_epsilon` (NFA.h:241-250): `none` means `return true`. -/
def leadsScan (goal : Nat) : List NEdge → List Nat × List Nat → Option (List Nat × List Nat)
  | [], acc => some acc
  | e :: es, acc =>
    if e.eps then
      if e.dst = goal then none
      else match VSet.emplace natLt acc.1 e.dst with
        | (s, true) => leadsScan goal es (s, e.dst :: acc.2)
        | (_, false) => leadsScan goal es acc
    else leadsScan goal es acc

/-- The `while` loop of `leads_to_by_epsilon` (NFA.h:238-251). -/
def leadsLoop (m : Nfa) (goal : Nat) : Nat → List Nat × List Nat → Bool
  | 0, _ => false
  | k + 1, acc =>
    match acc.2 with
    | [] => false
    | s :: ws =>
      match leadsScan goal (m.get s).edges (acc.1, ws) with
      | none => true
      | some acc => leadsLoop m goal k acc

/-- `leads_to_by_epsilon(from, to)` (NFA.h:234-253). -/
def leadsTo (m : Nfa) (src goal : Nat) : Bool :=
  if src = goal then true else leadsLoop m goal (m.states.length + 2) ([src], [src])

/-- The loop of `intersect_edge_labels` over the edges (NFA.h:262-285), for all states at once; `acc` is
(`result`, `temp`), and `temp` is never cleared. -/
def interLoop (m : Nfa) (goal : Nat) (labels : List Nat) : List NEdge → List Nat × List Nat → List Nat
  | [], acc => acc.1
  | e :: es, acc =>
    if !m.leadsTo e.dst goal then interLoop m goal labels es acc
    else if e.neg && e.syms.isEmpty then labels
    else
      let temp := acc.2 ++ if e.neg then setDiff labels e.syms else setInter labels e.syms
      let result := setUnion acc.1 temp
      if result.length = labels.length then result else interLoop m goal labels es (result, temp)

/-- `intersect_edge_labels(from_states, to_state, labels)` (NFA.h:254-287). -/
def intersectEdgeLabels (m : Nfa) (srcs : List Nat) (goal : Nat) (labels : List Nat) : List Nat :=
  interLoop m goal labels (srcs.flatMap fun s => (m.get s).edges) ([], [])

end Nfa

end Verif
