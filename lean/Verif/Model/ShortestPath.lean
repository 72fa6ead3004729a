import Verif.Model.ShortestPost
import Verif.Model.AutOps
import Verif.Model.FixedPoint
import Verif.Model.TraceBack

/-!
# internal/PAutomaton.h: `accept_path<Trace_Type::Shortest>` and `find_path_shortest`

Both are Dijkstra's algorithm with the same loop. `T` is the type of the weights, with exact addition; the returned
weight has the additional value `max()`, which is the `⊤` of `WithTop T`.
-/

namespace Verif

variable {N B T : Type}

/-- `queue_elem` (internal/PAutomaton.h:446-453, 548-566): the weight, the node of the search and what else is stored,
which includes the chain of back pointers. An element that a back pointer points to is never changed, so the chain is
stored by value. -/
structure DElem (N B T : Type) where
  weight : T
  node : N
  back : B

section
variable [LinearOrder T] [DecidableEq N]

/-- The test of `visited` (internal/PAutomaton.h:483-490, 587-596): whether the loop goes on with the next element.
`visited` is a hash map in one function and a sorted vector in the other; both are finite maps (see C34). -/
def dSkip (vis : N → Option T) (e : DElem N B T) : Bool :=
  match vis e.node with
  | none => false
  | some v => !decide (e.weight < v)

/-- Store the weight of an element in `visited`. -/
def dVisit (vis : N → Option T) (e : DElem N B T) : N → Option T := fun n => if n = e.node then some e.weight else vis n

/-- The `while` loop (internal/PAutomaton.h:467-503, 575-611). The outer `none` means that the fuel did not suffice, the
inner `none` that the queue became empty. -/
def dLoop (hp : Heap (DElem N B T) T DElem.weight) (goal : N → Bool) (succ : DElem N B T → List (DElem N B T)) :
    Nat → List (DElem N B T) → (N → Option T) → Option (Option (DElem N B T))
  | 0, q, _ => if (hp.pop q).isNone then some none else none
  | fuel + 1, q, vis => match hp.pop q with
    | none => some none
    | some (e, r) =>
      if goal e.node then some (some e)
      else if dSkip vis e then dLoop hp goal succ fuel r vis
      else dLoop hp goal succ fuel (r ++ succ e) (dVisit vis e)

end

namespace Aut

variable [LinearOrder T] [AddCommMonoid T]

/-! ## `accept_path<Trace_Type::Shortest>` -/

/-- An element of the queue: the node is the state and the index in the stack, and `back` the chain of nodes that the
back pointers lead to. -/
abbrev SpElem (T : Type) := DElem (Nat × Nat) (List (Nat × Nat)) T

/-- The element for the next symbol of the stack (internal/PAutomaton.h:601-606). -/
def spRead (a : Aut T) (w : List Nat) (e : SpElem T) (dst : Nat) : List (SpElem T) :=
  match a.wt ⟨e.node.1, w.getD e.node.2 0, dst⟩ with
  | some x =>
    if e.node.2 + 1 < w.length || a.isAcc dst then [⟨e.weight + x, (dst, e.node.2 + 1), e.node :: e.back⟩] else []
  | none => []

/-- The element for an epsilon transition (internal/PAutomaton.h:607-610). Its back pointer is that of the current
element. -/
def spEps (a : Aut T) (e : SpElem T) (dst : Nat) : List (SpElem T) :=
  match a.wt ⟨e.node.1, epsilon, dst⟩ with
  | some x => [⟨e.weight + x, (dst, e.node.2), e.back⟩]
  | none => []

/-- The loop over the transitions (internal/PAutomaton.h:600-611). -/
def spSucc (h : HashOrder) (a : Aut T) (w : List Nat) (e : SpElem T) : List (SpElem T) :=
  (a.outTos h e.node.1).flatMap fun dst => a.spRead w e dst ++ a.spEps e dst

/-- The returned path (internal/PAutomaton.h:579-584). -/
def spPath (w : List Nat) (e : SpElem T) : List Nat :=
  e.back.foldl (fun path x => path.set x.2 x.1) ((List.replicate (w.length + 1) 0).set e.node.2 e.node.1)

/-- `accept_path<Trace_Type::Shortest>(state, stack)` for weighted automata (internal/PAutomaton.h:538-612). `none` means
that the fuel did not suffice. -/
def acceptPathShortest (hp : Heap (SpElem T) T DElem.weight) (h : HashOrder) (a : Aut T) (q : Nat) (w : List Nat)
    (fuel : Nat) : Option (List Nat × WithTop T) :=
  if w.isEmpty then some (if a.isAcc q then ([q], 0) else ([], ⊤))
  else (dLoop hp (fun n => n.2 == w.length) (a.spSucc h w) fuel [⟨0, (q, 0), []⟩] fun _ => none).map fun
    | none => ([], ⊤)
    | some e => (spPath w e, (e.weight : WithTop T))

/-! ## `find_path_shortest` -/

/-- An element of the queue: the node is the state; `back` holds the label of the element, and the states and labels of
the elements that the back pointers lead to. -/
abbrev FpElem (T : Type) := DElem Nat (Nat × List (Nat × Nat)) T

/-- The labels of the transitions from `q` to `dst` with their weights, in order. -/
def labelsTo (a : Aut T) (q dst : Nat) : List (Nat × T) :=
  sortBy (fun x y => decide (x.1 < y.1))
    ((a.edges.filter fun e => e.1.src == q && e.1.dst == dst).map fun e => (e.1.label, e.2.2))

/-- The loop over the transitions (internal/PAutomaton.h:494-501). -/
def fpSucc (h : HashOrder) (a : Aut T) (e : FpElem T) : List (FpElem T) :=
  (a.outTos h e.node).flatMap fun dst => match minElement (a.labelsTo e.node dst) with
    | some (label, x) => [⟨e.weight + x, dst, (label, (e.node, e.back.1) :: e.back.2)⟩]
    | none => []

/-- The loop along the back pointers (internal/PAutomaton.h:474-479): `label` belongs to the current element, `l` is the
rest of the chain. -/
def fpBack : APath Nat → Nat → List (Nat × Nat) → APath Nat
  | path, _, [] => path
  | path, label, (q, label') :: l => fpBack (path.emplace q label) label' l

/-- `find_path_shortest()` for weighted automata (internal/PAutomaton.h:434-505); `size` is the number of PDA states. -/
def findPathShortest (hp : Heap (FpElem T) T DElem.weight) (h : HashOrder) (size : Nat) (a : Aut T) (fuel : Nat) :
    Option (APath Nat × WithTop T) :=
  (dLoop hp (fun q => a.isAcc q) (a.fpSucc h) fuel ((List.range size).map fun i => ⟨0, i, (epsilon, [])⟩)
    fun _ => none).map fun
    | none => (APath.null, ⊤)
    | some e => (fpBack ⟨e.node, []⟩ e.back.1 e.back.2, (e.weight : WithTop T))

end Aut

/-- `get_trace<Trace_Type::Shortest>(pda, automaton, state, stack)` (Solver.h:336-338, 348-350), with label ids for the
symbols: the configurations and the weight. The inner `none` is undefined behaviour, among others where the constructor
of the path reads `back()` of an empty vector. -/
def getTraceShortestFor {W : Type} [LinearOrder T] [AddCommMonoid T] (hp : Heap (Aut.SpElem T) T DElem.weight)
    (h : HashOrder) (p : Pda W) (a : Aut T) (q : Nat) (w : List Nat) (fuel : Nat) :
    Option (Option (List Config) × WithTop T) :=
  (a.acceptPathShortest hp h q w fuel).map fun r =>
    (match APath.mk? r.1 w with
      | none => none
      | some path => getTrace p a path, r.2)

end Verif
