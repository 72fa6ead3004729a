import Verif.Model.AutOps
import Verif.Model.VectorSet

/-!
# PAutomatonProduct.h: the product of two P-automata (not `Shortest`)

`first` and `second` are the automata of the first and second component: the initial and the final
automaton, or the other way round after `enable_pre_star` (PAutomatonProduct.h:98-99, 165-167).
The two automata are arguments here, not members, because the saturation changes one of them while the
product is extended through its callback.
-/

namespace Verif

/-- The members of `PAutomatonProduct` that belong to the product (PAutomatonProduct.h:492, 495, 497-499).
`idMap[i]` is the pair stored with id `i` in the ptrie set `_id_map`, which numbers its elements in the order of
insertion. `lookup` lists `(a, b, id)` for each `(b, id)` in `_id_fast_lookup[a]`, `lookupBack` lists `(b, a, id)`
for each `(a, id)` in `_id_fast_lookup_back[b]`, in the order of insertion. -/
structure Product (W : Type) where
  size : Nat
  aut : Aut W
  idMap : List (Nat × Nat) := []
  lookup : List (Nat × Nat × Nat) := []
  lookupBack : List (Nat × Nat × Nat) := []

/-- An edge to be added: the product state it leaves, the two states of the target, and the labels with their
annotations. -/
structure PEdge (W : Type) where
  top : Nat
  fst : Nat
  snd : Nat
  labels : List (Nat × Ann W)

namespace Product

variable {W : Type}

/-- The constructor from two automata (PAutomatonProduct.h:69-72) with `get_initial_accepting` (392-402). -/
def ofAutomata (size : Nat) (a b : Aut W) : Product W :=
  { size := size,
    aut := Aut.special size ((List.range size).filter fun i => a.isAcc i && b.isAcc i) true }

/-- `get_original_ids(id)` (PAutomatonProduct.h:412-419). -/
def orig (s : Product W) (id : Nat) : Nat × Nat :=
  if id < s.size then (id, id) else s.idMap.getD (id - s.size) (0, 0)

/-- `_product.has_accepting_state()`. -/
def hasAcc (s : Product W) : Bool := s.aut.acc.any fun b => b

/-- `get_product_state<needs_back_lookup>(a, b)` (PAutomatonProduct.h:433-456). -/
def getState (dual : Bool) (first second : Aut W) (s : Product W) (a b : Nat) : Product W × Bool × Nat :=
  if a = b ∧ a < s.size then (s, false, a)
  else match s.idMap.idxOf? (a, b) with
    | some id => (s, false, id + s.size)
    | none =>
      let id := s.aut.n
      ({ s with aut := s.aut.addState (first.isAcc a && second.isAcc b), idMap := s.idMap ++ [(a, b)],
                lookup := s.lookup ++ [(a, b, id)],
                lookupBack := if dual then s.lookupBack ++ [(b, a, id)] else s.lookupBack }, true, id)

/-- `_product.add_edge`/`add_epsilon_edge` for each label (PAutomatonProduct.h:256-260, 302, 352-356). -/
def addLabels (a : Aut W) (top id : Nat) (labels : List (Nat × Ann W)) : Aut W :=
  labels.foldl (fun a x => a.emplaceEdge ⟨top, x.1, id⟩ x.2) a

/-- State of the loops: the product, `waiting` with its back at the head, and whether the function has
returned early. -/
structure PSt (W : Type) where
  prod : Product W
  waiting : List Nat
  done : Bool := false

/-- The body shared by the innermost loops (PAutomatonProduct.h:255-284, 300-323, 351-380). -/
def insert (dual et : Bool) (first second : Aut W) (s : PSt W) (r : PEdge W) : PSt W :=
  if s.done then s
  else
    let g := getState dual first second s.prod r.fst r.snd
    let p := { g.1 with aut := addLabels g.1.aut r.top g.2.2 r.labels }
    if et && p.hasAcc then { prod := p, waiting := s.waiting, done := true }
    else { prod := p, waiting := if g.2.1 then g.2.2 :: s.waiting else s.waiting }

variable [Zero W]

/-- The annotation of a transition. -/
def ann (a : Aut W) (t : Tr) : Ann W := (a.getEdge t).getD (Trace.null, 0)

/-- The edges on epsilon out of `top`, first component, then second (PAutomatonProduct.h:297-326). -/
def epsEdges (h : HashOrder) (first second : Aut W) (top i f : Nat) : List (PEdge W) :=
  ((first.outTos h i).filter fun u => first.hasLabel i u epsilon).map
      (fun u => ⟨top, u, f, [(epsilon, ann first ⟨i, epsilon, u⟩)]⟩) ++
    ((second.outTos h f).filter fun u => second.hasLabel f u epsilon).map
      (fun u => ⟨top, i, u, [(epsilon, ann second ⟨f, epsilon, u⟩)]⟩)

/-- The inner map of the edges from `q` to `u`: labels in ascending order. -/
def labelsOf (a : Aut W) (q u : Nat) : List Nat :=
  (((keys a.edges).filter fun t => t.src == q && t.dst == u).map Tr.label).foldl
    (fun s l => (VSet.emplace natLt s l).1) []

/-- The common labels and whether they contain one that is not epsilon (PAutomatonProduct.h:329-350): epsilon is
the largest label. -/
def common (first second : Aut W) (i iTo f fTo : Nat) : List Nat :=
  setInter (labelsOf first i iTo) (labelsOf second f fTo)

/-- The edge for one pair of targets (PAutomatonProduct.h:329-356); annotations come from the first automaton. In
dual mode with weights the code adds the weights of both; only `Shortest` reads them, so this is left out. -/
def jointEdge (first second : Aut W) (top i f iTo fTo : Nat) : List (PEdge W) :=
  let labels := common first second i iTo f fTo
  if labels.length > (if labels.getLast? = some epsilon then 1 else 0) then
    [⟨top, iTo, fTo, (labels.filter fun l => l != epsilon).map fun l => (l, ann first ⟨i, l, iTo⟩)⟩]
  else []

/-- The joint edges out of `top` (PAutomatonProduct.h:327-383). -/
def jointEdges (h : HashOrder) (first second : Aut W) (top i f : Nat) : List (PEdge W) :=
  (first.outTos h i).flatMap fun iTo => (second.outTos h f).flatMap fun fTo =>
    jointEdge first second top i f iTo fTo

/-- The edges considered for one state of the product (PAutomatonProduct.h:296-383). -/
def edgesFrom (h : HashOrder) (first second : Aut W) (s : Product W) (top : Nat) : List (PEdge W) :=
  epsEdges h first second top (s.orig top).1 (s.orig top).2 ++
    jointEdges h first second top (s.orig top).1 (s.orig top).2

/-- `construct_reachable<is_dual,ET>` (PAutomatonProduct.h:290-390, not `Shortest`), with fuel. -/
def construct (h : HashOrder) (dual et : Bool) (first second : Aut W) : Nat → PSt W → PSt W
  | 0, s => s
  | k + 1, s =>
    if s.done then s
    else match s.waiting with
      | [] => s
      | top :: ws =>
        construct h dual et first second k
          ((edgesFrom h first second s.prod top).foldl (insert dual et first second) { s with waiting := ws })

/-- Fuel: the initial states and one round for each pair. -/
def fuel (first second : Aut W) (s : PSt W) : Nat := s.waiting.length + first.n * second.n

/-- What the functions return: the product and the flag (PAutomatonProduct.h:388). -/
def result (s : PSt W) : Product W × Bool := (s.prod, s.done || s.prod.hasAcc)

/-- `initialize_product<needs_back_lookup,ET>()` (PAutomatonProduct.h:86-101). -/
def initProduct (h : HashOrder) (dual et : Bool) (first second : Aut W) (s : Product W) : Product W × Bool :=
  let st : PSt W := { prod := s, waiting := (List.range s.aut.n).reverse }
  result (construct h dual et first second (fuel first second st) st)

/-- The states of the product an edge from `q` may start in (PAutomatonProduct.h:225-232), each with the state of the
other automaton. -/
def fromStates (inFirst : Bool) (s : Product W) (q : Nat) : List (Nat × Nat) :=
  (((if inFirst then s.lookup else s.lookupBack).filter fun x => x.1 == q).map Prod.snd) ++
    (if q < s.size then [(q, q)] else [])

/-- The edges added to the product for the transition `t` (PAutomatonProduct.h:237-260). -/
def newEdges (h : HashOrder) (inFirst : Bool) (first second : Aut W) (s : Product W) (t : Tr) (an : Ann W) :
    List (PEdge W) :=
  let other := if inFirst then second else first
  (fromStates inFirst s t.src).flatMap fun x =>
    (if t.label = epsilon then [x.1] else (other.outTos h x.1).filter fun u => other.hasLabel x.1 u t.label).map
      fun u => ⟨x.2, if inFirst then t.dst else u, if inFirst then u else t.dst, [(t.label, an)]⟩

/-- `add_edge<edge_in_first,is_dual,ET>(from, label, to, trace, first, second)` (PAutomatonProduct.h:219-288, not
`Shortest`); `first` and `second` are the automata after the transition has been inserted. -/
def addEdge (h : HashOrder) (inFirst dual et : Bool) (first second : Aut W) (s : Product W) (t : Tr) (an : Ann W) :
    Product W × Bool :=
  let st := (newEdges h inFirst first second s t an).foldl (insert dual et first second) { prod := s, waiting := [] }
  result (construct h dual et first second (fuel first second st) st)

end Product

end Verif
