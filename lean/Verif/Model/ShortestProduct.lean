import Verif.Model.ShortestPre
import Verif.Model.ProductTrace
import Verif.Model.FixedPoint

/-!
# PAutomatonProduct.h and Solver.h with `Trace_Type::Shortest`

The product keeps a back edge and a best weight for each of its states. The types of the weights are as in
`Model/ShortestPost`.
-/

namespace Verif

variable {W T : Type}

/-- The product with the members `_back_edge_state`, `_back_edge_label` and `_best_weight` of its states
(internal/PAutomaton.h:176-178). No constructor initializes `_best_weight`, so `best` of a state without a back edge is
an arbitrary value. -/
structure SProd (T : Type) where
  base : Product T
  back : Nat → Option (Nat × Nat) := fun _ => none
  best : Nat → T

namespace SProd

section
variable [LinearOrder T] [AddCommMonoid T]

/-- `make_back_edge_shortest(from, label, to, weight)` (internal/PAutomaton.h:739-756). -/
def makeBack (s : SProd T) (src label dst : Nat) (w : T) : SProd T × Option T :=
  if dst < s.base.size then (s, none)
  else
    let nw := if src < s.base.size then w else s.best src + w
    if (s.back dst).isNone || decide (nw < s.best dst) then
      ({ s with back := fun q => if q = dst then some (src, label) else s.back q
                best := fun q => if q = dst then nw else s.best q }, some nw)
    else (s, none)

/-- The accepting states with their best weights, in the order of `_accepting`. -/
def accs (s : SProd T) : List (Nat × T) :=
  ((List.range s.base.aut.n).filter fun q => s.base.aut.isAcc q).map fun q => (q, s.best q)

/-- `has_accepting_state() && !less(et_param, min_accepting_weight())` (internal/PAutomaton.h:659-674,
PAutomatonProduct.h:265, 307, 364, 386). -/
def stop (s : SProd T) (k : WithTop T) : Bool :=
  match minElement s.accs with
  | none => false
  | some x => !decide (k < (x.2 : WithTop T))

/-- State of the loops: the product, the queue `waiting` (a `priority_set`, utils/more_algorithms.h:94-132) with the
set of elements popped so far, and whether the function has returned early. -/
structure SSt (T : Type) where
  prod : SProd T
  queue : List (T × Nat) := []
  seen : List Nat := []
  done : Bool := false

/-- The edge for the back pointer: the label with the least weight (PAutomatonProduct.h:358-361); there is only one
label in the other two places (262, 304). -/
def backLabel (r : PEdge T) : Option (Nat × T) := minElement (r.labels.map fun x => (x.1, x.2.2))

/-- The body shared by the innermost loops (PAutomatonProduct.h:255-275, 300-315, 351-372). -/
def insert (dual et : Bool) (first second : Aut T) (k : WithTop T) (s : SSt T) (r : PEdge T) : SSt T :=
  if s.done then s
  else
    let g := Product.getState dual first second s.prod.base r.fst r.snd
    let b := { g.1 with aut := Product.addLabels g.1.aut r.top g.2.2 r.labels }
    match backLabel r with
    | none => { s with prod := { s.prod with base := b } }
    | some (l, w) =>
      let m := makeBack { s.prod with base := b } r.top l g.2.2 w
      if et && m.1.stop k then { s with prod := m.1, done := true }
      else { s with prod := m.1, queue := match m.2 with
        | none => s.queue
        | some x => s.queue ++ [(x, g.2.2)] }

/-- The loop at the end of `pop` (utils/more_algorithms.h:114-116). -/
def drain (hq : Heap (T × Nat) T Prod.fst) (seen : List Nat) : Nat → List (T × Nat) → List (T × Nat)
  | 0, q => q
  | n + 1, q => match hq.pop q with
    | none => q
    | some (x, r) => if seen.contains x.2 then drain hq seen n r else q

/-- The edge for one pair of targets (PAutomatonProduct.h:329-356); in dual mode the weights of both automata are
added. -/
def jointEdge (dual : Bool) (first second : Aut T) (top i f iTo fTo : Nat) : List (PEdge T) :=
  (Product.jointEdge first second top i f iTo fTo).map fun r =>
    if dual then { r with labels := r.labels.map fun x =>
      (x.1, x.2.1, x.2.2 + (Product.ann second ⟨f, x.1, fTo⟩).2) } else r

/-- The edges considered for one state of the product (PAutomatonProduct.h:296-383). -/
def edgesFrom (h : HashOrder) (dual : Bool) (first second : Aut T) (s : Product T) (top : Nat) : List (PEdge T) :=
  Product.epsEdges h first second top (s.orig top).1 (s.orig top).2 ++
    (first.outTos h (s.orig top).1).flatMap fun iTo => (second.outTos h (s.orig top).2).flatMap fun fTo =>
      jointEdge dual first second top (s.orig top).1 (s.orig top).2 iTo fTo

/-- `construct_reachable<is_dual,ET,Trace_Type::Shortest>` (PAutomatonProduct.h:290-386), with fuel. -/
def construct (hq : Heap (T × Nat) T Prod.fst) (h : HashOrder) (dual et : Bool) (first second : Aut T) (k : WithTop T) :
    Nat → SSt T → SSt T
  | 0, s => s
  | n + 1, s =>
    if s.done then s
    else match hq.pop s.queue with
      | none => s
      | some (x, r) =>
        construct hq h dual et first second k n ((edgesFrom h dual first second s.prod.base x.2).foldl
          (insert dual et first second k)
          { s with seen := x.2 :: s.seen, queue := drain hq (x.2 :: s.seen) r.length r })

/-- Fuel: each round takes one element of the queue; a state that is taken for the first time adds at most one element
for each of its edges, and later times add none. -/
def fuel (first second : Aut T) (s : SSt T) : Nat :=
  s.queue.length + (s.prod.base.size + first.n * second.n) *
    (first.edges.length + second.edges.length + first.edges.length * second.edges.length)

/-- What the functions return (PAutomatonProduct.h:385-386). -/
def result (k : WithTop T) (s : SSt T) : SProd T × Bool := (s.prod, s.done || s.prod.stop k)

/-- `initialize_product<false,true,Trace_Type::Shortest>()` (PAutomatonProduct.h:86-101). -/
def initProduct (hq : Heap (T × Nat) T Prod.fst) (h : HashOrder) (first second : Aut T) (s : SProd T) : SProd T × Bool :=
  let st : SSt T := { prod := s, queue := (List.range s.base.aut.n).map fun i => (0, i) }
  result 0 (construct hq h false true first second 0 (fuel first second st) st)

/-- The edges added to the product for the transition `t` (PAutomatonProduct.h:237-260); in dual mode the weight of the
transition of the other automaton is added, except for epsilon. -/
def newEdges (h : HashOrder) (inFirst dual : Bool) (first second : Aut T) (s : Product T) (t : Tr) (an : Ann T) :
    List (PEdge T) :=
  let other := if inFirst then second else first
  (Product.fromStates inFirst s t.src).flatMap fun x =>
    (if t.label = epsilon then [(x.1, an)]
      else ((other.outTos h x.1).filter fun u => other.hasLabel x.1 u t.label).map fun u =>
        (u, if dual then (an.1, an.2 + (Product.ann other ⟨x.1, t.label, u⟩).2) else an)).map
      fun u => ⟨x.2, if inFirst then t.dst else u.1, if inFirst then u.1 else t.dst, [(t.label, u.2)]⟩

/-- `add_edge<edge_in_first,is_dual,true,Trace_Type::Shortest>(from, label, to, trace, first, second, et_param)`
(PAutomatonProduct.h:219-288). -/
def addEdge (hq : Heap (T × Nat) T Prod.fst) (h : HashOrder) (inFirst dual : Bool) (first second : Aut T) (s : SProd T)
    (t : Tr) (an : Ann T) (k : WithTop T) : SProd T × Bool :=
  let st := (newEdges h inFirst dual first second s.base t an).foldl (insert dual true first second k) { prod := s }
  result k (construct hq h dual true first second k (fuel first second st) st)

/-- The loop of `get_path_shortest` along the back edges (internal/PAutomaton.h:686-692), with fuel. -/
def walk (s : SProd T) : Nat → Nat → APath Nat → APath Nat
  | 0, _, path => path
  | n + 1, q, path => match s.back q with
    | none => path
    | some (q', l) => walk s n q' (path.emplace q' l)

/-- `get_path_shortest` (internal/PAutomaton.h:679-698) on the states of the product. The chain of back edges is not
longer than the number of states. -/
def pathShortest (s : SProd T) : APath Nat × WithTop T :=
  match minElement s.accs with
  | none => (APath.null, ⊤)
  | some (q, x) => (s.walk s.base.aut.n q ⟨q, []⟩, (x : WithTop T))

/-- `find_path<Trace_Type::Shortest, false>()` (PAutomatonProduct.h:192-195). -/
def findFirst (s : SProd T) : APath Nat × WithTop T :=
  (if s.pathShortest.1.isNull then APath.null else s.pathShortest.1.map fun q => (s.base.orig q).1, s.pathShortest.2)

/-- `find_path<Trace_Type::Shortest, true>()` (PAutomatonProduct.h:192-195), `none` for the null path. -/
def findPairs (s : SProd T) : Option (APath (Nat × Nat)) × WithTop T :=
  (if s.pathShortest.1.isNull then none else some (s.pathShortest.1.map s.base.orig), s.pathShortest.2)

end

end SProd

/-! ## post* with early termination -/

/-- `PostStarShortestSaturation` with `ET`: `st` are the members of the version without, `found` is `_found`. -/
structure ShEt (T σ : Type) where
  st : ShSt T
  ext : σ
  found : Bool := false

section
variable {σ : Type} [LinearOrder T] [AddCommMonoid T]

/-- One transition in the last loop of `initialize` (internal/PdaSaturation.h:577-590). -/
def shEtInitEdge (cb : SCallback T σ) (n : Nat) (s : ShEt T σ) (t : Tr) : ShEt T σ :=
  let st := shInitEdge n s.st t
  if t.src < n then { s with st := st }
  else
    let c := cb st.aut s.ext t (Product.ann st.aut t) 0
    { st := st, ext := c.1, found := s.found || c.2 }

/-- `initialize()` (internal/PdaSaturation.h:554-594). -/
def shEtInit (h : HashOrder) (p : Pda W) (cb : SCallback T σ) (a : Aut T) (e : σ) : ShEt T σ :=
  let q := qInit p ({ acc := a.acc } : Aut W)
  let a' : Aut T := { acc := q.1.acc, edges := a.edges }
  ((List.range a'.n).flatMap fun i => a'.out h i).foldl (shEtInitEdge cb p.size)
    { st := { aut := a', x := { nQ := a.n, qPrime := q.2 } }, ext := e }

/-- `step()` after the top element has been taken (internal/PdaSaturation.h:631-698): the callback is called after the
transition has been added to the automaton (643-645), and the loops that follow do not change the automaton. -/
def shEtStepWith (val : W → T) (cb : SCallback T σ) (p : Pda W) (s : ShEt T σ) (e : ShElem T) : ShEt T σ :=
  let st := shStepWith val p s.st e
  match s.st.weights e.edge with
  | none => { s with st := st }
  | some (w, k) =>
    if k < e.key then { s with st := st }
    else
      let c := cb (s.st.aut.emplaceEdge e.edge (e.trace, w)) s.ext e.edge (e.trace, w) e.key
      { st := st, ext := c.1, found := s.found || c.2 }

/-- One round of the loop of `run()` (internal/PdaSaturation.h:706-713). -/
def shEtStep (val : W → T) (hp : Heap (ShElem T) (WithTop T) ShElem.key) (cb : SCallback T σ) (p : Pda W)
    (s : ShEt T σ) : Option (ShEt T σ) :=
  if s.found then none
  else (hp.pop s.st.ws).map fun y => shEtStepWith val cb p { s with st := { s.st with ws := y.2 } } y.1

end

/-! ## The entry points of `Solver` -/

/-- `PAutomatonProduct` as a whole (PAutomatonProduct.h:489-499). -/
structure SInstance (T : Type) where
  initial : Aut T
  final : Aut T
  prod : SProd T

namespace SInstance

/-- The constructor from two automata (PAutomatonProduct.h:69-72); `junk` are the values of the members
`_best_weight`, which it does not initialize. -/
def ofAutomata (size : Nat) (a b : Aut T) (junk : Nat → T) : SInstance T :=
  ⟨a, b, { base := Product.ofAutomata size a b, best := junk }⟩

/-- `automaton()` (PAutomatonProduct.h:122-127); `swap` is `_swap_initial_final`, set by `enable_pre_star`. -/
def automaton (swap : Bool) (i : SInstance T) : Aut T := if swap then i.final else i.initial

variable [LinearOrder T] [AddCommMonoid T]

/-- The callback that calls `add_edge_product` or `add_initial_edge` (PAutomatonProduct.h:104-115). -/
def cbFirst (hq : Heap (T × Nat) T Prod.fst) (h : HashOrder) (dual : Bool) (second : Aut T) : SCallback T (SProd T) :=
  fun a e t an k => e.addEdge hq h true dual a second t an k

/-- The callback that calls `add_final_edge` (PAutomatonProduct.h:117-120). -/
def cbSecond (hq : Heap (T × Nat) T Prod.fst) (h : HashOrder) (first : Aut T) : SCallback T (SProd T) :=
  fun a e t an k => e.addEdge hq h false true first a t an k

/-- `Solver::post_star_accepts<Trace_Type::Shortest>(instance)` (Solver.h:215-223): the instance afterwards and the
answer; `none` means that the fuel did not suffice. -/
def postStarAccepts (val : W → T) (hp : Heap (ShElem T) (WithTop T) ShElem.key) (hq : Heap (T × Nat) T Prod.fst)
    (h : HashOrder) (p : Pda W) (i : SInstance T) (fuel : Nat) : Except String (Option (SInstance T × Bool)) :=
  let r := i.prod.initProduct hq h i.initial i.final
  if r.2 then .ok (some ({ i with prod := r.1 }, true))
  else if shNegative val p i.initial then
    .error "Priority-queue based shortest trace post* algorithm does not work with negative weights."
  else .ok ((whileSome (shEtStep val hp (cbFirst hq h false i.final) p) fuel
    (shEtInit h p (cbFirst hq h false i.final) i.initial r.1)).map fun s =>
      ({ i with initial := s.st.aut, prod := s.ext }, s.found))

variable [LinearOrder W] [Zero W]

/-- `Solver::pre_star_accepts<Trace_Type::Shortest>(instance)` (Solver.h:181-192). The product is initialized with the
default `Trace_Type::None`, that is, without back edges. -/
def preStarAccepts (val : W → T) (hp : Heap (ShElem T) (WithTop T) ShElem.key) (hq : Heap (T × Nat) T Prod.fst)
    (h : HashOrder) (junk : Nat → Bool) (p : Pda W) (i : SInstance T) (fuel : Nat) : Option (SInstance T × Bool) :=
  let r := i.prod.base.initProduct h false true i.final i.initial
  let prod := { i.prod with base := r.1 }
  if r.2 then some ({ i with prod := prod }, true)
  else (preStarShortest val hp h (cbFirst hq h false i.initial) true junk p i.final prod fuel).map fun s =>
    ({ i with final := s.aut, prod := s.ext }, s.found)

/-- The state of `dual_short_search` (Solver.h:128-129): the two saturations, with one product, which is copied from one
to the other between steps. -/
structure Dual (T : Type) where
  pre : SPreSt T (SProd T)
  post : ShEt T (SProd T)

namespace Dual

variable (val : W → T) (hp : Heap (ShElem T) (WithTop T) ShElem.key) (hq : Heap (T × Nat) T Prod.fst) (h : HashOrder)
  (junk : Nat → Bool) (p : Pda W)

/-- The constructors of the two saturations (Solver.h:128-129). The callback of pre* is not called in its constructor,
and the one of post* sees the automaton of pre* after it. -/
def start (i : SInstance T) (e : SProd T) : Dual T :=
  let pre := spreInit val h p i.final e
  let post := shEtInit h p (cbFirst hq h true pre.aut) i.initial e
  ⟨{ pre with ext := post.ext }, post⟩

/-- The step of post* in the loop (Solver.h:134). -/
def stepPost (d : Dual T) (y : ShElem T × List (ShElem T)) : Dual T :=
  let post := shEtStepWith val (cbFirst hq h true d.pre.aut) p { d.post with st := { d.post.st with ws := y.2 } } y.1
  ⟨{ d.pre with ext := post.ext }, post⟩

/-- The step of pre* in the loop (Solver.h:138). -/
def stepPre (d : Dual T) (y : ShElem T × List (ShElem T)) : Dual T :=
  let pre := spreStepWith val (cbSecond hq h d.post.st.aut) true junk p { d.pre with ws := y.2 } y.1
  ⟨pre, { d.post with ext := pre.ext }⟩

/-- `pre_star.found() || post_star.found()`. -/
def found (d : Dual T) : Bool := d.pre.found || d.post.found

/-- One round of the loop (Solver.h:133-142). When the function returns in the middle of a round because post* has
found a path, pre* does not move. -/
def step (d : Dual T) : Option (Dual T) :=
  if d.found then none
  else match hp.pop d.pre.ws, hp.pop d.post.st.ws with
    | some x, some y =>
      let d1 := stepPost val hq h p d y
      some (if d1.post.found then d1 else stepPre val hq h junk p d1 x)
    | _, _ => none

end Dual

/-- `Solver::dual_search_accepts<Trace_Type::Shortest>(instance)` (Solver.h:84-108, 124-145). -/
def dualSearchAccepts (val : W → T) (hp : Heap (ShElem T) (WithTop T) ShElem.key) (hq : Heap (T × Nat) T Prod.fst)
    (h : HashOrder) (junk : Nat → Bool) (p : Pda W) (i : SInstance T) (fuel : Nat) :
    Except String (Option (SInstance T × Bool)) :=
  let r := i.prod.base.initProduct h true true i.initial i.final
  let prod := { i.prod with base := r.1 }
  if r.2 then .ok (some ({ i with prod := prod }, true))
  else if shNegative val p i.initial then
    .error "Priority-queue based shortest trace post* algorithm does not work with negative weights."
  else .ok ((whileSome (Dual.step val hp hq h junk p) fuel (Dual.start val hq h p i prod)).map fun d =>
    (⟨d.post.st.aut, d.pre.aut, d.post.ext⟩, d.found))

omit [LinearOrder W] [Zero W] in
/-- `Solver::get_trace<Trace_Type::Shortest>(instance)` (Solver.h:274-276). -/
def getTrace (p : Pda W) (swap : Bool) (i : SInstance T) : Option (List Config) × WithTop T :=
  (Verif.getTrace p (i.automaton swap) i.prod.findFirst.1, i.prod.findFirst.2)

omit [LinearOrder W] [Zero W] in
/-- `Solver::get_trace_dual_search<Trace_Type::Shortest>(instance)` (Solver.h:282-301). Without a path the weight is
`typename W::type {}`, that is zero. -/
def getTraceDual (p : Pda W) (i : SInstance T) : Option (List Config) × WithTop T :=
  match i.prod.findPairs.1 with
  | none => (some [], ((0 : T) : WithTop T))
  | some paths =>
    (match Verif.getTrace p i.initial paths.split.1, Verif.getTrace p i.final paths.split.2.removeEpsilon with
      | some t1, some (_ :: t2) => some (t1 ++ t2)
      | _, _ => none, i.prod.findPairs.2)

end SInstance

end Verif
