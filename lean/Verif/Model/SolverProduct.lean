import Verif.Model.Product
import Verif.Model.PreStar
import Verif.Model.PostStar
import Verif.Model.FromNfa

/-! # Solver.h: entry points on a solver instance (not `Shortest`, not the fixed-point ones) -/

namespace Verif

variable {W : Type}

/-- `PAutomatonProduct` as a whole (PAutomatonProduct.h:489-499): the two automata and the product. -/
structure Instance (W : Type) where
  initial : Aut W
  final : Aut W
  prod : Product W

namespace Instance

/-- The constructor from two automata (PAutomatonProduct.h:69-72). -/
def ofAutomata (size : Nat) (a b : Aut W) : Instance W := ⟨a, b, Product.ofAutomata size a b⟩

/-- The constructor from two NFAs (PAutomatonProduct.h:62-67); `intersect_vector` (480-487) is `setInter`. -/
def ofNfas [Zero W] (size nl : Nat) (m : Nfa) (ms : List Nat) (k : Nfa) (ks : List Nat) : Instance W :=
  ⟨Aut.ofNfa size nl m ms, Aut.ofNfa size nl k ks,
    { size := size, aut := Aut.special size (setInter ms ks) (m.emptyAccept && k.emptyAccept) }⟩

variable [Zero W]

/-- The callback that calls `add_edge_product` or `add_initial_edge` (PAutomatonProduct.h:104-115): the automaton
under saturation is the first component. -/
def cbFirst (h : HashOrder) (dual : Bool) (second : Aut W) : Callback W (Product W) :=
  fun a e t an => e.addEdge h true dual true a second t an

/-- The callback that calls `add_final_edge` (PAutomatonProduct.h:117-120). -/
def cbSecond (h : HashOrder) (first : Aut W) : Callback W (Product W) :=
  fun a e t an => e.addEdge h false true true first a t an

/-- `Solver::post_star_accepts(instance)` (Solver.h:215-233): the instance afterwards and the answer. -/
def postStarAccepts (h : HashOrder) (p : Pda W) (i : Instance W) : Instance W × Bool :=
  let r := i.prod.initProduct h false true i.initial i.final
  if r.2 then ({ i with prod := r.1 }, true)
  else
    let s := postStar h p (cbFirst h false i.final) i.initial r.1
    ({ i with initial := s.aut, prod := s.ext }, s.found)

/-- `Solver::post_star_accepts_no_ET(instance)` (Solver.h:254-258). (`pre_star_accepts_no_ET` passes a type where
`pre_star` expects a `Trace_Type` and cannot be instantiated.) -/
def postStarAcceptsNoET (h : HashOrder) (p : Pda W) (i : Instance W) : Instance W × Bool :=
  let s := postStar h p noCb i.initial ()
  let r := i.prod.initProduct h false false s.aut i.final
  ({ i with initial := s.aut, prod := r.1 }, r.2)

/-- The state of `dual_search` (Solver.h:151-152): the two saturations. The product belongs to both, so it is copied
from one to the other between steps. -/
structure Dual (W : Type) where
  pre : PreSt W (Product W)
  post : PostSt W (Product W)

variable [LinearOrder W]

/-- `Solver::pre_star_accepts(instance)` (Solver.h:181-192), after `enable_pre_star`. -/
def preStarAccepts (h : HashOrder) (p : Pda W) (i : Instance W) : Instance W × Bool :=
  let r := i.prod.initProduct h false true i.final i.initial
  if r.2 then ({ i with prod := r.1 }, true)
  else
    let s := preStar h p (cbFirst h false i.initial) i.final r.1
    ({ i with final := s.aut, prod := s.ext }, s.found)

namespace Dual

/-- The constructors of the two saturations (Solver.h:151-152); the one of post* adds states, and no transitions. -/
def start (h : HashOrder) (p : Pda W) (i : Instance W) (e : Product W) : Dual W :=
  let pre := preInit h p (cbSecond h i.initial) i.final e
  ⟨pre, postInit h p i.initial pre.ext⟩

/-- The step of post* in the loop (Solver.h:157). -/
def stepPost (h : HashOrder) (p : Pda W) (d : Dual W) : Dual W :=
  let post := postStep p (cbFirst h true d.pre.aut) d.post
  ⟨{ d.pre with ext := post.ext }, post⟩

/-- The step of pre* in the loop (Solver.h:161). -/
def stepPre (h : HashOrder) (p : Pda W) (d : Dual W) : Dual W :=
  let pre := preStep p (cbSecond h d.post.aut) d.pre
  ⟨pre, { d.post with ext := pre.ext }⟩

/-- `pre_star.found() || post_star.found()`. -/
def found (d : Dual W) : Bool := d.pre.found || d.post.found

/-- The loop (Solver.h:153-165), with fuel. -/
def run (h : HashOrder) (p : Pda W) : Nat → Dual W → Dual W
  | 0, d => d
  | k + 1, d =>
    if d.found || d.pre.ws.isEmpty || d.post.ws.isEmpty then d
    else
      let d1 := stepPost h p d
      if d1.post.found then d1 else run h p k (stepPre h p d1)

end Dual

/-- `Solver::dual_search_accepts(instance)` (Solver.h:84-122, 146-166). -/
def dualSearchAccepts (h : HashOrder) (p : Pda W) (i : Instance W) : Instance W × Bool :=
  let r := i.prod.initProduct h true true i.initial i.final
  if r.2 then ({ i with prod := r.1 }, true)
  else
    let d := Dual.start h p i r.1
    let d := Dual.run h p (postFuel p d.post) d
    (⟨d.post.aut, d.pre.aut, d.post.ext⟩, d.found)

end Instance

end Verif
