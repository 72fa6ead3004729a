import Verif.Model.FixedSat
import Mathlib.Algebra.Order.Monoid.Unbundled.WithTop
import Mathlib.Algebra.Order.Monoid.Defs

/-!
# internal/PdaSaturation.h:494-714: shortest post* (`PostStarShortestSaturation`)

`T` is the type of the weights, with exact addition: sums that reach `max()` are not modelled (C30 treats the
arithmetic). The solver weights that are compared in the queue and in `_minpath` have the additional value `max()`,
which is the `⊤` of `WithTop T`. `val` turns the weight of a rule into a weight of the solver.

Only `ET = false` is modelled, which is what `Solver::post_star` uses (Solver.h:239).
-/

namespace Verif

variable {W T : Type}

/-- `std::priority_queue`: `pop` takes some element whose key is least. Which of several such elements comes first is
not specified, and all theorems hold for every choice. -/
structure Heap (A K : Type) [LE K] (key : A → K) where
  pop : List A → Option (A × List A)
  none_iff : ∀ l, pop l = none ↔ l = []
  spec : ∀ l e r, pop l = some (e, r) → (e :: r).Perm l ∧ ∀ u ∈ r, key e ≤ key u

/-- The first element with the least key, and the others. -/
def popMin {A K : Type} [LE K] [DecidableLE K] (key : A → K) : List A → Option (A × List A)
  | [] => none
  | a :: l => match popMin key l with
    | none => some (a, [])
    | some (b, r) => if key a ≤ key b then some (a, l) else some (b, a :: r)

/-- `weight_edge_trace` (internal/PdaSaturation.h:502-508). -/
structure ShElem (T : Type) where
  key : WithTop T
  edge : Tr
  trace : Trace

/-- The members of `PostStarShortestSaturation` (internal/PdaSaturation.h:526-543). `x` holds `_n_Q`, `_q_prime`, `_rel1`
and `_rel2`, which are as in the fixed-point saturation. `_edge_weights` is a partial function. `undef` is set when
the code would read through a null pointer. -/
structure ShSt (T : Type) where
  aut : Aut T
  x : FPostX
  minpath : Nat → WithTop T := fun _ => ⊤
  weights : Tr → Option (T × WithTop T) := fun _ => none
  ws : List (ShElem T) := []
  undef : Bool := false

/-- `_edge_weights[t] = v`. -/
def setW (f : Tr → Option (T × WithTop T)) (t : Tr) (v : T × WithTop T) : Tr → Option (T × WithTop T) :=
  fun u => if u = t then some v else f u

/-- `get_edge(from, label, to)->second`: the weight of a transition. -/
def Aut.wt (a : Aut T) (t : Tr) : Option T := (a.getEdge t).map Prod.snd

section
variable [LinearOrder T] [AddCommMonoid T]

/-- `has_negative_weight()` (internal/PdaSaturation.h:545-552, internal/PDA.h:228-237, internal/PAutomaton.h:239-253). For
unsigned weights the code skips the test, and there are no negative weights. -/
def shNegative (val : W → T) (p : Pda W) (a : Aut T) : Bool :=
  p.states.any (fun st => st.rules.any fun y => decide (val y.1.weight < 0)) || a.edges.any fun e => decide (e.2.2 < 0)

/-- One transition in the last loop of `initialize` (internal/PdaSaturation.h:577-590). -/
def shInitEdge (n : Nat) (s : ShSt T) (t : Tr) : ShSt T :=
  let s := if (s.weights t).isSome then s else { s with weights := setW s.weights t (0, 0) }
  if t.src < n then { s with ws := s.ws ++ [⟨0, t, {}⟩] } else { s with x := fpostRel n s.x t }

/-- `initialize()` (internal/PdaSaturation.h:554-594). -/
def shInit (h : HashOrder) (p : Pda W) (a : Aut T) : ShSt T :=
  let q := qInit p ({ acc := a.acc } : Aut W)
  let a' : Aut T := { acc := q.1.acc, edges := a.edges }
  ((List.range a'.n).flatMap fun i => a'.out h i).foldl (shInitEdge p.size)
    { aut := a', x := { nQ := a.n, qPrime := q.2 } }

/-- `update_edge_(from, label, to, edge_weight, workset_weight)` and the second component of its result
(internal/PdaSaturation.h:596-611). -/
def shEdge (s : ShSt T) (t : Tr) (w : T) (k : WithTop T) : ShSt T × Bool :=
  match s.weights t with
  | none => ({ s with weights := setW s.weights t (w, k) }, true)
  | some (x, k0) =>
    ({ s with weights := setW s.weights t (if w < x then w else x, if k < k0 then k else k0) }, decide (k < k0))

/-- The weight of a transition in the workset (internal/PdaSaturation.h:613). -/
def ShSt.base (s : ShSt T) (q : Nat) : WithTop T := if q < s.x.nQ then 0 else s.minpath q

/-- `update_edge(from, label, to, edge_weight, trace)` (internal/PdaSaturation.h:612-617). -/
def shUpdate (s : ShSt T) (t : Tr) (w : T) (tr : Trace) : ShSt T :=
  let k := s.base t.dst + (w : WithTop T)
  let u := shEdge s t w k
  if u.2 then { u.1 with ws := u.1.ws ++ [⟨k, t, tr⟩] } else u.1

/-- The first part of the case PUSH (internal/PdaSaturation.h:679-686); `m` is `q_new`. -/
def shPush (s : ShSt T) (t : Tr) (wd : WithTop T) (tr : Trace) : ShSt T :=
  let u := shEdge s t 0 wd
  if wd < u.1.minpath t.dst then
    { u.1 with minpath := fun q => if q = t.dst then wd else u.1.minpath q
               ws := if u.2 then u.1.ws ++ [⟨wd, t, tr⟩] else u.1.ws }
  else u.1

/-- The body of the loop over the rules of `t._from` (internal/PdaSaturation.h:658-690); `k` is `elem._weight`. -/
def shRule (val : W → T) (t : Tr) (k : WithTop T) (w : T) (s : ShSt T) (y : (Rule W × Labels) × Nat) : ShSt T :=
  if !y.1.2.contains t.label then s
  else
    let r := y.1.1
    let tr := Trace.post t.src y.2 t.label
    let wd := k + (val r.weight : WithTop T)
    let wb := w + val r.weight
    match r.op with
    | .pop => shUpdate s ⟨r.to, epsilon, t.dst⟩ wb tr
    | .swap => shUpdate s ⟨r.to, r.opLabel, t.dst⟩ wb tr
    | .noop => shUpdate s ⟨r.to, t.label, t.dst⟩ wb tr
    | .push =>
      let m := qFind s.x.qPrime (r.to, r.opLabel)
      shUpdate (shPush s ⟨r.to, r.opLabel, m⟩ wd tr) ⟨m, t.label, t.dst⟩ wb tr

/-- The body of the loop over `_rel2[t._from - _n_Q]` (internal/PdaSaturation.h:647-650). -/
def shRel2 (t : Tr) (w : T) (s : ShSt T) (f : Nat) : ShSt T :=
  match s.aut.wt ⟨f, epsilon, t.src⟩ with
  | none => { s with undef := true }
  | some y => shUpdate s ⟨f, t.label, t.dst⟩ (w + y) (Trace.postEps t.src)

/-- The body of the loop over `_rel1[t._to - _n_pda_states]` (internal/PdaSaturation.h:693-697). -/
def shRel1 (t : Tr) (w : T) (s : ShSt T) (u : Tr) : ShSt T :=
  match s.aut.wt ⟨t.dst, u.label, u.dst⟩ with
  | none => { s with undef := true }
  | some y => shUpdate s ⟨t.src, u.label, u.dst⟩ (y + w) (Trace.postEps t.dst)

/-- The loops of `step()` (internal/PdaSaturation.h:645-698). -/
def shBody (val : W → T) (p : Pda W) (t : Tr) (k : WithTop T) (w : T) (s : ShSt T) : ShSt T :=
  if t.src ≥ p.size then (s.x.rel2At t.src).foldl (shRel2 t w) s
  else if t.label ≠ epsilon then (p.st t.src).rules.zipIdx.foldl (shRule val t k w) s
  else (s.x.rel1At t.dst).foldl (shRel1 t w) s

/-- `step()` after the top element has been taken (internal/PdaSaturation.h:631-698). -/
def shStepWith (val : W → T) (p : Pda W) (s : ShSt T) (e : ShElem T) : ShSt T :=
  match s.weights e.edge with
  | none => { s with undef := true }
  | some (w, k) =>
    if k < e.key then s
    else shBody val p e.edge e.key w
      { s with x := fpostRel p.size s.x e.edge, aut := s.aut.emplaceEdge e.edge (e.trace, w) }

/-- `while (!workset_empty()) step();` (internal/PdaSaturation.h:706-713). -/
def shLoop (val : W → T) (hp : Heap (ShElem T) (WithTop T) ShElem.key) (p : Pda W) (fuel : Nat) (s : ShSt T) :
    Option (ShSt T) :=
  whileSome (fun s => (hp.pop s.ws).map fun y => shStepWith val p { s with ws := y.2 } y.1) fuel s

/-- `Solver::post_star<Trace_Type::Shortest>(automaton)` (Solver.h:235-240) with the constructor
(internal/PdaSaturation.h:516-524). -/
def postStarShortest (val : W → T) (hp : Heap (ShElem T) (WithTop T) ShElem.key) (h : HashOrder) (p : Pda W) (a : Aut T)
    (fuel : Nat) : Except String (Option (ShSt T)) :=
  if shNegative val p a then
    .error "Priority-queue based shortest trace post* algorithm does not work with negative weights."
  else .ok (shLoop val hp p fuel (shInit h p a))

end

end Verif
