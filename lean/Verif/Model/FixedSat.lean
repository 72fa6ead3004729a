import Verif.Model.PostStar
import Verif.Model.Algorithms
import Verif.Model.Reducer
import Mathlib.Order.BoundedOrder.Basic
import Mathlib.Algebra.Group.Defs

/-!
# internal/PdaSaturation.h:716-1060 and utils/workset.h: fixed-point saturation

`T` is the solver's weight type: `less` is `<`, `bottom()` is `⊥`, `zero()` is `0` and `add` is `+`; `val` turns the
weight of a rule into it. The rules of a state are sorted by the type `W` of the weights themselves.

Reading through a null pointer is undefined in C++; here it sets the flag `undef`.
-/

namespace Verif

variable {W T X : Type}

/-- The state of a `fixed_point_workset` (utils/workset.h:37-42) together with the members common to both saturations.
The annotation of a transition is the pair of traces and the weight; in `Aut (Trace × T)` the first trace comes
first and the second trace and the weight follow. `x` holds the members of the derived class. -/
structure FixSt (T X : Type) where
  aut : Aut (Trace × T)
  x : X
  count : Nat := 0
  done : Bool := false
  limit : Nat := 0
  rounds : Nat := 0
  workset : List Tr := []
  next : List Tr := []
  undef : Bool := false

/-- Assignment through the pointer returned by `get_edge`. -/
def Aut.setEdge (a : Aut W) (t : Tr) (ann : Ann W) : Aut W :=
  { a with edges := a.edges.map fun e => if e.1 = t then (t, ann) else e }

/-- `_automaton.get_edge(from, label, to)->second`: the weight of a transition. -/
def FixSt.wt (s : FixSt T X) (t : Tr) : Option T := (s.aut.getEdge t).map fun a => a.2.2

/-- `operator<` of `temp_edge_t` (internal/PdaSaturation.h:46-48). -/
def trLt (a b : Tr) : Bool :=
  decide (a.src < b.src ∨ a.src = b.src ∧ (a.label < b.label ∨ a.label = b.label ∧ a.dst < b.dst))

/-- `std::unique` followed by `erase`. -/
def uniqTr : List Tr → List Tr
  | [] => []
  | a :: l => match uniqTr l with
    | [] => [a]
    | b :: l' => if a = b then b :: l' else a :: b :: l'

section
variable [LinearOrder T] [OrderBot T]

/-- `update_edge<change_is_bottom>(from, label, to, edge_weight, trace)` (internal/PdaSaturation.h:725-755 and
981-1008): the new state and `is_changed`. `ins` stands for what happens in the derived class when the transition
is new, `queued` for the condition under which a changed transition enters the workset. -/
def fixUpdate (ins : X → Tr → X) (queued : Tr → Bool) (bot : Bool) (s : FixSt T X) (t : Tr) (w : T) (tr : Trace) :
    FixSt T X × Bool :=
  match s.aut.getEdge t with
  | none =>
    if bot then ({ s with undef := true }, false)
    else ({ s with aut := s.aut.emplaceEdge t (tr, tr, w), count := s.count + 1, limit := s.count + 1,
                   x := ins s.x t, next := if queued t then s.next ++ [t] else s.next }, true)
  | some (tr1, _, y) =>
    if w < y then
      ({ s with aut := s.aut.setEdge t (tr1, tr, if bot then ⊥ else w),
                next := if queued t then s.next ++ [t] else s.next }, true)
    else (s, false)

/-- The part of `step` (utils/workset.h:60-66) after a possible swap. Both `step_with` always return true. -/
def fixPop (stepWith : Bool → FixSt T X → Tr → FixSt T X) (bot : Bool) (s : FixSt T X) : FixSt T X :=
  match s.workset.getLast? with
  | none => s
  | some t => stepWith bot { s with workset := s.workset.dropLast } t

/-- `step<change_is_bottom>()` with `enforce_set = true` (utils/workset.h:46-67). -/
def fixStep (stepWith : Bool → FixSt T X → Tr → FixSt T X) (bot : Bool) (s : FixSt T X) : FixSt T X :=
  if s.workset = [] then
    if s.next = [] then { s with rounds := s.rounds + 1, done := true }
    else fixPop stepWith bot
      { s with rounds := s.rounds + 1, workset := uniqTr (sortBy trLt s.next), next := [] }
  else fixPop stepWith bot s

/-- `done()` (utils/workset.h:74-76). -/
def FixSt.isDone (s : FixSt T X) : Bool := s.done || s.rounds == s.limit

/-- `while (!done()) step<change_is_bottom>();` -/
def fixLoop (stepWith : Bool → FixSt T X → Tr → FixSt T X) (bot : Bool) (fuel : Nat) (s : FixSt T X) :
    Option (FixSt T X) :=
  whileSome (fun s => if s.isDone then none else some (fixStep stepWith bot s)) fuel s

/-- `finalize()` (utils/workset.h:68-73). -/
def fixFinalize (stepWith : Bool → FixSt T X → Tr → FixSt T X) (fuel : Nat) (s : FixSt T X) : Option (FixSt T X) :=
  fixLoop stepWith true fuel { s with rounds := 0 }

/-- `run()` (utils/workset.h:77-82). -/
def fixRun (stepWith : Bool → FixSt T X → Tr → FixSt T X) (fuel : Nat) (s : FixSt T X) : Option (FixSt T X) :=
  (fixLoop stepWith false fuel s).bind (fixFinalize stepWith fuel)

end

/-! ## pre* -/

/-- The members of `PreStarFixedPointSaturation` (internal/PdaSaturation.h:785-790). -/
structure FPreX where
  rel : List Tr := []
  dp : List (Nat × Nat × Nat) := []
  popped : List Nat := []

/-- The state of `PreStarFixedPointSaturation`. -/
abbrev FPre (T : Type) := FixSt T FPreX

/-- `_rel[q]`. -/
def FPreX.relAt (x : FPreX) (q : Nat) : List Tr := x.rel.filter fun t => t.src == q

/-- `_delta_prime[q]`. -/
def FPreX.dpAt (x : FPreX) (q : Nat) : List (Nat × Nat) := (x.dp.filter fun d => d.1 == q).map Prod.snd

/-- The order of `_delta_prime[q]`, a sorted set of pairs (internal/PdaSaturation.h:788); the first component is `q`. -/
def dpLt (a b : Nat × Nat × Nat) : Bool :=
  decide (a.1 < b.1 ∨ a.1 = b.1 ∧ (a.2.1 < b.2.1 ∨ a.2.1 = b.2.1 ∧ a.2.2 < b.2.2))

section
variable [LinearOrder T] [OrderBot T]

/-- `update_edge` of pre* (internal/PdaSaturation.h:725-755): new transitions enter `_rel`, and every changed
transition enters the workset. -/
def fpreUpdate (bot : Bool) (s : FPre T) (t : Tr) (w : T) (tr : Trace) : FPre T :=
  (fixUpdate (fun x t => { x with rel := x.rel ++ [t] }) (fun _ => true) bot s t w tr).1

/-- `update_edge_bulk` (internal/PdaSaturation.h:756-767). -/
def fpreBulk (p : Pda W) (bot : Bool) (s : FPre T) (src : Nat) (l : Labels) (dst : Nat) (w : T) (tr : Trace) : FPre T :=
  (p.expand l).foldl (fun s g => fpreUpdate bot s ⟨src, g, dst⟩ w tr) s

variable [LinearOrder W] [Zero W] [AddCommMonoid T] (val : W → T)

/-- The body of the loops in `add_pop` (internal/PdaSaturation.h:806-811). -/
def fpreAddPopRule (p : Pda W) (q pre : Nat) (s : FPre T) (y : Nat × Rule W × Labels) : FPre T :=
  if y.2.1.op = .pop then fpreBulk p false s pre y.2.2 q (val y.2.1.weight) (Trace.pre y.1) else s

/-- `add_pop(state)` (internal/PdaSaturation.h:794-815). -/
def fpreAddPop (p : Pda W) (s : FPre T) (q : Nat) : FPre T :=
  if q ≥ p.size then s
  else if s.x.popped.contains q then s
  else (p.st q).preStates.foldl (fun s pre => (p.rulesInto pre q).foldl (fpreAddPopRule val p q pre) s)
    { s with x := { s.x with popped := q :: s.x.popped } }

/-- One transition in the first loop of `initialize` (internal/PdaSaturation.h:821-824). -/
def fpreInitEdge (s : FPre T) (t : Tr) : FPre T :=
  { s with x := { s.x with rel := s.x.rel ++ [t] }, next := s.next ++ [t], count := s.count + 1 }

/-- The constructor with `initialize()` (internal/PdaSaturation.h:769-775, 817-833). The round limit passed to the base
class is overwritten at the end of `initialize`, also when it comes from the caller (776-783). -/
def fpreInit (h : HashOrder) (p : Pda W) (a : Aut (Trace × T)) : FPre T :=
  let s : FPre T := { aut := a, x := {} }
  let s := ((List.range a.n).flatMap fun i => a.out h i).foldl fpreInitEdge s
  let s := (List.range a.n).foldl (fun s i => if s.aut.isAcc i then fpreAddPop val p s i else s) s
  { s with limit := s.count }

/-- The body of the loop over `_delta_prime[t._from]` (internal/PdaSaturation.h:841-849); `w` is the weight of `t` at the
start of the step. -/
def fpreDelta (p : Pda W) (bot : Bool) (t : Tr) (w : T) (s : FPre T) (d : Nat × Nat) : FPre T :=
  match (p.st d.1).rules[d.2]? with
  | none => s
  | some (r, l) =>
    if l.contains t.label then
      match s.wt ⟨r.to, r.opLabel, t.src⟩ with
      | none => { s with undef := true }
      | some y => fpreUpdate bot s ⟨d.1, t.label, t.dst⟩ (val r.weight + y + w) (Trace.preTemp d.2 t.src)
    else s

/-- The body of the loop over `_rel[t._to]` (internal/PdaSaturation.h:880-887). -/
def fpreRel (bot : Bool) (t : Tr) (pre id : Nat) (l : Labels) (w : T) (s : FPre T) (u : Tr) : FPre T :=
  if l.contains u.label then
    match s.wt u with
    | none => { s with undef := true }
    | some y => fpreUpdate bot s ⟨pre, u.label, u.dst⟩ (w + y) (Trace.preTemp id t.dst)
  else s

/-- The body of the loop over the rules into `t._from` (internal/PdaSaturation.h:855-893). The loop over `_rel[t._to]`
may add to `_rel[pre_state]`; if these are the same vector then the transition is the one just visited, so nothing
is added, and iterating over the vector as it was at the start is the same. -/
def fpreRule (p : Pda W) (bot : Bool) (t : Tr) (w : T) (pre : Nat) (s : FPre T) (y : Nat × Rule W × Labels) : FPre T :=
  match y.2.1.op with
  | .pop =>
    if s.x.popped.contains t.src then s
    else fpreBulk p false s pre y.2.2 t.src (val y.2.1.weight) (Trace.pre y.1)
  | .swap =>
    if y.2.1.opLabel = t.label then fpreBulk p bot s pre y.2.2 t.dst (val y.2.1.weight + w) (Trace.pre y.1) else s
  | .noop =>
    if y.2.2.contains t.label then
      fpreUpdate bot s ⟨pre, t.label, t.dst⟩ (val y.2.1.weight + w) (Trace.pre y.1)
    else s
  | .push =>
    if y.2.1.opLabel = t.label then
      (s.x.relAt t.dst).foldl (fpreRel bot t pre y.1 y.2.2 (val y.2.1.weight + w))
        { s with x := { s.x with
            dp := if s.x.dp.contains (t.dst, pre, y.1) then s.x.dp else insertBy dpLt (t.dst, pre, y.1) s.x.dp } }
    else s

/-- The loops of `step_with` (internal/PdaSaturation.h:841-896) with the weight `w` of `t`. -/
def fpreBody (p : Pda W) (bot : Bool) (s : FPre T) (t : Tr) (w : T) : FPre T :=
  let s := (s.x.dpAt t.src).foldl (fpreDelta val p bot t w) s
  if t.src ≥ p.size then s
  else
    let s := (p.st t.src).preStates.foldl (fun s pre =>
      (p.rulesInto pre t.src).foldl (fpreRule val p bot t w pre) s) s
    { s with x := { s.x with popped := t.src :: s.x.popped } }

/-- `step_with<change_is_bottom>(t)` (internal/PdaSaturation.h:835-898). -/
def fpreStepWith (p : Pda W) (bot : Bool) (s : FPre T) (t : Tr) : FPre T :=
  match s.wt t with
  | none => { s with undef := true }
  | some w => fpreBody val p bot s t w

/-- `Solver::pre_star_fixed_point(automaton)` (Solver.h:48-51). -/
def preStarFixedPoint (h : HashOrder) (p : Pda W) (a : Aut (Trace × T)) (fuel : Nat) : Option (FPre T) :=
  fixRun (fpreStepWith val p) fuel (fpreInit val h p a)

end

/-! ## post* -/

/-- The members of `PostStarFixedPointSaturation` (internal/PdaSaturation.h:924-932). -/
structure FPostX where
  nQ : Nat
  qPrime : List ((Nat × Nat) × Nat) := []
  rel1 : List Tr := []
  rel2 : List (Nat × Nat) := []

/-- The state of `PostStarFixedPointSaturation`. -/
abbrev FPost (T : Type) := FixSt T FPostX

/-- `_rel1[q - _n_pda_states]`. -/
def FPostX.rel1At (x : FPostX) (q : Nat) : List Tr := x.rel1.filter fun t => t.src == q

/-- `_rel2[q - _n_Q]`. -/
def FPostX.rel2At (x : FPostX) (q : Nat) : List Nat := (x.rel2.filter fun d => d.1 == q).map Prod.snd

/-- `insert_rel(from, label, to)` (internal/PdaSaturation.h:971-978); `n` is the number of PDA states. -/
def fpostRel (n : Nat) (x : FPostX) (t : Tr) : FPostX :=
  { x with rel1 := if t.src ≥ n then x.rel1 ++ [t] else x.rel1
           rel2 := if t.label = epsilon ∧ t.dst ≥ x.nQ then x.rel2 ++ [(t.dst, t.src)] else x.rel2 }

/-- One transition in the last loop of `initialize` (internal/PdaSaturation.h:959-964). -/
def fpostInitEdge (n : Nat) (s : FPost T) (t : Tr) : FPost T :=
  if t.src < n then { s with next := s.next ++ [t], count := s.count + 1 } else { s with x := fpostRel n s.x t }

/-- The constructor with `initialize()` (internal/PdaSaturation.h:911-921, 934-969). As for pre*, `initialize` overwrites
the round limit. The states for PUSH rules are added as in the ordinary post*; the accepting flags are the only
part of the automaton that this changes, so `qInit` is run on an automaton without transitions. -/
def fpostInit (h : HashOrder) (p : Pda W) (a : Aut (Trace × T)) : FPost T :=
  let q := qInit p ({ acc := a.acc } : Aut W)
  let a' : Aut (Trace × T) := { acc := q.1.acc, edges := a.edges }
  let s : FPost T := { aut := a', x := { nQ := a.n, qPrime := q.2 } }
  let s := ((List.range a'.n).flatMap fun i => a'.out h i).foldl (fpostInitEdge p.size) s
  { s with limit := s.count }

section
variable [LinearOrder T] [OrderBot T]

/-- `update_edge` of post* (internal/PdaSaturation.h:980-1008): only transitions from PDA states enter the workset. -/
def fpostUpdate (n : Nat) (bot : Bool) (s : FPost T) (t : Tr) (w : T) (tr : Trace) : FPost T × Bool :=
  fixUpdate (fpostRel n) (fun t => decide (t.src < n)) bot s t w tr

variable [AddCommMonoid T]

/-- The body of the loop over `_rel2[q_new - _n_Q]` (internal/PdaSaturation.h:1044-1047). -/
def fpostRel2 (n : Nat) (bot : Bool) (t : Tr) (m : Nat) (wb : T) (s : FPost T) (f : Nat) : FPost T :=
  match s.wt ⟨f, epsilon, m⟩ with
  | none => { s with undef := true }
  | some y => (fpostUpdate n bot s ⟨f, t.label, t.dst⟩ (wb + y) (Trace.postEps m)).1

/-- The case PUSH (internal/PdaSaturation.h:1037-1050). -/
def fpostPush (n : Nat) (bot : Bool) (t : Tr) (r : Rule W) (wb : T) (tr : Trace) (s : FPost T) : FPost T :=
  let m := qFind s.x.qPrime (r.to, r.opLabel)
  let s := (fpostUpdate n bot s ⟨r.to, r.opLabel, m⟩ 0 tr).1
  let u := fpostUpdate n bot s ⟨m, t.label, t.dst⟩ wb tr
  if u.2 then (u.1.x.rel2At m).foldl (fpostRel2 n bot t m wb) u.1 else u.1

/-- The body of the loop over the rules of `t._from` (internal/PdaSaturation.h:1021-1051). -/
def fpostRule (val : W → T) (n : Nat) (bot : Bool) (t : Tr) (w : T) (s : FPost T) (y : (Rule W × Labels) × Nat) :
    FPost T :=
  if !y.1.2.contains t.label then s
  else
    let r := y.1.1
    let tr := Trace.post t.src y.2 t.label
    let wb := w + val r.weight
    match r.op with
    | .pop => (fpostUpdate n bot s ⟨r.to, epsilon, t.dst⟩ wb tr).1
    | .swap => (fpostUpdate n bot s ⟨r.to, r.opLabel, t.dst⟩ wb tr).1
    | .noop => (fpostUpdate n bot s ⟨r.to, t.label, t.dst⟩ wb tr).1
    | .push => fpostPush n bot t r wb tr s

/-- The body of the loop over `_rel1[t._to - _n_pda_states]` (internal/PdaSaturation.h:1054-1057). -/
def fpostRel1 (n : Nat) (bot : Bool) (t : Tr) (w : T) (s : FPost T) (u : Tr) : FPost T :=
  match s.wt u with
  | none => { s with undef := true }
  | some y => (fpostUpdate n bot s ⟨t.src, u.label, u.dst⟩ (y + w) (Trace.postEps t.dst)).1

/-- `step_with<change_is_bottom>(t)` (internal/PdaSaturation.h:1011-1060). -/
def fpostStepWith (val : W → T) (p : Pda W) (bot : Bool) (s : FPost T) (t : Tr) : FPost T :=
  match s.wt t with
  | none => { s with undef := true }
  | some w =>
    if t.label ≠ epsilon then (p.st t.src).rules.zipIdx.foldl (fpostRule val p.size bot t w) s
    else (s.x.rel1At t.dst).foldl (fpostRel1 p.size bot t w) s

/-- `Solver::post_star_fixed_point(automaton)` (Solver.h:60-63). -/
def postStarFixedPoint (val : W → T) (h : HashOrder) (p : Pda W) (a : Aut (Trace × T)) (fuel : Nat) :
    Option (FPost T) :=
  fixRun (fpostStepWith val p) fuel (fpostInit h p a)

end

end Verif
