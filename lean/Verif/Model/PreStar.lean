import Verif.Model.PAutomaton

/-!
# internal/PdaSaturation.h:65-337: pre* saturation (`PreStarSaturation`, not `SHORTEST`)

The early-termination callback is a state transformer `cb`: the callbacks used by `Solver` update a
product automaton, which is the component `ext` of the state here. The `ET = false` instantiation is
`cb = noCb`.
-/

namespace Verif

variable {W σ : Type}

/-- An early-termination callback: called after the transition has been inserted, with the automaton,
its own state, the transition and the annotation; returns its new state and the verdict
(internal/PdaSaturation.h:60-63, 205). -/
abbrev Callback (W σ : Type) := Aut W → σ → Tr → Ann W → σ × Bool

/-- The instantiation `ET = false`. -/
def noCb : Callback W Unit := fun _ _ _ _ => ((), false)

/-- The members of `PreStarSaturation` (internal/PdaSaturation.h:115-126). `rel` lists the pairs of
`_rel` with their index, `dp` those of `_delta_prime`, in order of insertion; `popped` lists the
indices at which `_popped` is true. -/
structure PreSt (W σ : Type) where
  aut : Aut W
  ws : List Tr := []
  rel : List Tr := []
  dp : List (Nat × Nat × Nat) := []
  popped : List Nat := []
  found : Bool := false
  ext : σ

namespace PreSt

/-- `_rel[q]`. -/
def relAt (s : PreSt W σ) (q : Nat) : List Tr := s.rel.filter fun t => t.src == q

/-- `_delta_prime[q]`. -/
def dpAt (s : PreSt W σ) (q : Nat) : List (Nat × Nat) :=
  (s.dp.filter fun x => x.1 == q).map Prod.snd

end PreSt

section
variable [Zero W]

/-- `insert_edge(from, label, to, trace)` (internal/PdaSaturation.h:184-209, the branch 202-207). -/
def preInsert (cb : Callback W σ) (s : PreSt W σ) (r : Tr × Trace) : PreSt W σ :=
  if s.aut.hasEdge r.1 then s
  else
    let a := s.aut.emplaceEdge r.1 (r.2, 0)
    let s := { s with aut := a, ws := r.1 :: s.ws }
    if s.found then s
    else
      let c := cb a s.ext r.1 (r.2, 0)
      { s with ext := c.1, found := c.2 }

/-- Several `insert_edge` calls in sequence. -/
def preInsertAll (cb : Callback W σ) (s : PreSt W σ) (rs : List (Tr × Trace)) : PreSt W σ :=
  rs.foldl (preInsert cb) s

/-- The calls made by `insert_edge_bulk(from, labels, to, trace)`
(internal/PdaSaturation.h:211-221). -/
def bulk (p : Pda W) (src : Nat) (l : Labels) (dst : Nat) (tr : Trace) : List (Tr × Trace) :=
  (p.expand l).map fun g => (⟨src, g, dst⟩, tr)

variable [LinearOrder W]

/-- `add_pop(state)` (internal/PdaSaturation.h:137-157). -/
def addPop (p : Pda W) (cb : Callback W σ) (s : PreSt W σ) (q : Nat) : PreSt W σ :=
  if q ≥ p.size then s
  else if s.popped.contains q then s
  else
    let s := (p.st q).preStates.foldl (fun s pre =>
      (p.rulesInto pre q).foldl (fun s x =>
        if x.2.1.op = .pop then preInsertAll cb s (bulk p pre x.2.2 q (Trace.pre x.1)) else s) s) s
    { s with popped := q :: s.popped }

/-- `initialize()` (internal/PdaSaturation.h:159-181). -/
def preInit (h : HashOrder) (p : Pda W) (cb : Callback W σ) (a : Aut W) (e : σ) : PreSt W σ :=
  (List.range a.n).foldl (fun s i =>
    let s := { s with ws := (s.aut.out h i).reverse ++ s.ws }
    if s.aut.isAcc i then addPop p cb s i else s) { aut := a, ext := e }

/-- The body of the loop over the rules into `t._from` (internal/PdaSaturation.h:270-318). -/
def preRule (p : Pda W) (cb : Callback W σ) (t : Tr) (pre : Nat) (s : PreSt W σ)
    (x : Nat × Rule W × Labels) : PreSt W σ :=
  match x.2.1.op with
  | .pop =>
    if s.popped.contains t.src then s
    else preInsertAll cb s (bulk p pre x.2.2 t.src (Trace.pre x.1))
  | .swap =>
    if x.2.1.opLabel = t.label then preInsertAll cb s (bulk p pre x.2.2 t.dst (Trace.pre x.1)) else s
  | .noop =>
    if x.2.2.contains t.label then preInsert cb s (⟨pre, t.label, t.dst⟩, Trace.pre x.1) else s
  | .push =>
    if x.2.1.opLabel = t.label then
      let s := { s with dp := s.dp ++ [(t.dst, pre, x.1)] }
      (s.relAt t.dst).foldl (fun s u =>
        if x.2.2.contains u.label then
          preInsert cb s (⟨pre, u.label, u.dst⟩, Trace.preTemp x.1 t.dst)
        else s) s
    else s

/-- The body of the loop over `_delta_prime[t._from]` (internal/PdaSaturation.h:253-263); an index out
of range does not occur. -/
def preDelta (p : Pda W) (cb : Callback W σ) (t : Tr) (s : PreSt W σ) (x : Nat × Nat) : PreSt W σ :=
  match (p.st x.1).rules[x.2]? with
  | some (_, l) =>
    if l.contains t.label then preInsert cb s (⟨x.1, t.label, t.dst⟩, Trace.preTemp x.2 t.src)
    else s
  | none => s

/-- `step()` (internal/PdaSaturation.h:233-328, not `SHORTEST`). -/
def preStep (p : Pda W) (cb : Callback W σ) (s : PreSt W σ) : PreSt W σ :=
  match s.ws with
  | [] => s
  | t :: ws =>
    let s := { s with ws := ws, rel := s.rel ++ [t] }
    let s := (s.dpAt t.src).foldl (preDelta p cb t) s
    if t.src ≥ p.size then s
    else
      let s := (p.st t.src).preStates.foldl (fun s pre =>
        (p.rulesInto pre t.src).foldl (preRule p cb t pre) s) s
      { s with popped := t.src :: s.popped }

/-- The loop of `Solver::pre_star` (Solver.h:200-212), with fuel. With `ET = false` the flag is never
set, so the test of `found` has no effect. -/
def preRun (p : Pda W) (cb : Callback W σ) : Nat → PreSt W σ → PreSt W σ
  | 0, s => s
  | k + 1, s => if s.ws.isEmpty || s.found then s else preRun p cb k (preStep p cb s)

/-- Fuel for the loop: twice the number of possible transitions. `c05_pre_terminates` shows that it
suffices. -/
def preFuel (p : Pda W) (a : Aut W) : Nat := 2 * (a.n * p.nLabels * a.n)

/-- `Solver::pre_star(automaton, early_termination)` (Solver.h:194-213): final state of the
saturation. The returned flag is `found`. -/
def preStar (h : HashOrder) (p : Pda W) (cb : Callback W σ) (a : Aut W) (e : σ) : PreSt W σ :=
  preRun p cb (preFuel p a) (preInit h p cb a e)

end

end Verif
