import Verif.Model.PreStar

/-!
# internal/PdaSaturation.h:339-492: post* saturation (`PostStarSaturation`)
-/

namespace Verif

variable {W σ : Type}

/-- The members of `PostStarSaturation` (internal/PdaSaturation.h:357-369). `ws` is the queue, front
first. `rel1` lists the transitions stored in `_rel1` (entry `(to, label)` at index
`from - n_pda_states`), `rel2` the pairs `(to, from)` of `_rel2`, both in order of insertion. -/
structure PostSt (W σ : Type) where
  aut : Aut W
  nQ : Nat
  qPrime : List ((Nat × Nat) × Nat) := []
  ws : List Tr := []
  rel1 : List Tr := []
  rel2 : List (Nat × Nat) := []
  found : Bool := false
  ext : σ

namespace PostSt

/-- `_rel1[q - _n_pda_states]`. -/
def rel1At (s : PostSt W σ) (q : Nat) : List Tr := s.rel1.filter fun t => t.src == q

/-- `_rel2[q - _n_Q]`. -/
def rel2At (s : PostSt W σ) (q : Nat) : List Nat := (s.rel2.filter fun x => x.1 == q).map Prod.snd

end PostSt

/-- `_q_prime[key]` (internal/PdaSaturation.h:458); a missing key would yield 0. -/
def qFind (qp : List ((Nat × Nat) × Nat)) (key : Nat × Nat) : Nat :=
  ((qp.find? fun x => x.1 == key).map Prod.snd).getD 0

/-- `_q_prime.emplace(key, next_state_id())` followed by `add_state` if fresh
(internal/PdaSaturation.h:377-380). -/
def qAdd (s : Aut W × List ((Nat × Nat) × Nat)) (r : Rule W) : Aut W × List ((Nat × Nat) × Nat) :=
  if r.op = .push then
    if (s.2.find? fun x => x.1 == (r.to, r.opLabel)).isSome then s
    else (s.1.addState false, s.2 ++ [((r.to, r.opLabel), s.1.n)])
  else s

/-- The loops over all rules in `initialize` (internal/PdaSaturation.h:374-383). -/
def qInit (p : Pda W) (a : Aut W) : Aut W × List ((Nat × Nat) × Nat) :=
  p.states.foldl (fun s st => st.rules.foldl (fun s x => qAdd s x.1) s) (a, [])

/-- `insert_rel(from, label, to)` (internal/PdaSaturation.h:404-411). -/
def insertRel (p : Pda W) (s : PostSt W σ) (t : Tr) : PostSt W σ :=
  let s := if t.src ≥ p.size then { s with rel1 := s.rel1 ++ [t] } else s
  if t.label = epsilon ∧ t.dst ≥ s.nQ then { s with rel2 := s.rel2 ++ [(t.dst, t.src)] } else s

/-- One edge in the last loop of `initialize` (internal/PdaSaturation.h:394-398). -/
def postInitEdge (p : Pda W) (s : PostSt W σ) (t : Tr) : PostSt W σ :=
  if t.src < p.size then { s with ws := s.ws ++ [t] } else insertRel p s t

/-- The constructor with `initialize()` (internal/PdaSaturation.h:346-350, 371-402). -/
def postInit (h : HashOrder) (p : Pda W) (a : Aut W) (e : σ) : PostSt W σ :=
  let q := qInit p a
  ((List.range q.1.n).flatMap fun i => q.1.out h i).foldl (postInitEdge p)
    { aut := q.1, nQ := a.n, qPrime := q.2, ext := e }

section
variable [Zero W]

/-- The call of the callback after an insertion (internal/PdaSaturation.h:415-417, 423-425). -/
def postNotify (cb : Callback W σ) (s : PostSt W σ) (t : Tr) (tr : Trace) : PostSt W σ :=
  if s.found then s
  else
    let c := cb s.aut s.ext t (tr, 0)
    { s with ext := c.1, found := c.2 }

/-- `insert_edge(from, label, to, trace)` (internal/PdaSaturation.h:412-419). -/
def postInsert (cb : Callback W σ) (s : PostSt W σ) (t : Tr) (tr : Trace) : PostSt W σ :=
  if s.aut.hasEdge t then s
  else postNotify cb { s with aut := s.aut.emplaceEdge t (tr, 0), ws := s.ws ++ [t] } t tr

/-- `insert_edge_rel(from, label, to, trace)` (internal/PdaSaturation.h:420-427). -/
def postInsertRel (p : Pda W) (cb : Callback W σ) (s : PostSt W σ) (t : Tr) (tr : Trace) : PostSt W σ :=
  if s.aut.hasEdge t then s
  else postNotify cb (insertRel p { s with aut := s.aut.emplaceEdge t (tr, 0) } t) t tr

/-- The body of the loop over the rules of `t._from` (internal/PdaSaturation.h:442-469). -/
def postRule (p : Pda W) (cb : Callback W σ) (t : Tr) (s : PostSt W σ) (x : (Rule W × Labels) × Nat) :
    PostSt W σ :=
  if !x.1.2.contains t.label then s
  else
    let r := x.1.1
    let tr := Trace.post t.src x.2 t.label
    match r.op with
    | .pop => postInsert cb s ⟨r.to, epsilon, t.dst⟩ tr
    | .swap => postInsert cb s ⟨r.to, r.opLabel, t.dst⟩ tr
    | .noop => postInsert cb s ⟨r.to, t.label, t.dst⟩ tr
    | .push =>
      let m := qFind s.qPrime (r.to, r.opLabel)
      let s := postInsert cb s ⟨r.to, r.opLabel, m⟩ tr
      let s := postInsertRel p cb s ⟨m, t.label, t.dst⟩ tr
      (s.rel2At m).foldl (fun s f => postInsert cb s ⟨f, t.label, t.dst⟩ (Trace.postEps m)) s

/-- `step()` (internal/PdaSaturation.h:430-476). -/
def postStep (p : Pda W) (cb : Callback W σ) (s : PostSt W σ) : PostSt W σ :=
  match s.ws with
  | [] => s
  | t :: ws =>
    let s := insertRel p { s with ws := ws } t
    if t.label ≠ epsilon then (p.st t.src).rules.zipIdx.foldl (postRule p cb t) s
    else (s.rel1At t.dst).foldl
      (fun s u => postInsert cb s ⟨t.src, u.label, u.dst⟩ (Trace.postEps t.dst)) s

/-- `run()` (internal/PdaSaturation.h:483-491), with fuel. With `ET = false` the flag is never set. -/
def postRun (p : Pda W) (cb : Callback W σ) : Nat → PostSt W σ → PostSt W σ
  | 0, s => s
  | k + 1, s => if s.ws.isEmpty || s.found then s else postRun p cb k (postStep p cb s)

/-- Fuel for the loop: the number of possible transitions. `c06_post_terminates` shows that it
suffices. -/
def postFuel (p : Pda W) (s : PostSt W σ) : Nat := s.aut.n * (p.nLabels + 1) * s.aut.n

/-- `Solver::post_star(automaton, early_termination)` (Solver.h:235-246). -/
def postStar (h : HashOrder) (p : Pda W) (cb : Callback W σ) (a : Aut W) (e : σ) : PostSt W σ :=
  postRun p cb (postFuel p (postInit h p a e)) (postInit h p a e)

end

end Verif
