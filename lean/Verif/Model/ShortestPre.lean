import Verif.Model.ShortestPost
import Verif.Model.AutOps

/-!
# internal/PdaSaturation.h:65-337: shortest pre* (`PreStarSaturation` with `SHORTEST`)

The types of the weights are as in `Model/ShortestPost`: `T` with exact addition, and `WithTop T` where the code
compares with `max()`. `et` is the template parameter `ET`.
-/

namespace Verif

variable {W T σ : Type}

/-- `early_termination_fn2` (internal/PdaSaturation.h:62-63) for weights: called with the automaton, its own state, the
transition, the annotation and the weight of the queue element. -/
abbrev SCallback (T σ : Type) := Aut T → σ → Tr → Ann T → WithTop T → σ × Bool

/-- The members of `PreStarSaturation` (internal/PdaSaturation.h:115-126); `rel`, `dp` and `popped` are as in `PreSt`.
`undef` is set when the code would read through a null pointer, `oob` when it reads `_popped` out of range, `failed`
when an assertion does not hold; the model goes on as the code without assertions does. -/
structure SPreSt (T σ : Type) where
  aut : Aut T
  ws : List (ShElem T) := []
  rel : List Tr := []
  dp : List (Nat × Nat × Nat) := []
  popped : List Nat := []
  minpath : Nat → WithTop T := fun _ => ⊤
  found : Bool := false
  ext : σ
  undef : Bool := false
  oob : Bool := false
  failed : Bool := false

/-- `_rel[q]`. -/
def SPreSt.relAt (s : SPreSt T σ) (q : Nat) : List Tr := s.rel.filter fun t => t.src == q

/-- `_delta_prime[q]`. -/
def SPreSt.dpAt (s : SPreSt T σ) (q : Nat) : List (Nat × Nat) := (s.dp.filter fun x => x.1 == q).map Prod.snd

/-- `_minpath[q] = k`. -/
def setMin (f : Nat → WithTop T) (q : Nat) (k : WithTop T) : Nat → WithTop T := fun u => if u = q then k else f u

section
variable [LinearOrder T] [AddCommMonoid T]

/-- `insert_edge(from, label, to, trace, weight)` after `res` has been computed (internal/PdaSaturation.h:191-200). -/
def spreInsertWith (s : SPreSt T σ) (t : Tr) (tr : Trace) (w : T) (k : WithTop T) : SPreSt T σ :=
  match s.aut.getEdge t with
  | none =>
    { s with aut := s.aut.emplaceEdge t (tr, w)
             minpath := if k < s.minpath t.src then setMin s.minpath t.src k else s.minpath
             ws := s.ws ++ [⟨k, t, tr⟩] }
  | some (tr0, y) =>
    if w < y then { s with aut := s.aut.setEdge t (tr0, w), ws := s.ws ++ [⟨k, t, tr⟩] } else s

/-- `insert_edge(from, label, to, trace, weight)` (internal/PdaSaturation.h:184-200). -/
def spreInsert (s : SPreSt T σ) (t : Tr) (tr : Trace) (w : T) : SPreSt T σ :=
  let k := (w : WithTop T) + s.minpath t.dst
  spreInsertWith { s with failed := s.failed || decide (k = ⊤) } t tr w k

/-- `insert_edge_bulk` (internal/PdaSaturation.h:211-221). -/
def spreBulk (p : Pda W) (s : SPreSt T σ) (src : Nat) (l : Labels) (dst : Nat) (tr : Trace) (w : T) : SPreSt T σ :=
  (p.expand l).foldl (fun s g => spreInsert s ⟨src, g, dst⟩ tr w) s

variable [LinearOrder W] [Zero W] (val : W → T)

/-- The body of the loops in `add_pop` (internal/PdaSaturation.h:144-154). -/
def spreAddPopRule (p : Pda W) (q pre : Nat) (s : SPreSt T σ) (y : Nat × Rule W × Labels) : SPreSt T σ :=
  if y.2.1.op = .pop then spreBulk p s pre y.2.2 q (Trace.pre y.1) (val y.2.1.weight) else s

/-- `add_pop(state)` (internal/PdaSaturation.h:137-157). -/
def spreAddPop (p : Pda W) (s : SPreSt T σ) (q : Nat) : SPreSt T σ :=
  if q ≥ p.size then s
  else if s.popped.contains q then s
  else
    let s := (p.st q).preStates.foldl (fun s pre => (p.rulesInto pre q).foldl (spreAddPopRule val p q pre) s) s
    { s with popped := q :: s.popped }

/-- One transition in `initialize` (internal/PdaSaturation.h:169-173). -/
def spreInitEdge (s : SPreSt T σ) (t : Tr) : SPreSt T σ :=
  { s with minpath := setMin (setMin s.minpath t.src 0) t.dst 0, ws := s.ws ++ [⟨0, t, {}⟩] }

/-- `initialize()` (internal/PdaSaturation.h:159-181). -/
def spreInit (h : HashOrder) (p : Pda W) (a : Aut T) (e : σ) : SPreSt T σ :=
  (List.range a.n).foldl (fun s i =>
    let s := (s.aut.out h i).foldl spreInitEdge s
    if s.aut.isAcc i then spreAddPop val p s i else s) { aut := a, ext := e }

/-- The body of the loop over `_delta_prime[t._from]` (internal/PdaSaturation.h:253-263). -/
def spreDelta (p : Pda W) (t : Tr) (w : T) (s : SPreSt T σ) (d : Nat × Nat) : SPreSt T σ :=
  match (p.st d.1).rules[d.2]? with
  | none => s
  | some (r, l) =>
    if l.contains t.label then
      match s.aut.wt ⟨r.to, r.opLabel, t.src⟩ with
      | none => { s with undef := true }
      | some y => spreInsert s ⟨d.1, t.label, t.dst⟩ (Trace.preTemp d.2 t.src) (val r.weight + y + w)
    else s

/-- The body of the loop over `_rel[t._to]` (internal/PdaSaturation.h:304-312). -/
def spreRel (t : Tr) (w : T) (pre id : Nat) (r : Rule W) (l : Labels) (s : SPreSt T σ) (u : Tr) : SPreSt T σ :=
  if l.contains u.label then
    match s.aut.wt u with
    | none => { s with undef := true }
    | some y => spreInsert s ⟨pre, u.label, u.dst⟩ (Trace.preTemp id t.dst) (y + w + val r.weight)
  else s

/-- The body of the loop over the rules into `t._from` (internal/PdaSaturation.h:270-318). -/
def spreRule (p : Pda W) (t : Tr) (w : T) (pre : Nat) (s : SPreSt T σ) (y : Nat × Rule W × Labels) : SPreSt T σ :=
  match y.2.1.op with
  | .pop =>
    if s.popped.contains t.src then s
    else spreBulk p s pre y.2.2 t.src (Trace.pre y.1) (val y.2.1.weight)
  | .swap =>
    if y.2.1.opLabel = t.label then spreBulk p s pre y.2.2 t.dst (Trace.pre y.1) (w + val y.2.1.weight) else s
  | .noop =>
    if y.2.2.contains t.label then spreInsert s ⟨pre, t.label, t.dst⟩ (Trace.pre y.1) (w + val y.2.1.weight) else s
  | .push =>
    if y.2.1.opLabel = t.label then
      let s := { s with dp := s.dp ++ [(t.dst, pre, y.1)] }
      (s.relAt t.dst).foldl (spreRel val t w pre y.1 y.2.1 y.2.2) s
    else s

/-- `_found = _early_termination(...) || _found` (internal/PdaSaturation.h:246-248). -/
def spreCall (cb : SCallback T σ) (et : Bool) (s : SPreSt T σ) (e : ShElem T) (w : T) : SPreSt T σ :=
  if et then
    let c := cb s.aut s.ext e.edge (e.trace, w) e.key
    { s with ext := c.1, found := c.2 || s.found }
  else s

/-- The last call of the callback (internal/PdaSaturation.h:322-327). -/
def spreFlush (cb : SCallback T σ) (et : Bool) (s : SPreSt T σ) (e : ShElem T) (w : T) : SPreSt T σ :=
  if et && s.ws.isEmpty then
    let c := cb s.aut s.ext e.edge (e.trace, w) ⊤
    { s with ext := c.1, found := c.2 }
  else s

/-- The loops of `step()` (internal/PdaSaturation.h:250-320). -/
def spreBody (p : Pda W) (t : Tr) (w : T) (s : SPreSt T σ) : SPreSt T σ :=
  let s := { s with rel := s.rel ++ [t] }
  let s := (s.dpAt t.src).foldl (spreDelta val p t w) s
  if t.src ≥ p.size then s
  else
    let s := (p.st t.src).preStates.foldl (fun s pre => (p.rulesInto pre t.src).foldl (spreRule val p t w pre) s) s
    { s with popped := t.src :: s.popped }

/-- The read of `_popped[t._from]`, a vector with an element for each PDA state; `junk` is what the code finds behind
its end (internal/PdaSaturation.h:242, 107). -/
def SPreSt.isPopped (junk : Nat → Bool) (p : Pda W) (s : SPreSt T σ) (q : Nat) : Bool :=
  if q < p.size then s.popped.contains q else junk q

/-- The update of `_minpath` at the start of `step()` (internal/PdaSaturation.h:241-243). -/
def spreSeen (junk : Nat → Bool) (p : Pda W) (s : SPreSt T σ) (e : ShElem T) : SPreSt T σ :=
  { s with minpath := if s.isPopped junk p e.edge.src then s.minpath else setMin s.minpath e.edge.src e.key
           oob := s.oob || decide (p.size ≤ e.edge.src)
           failed := s.failed || decide (e.key = ⊤) }

/-- `step()` after the top element has been taken (internal/PdaSaturation.h:238-328). The weight `w` comes from
`get_pautomata_edge_weight` (223-228), which reads it only if `ET`. -/
def spreStepWith (cb : SCallback T σ) (et : Bool) (junk : Nat → Bool) (p : Pda W) (s : SPreSt T σ) (e : ShElem T) :
    SPreSt T σ :=
  match (if et then s.aut.wt e.edge else some 0) with
  | none => { s with undef := true }
  | some w =>
    let s := spreSeen junk p s e
    if (w : WithTop T) + s.minpath e.edge.dst < e.key then s
    else
      let s := spreBody val p e.edge w (spreCall cb et s e w)
      if e.edge.src ≥ p.size then s else spreFlush cb et s e w

/-- One round of the loop of `Solver::pre_star` (Solver.h:200-208). -/
def spreStep (hp : Heap (ShElem T) (WithTop T) ShElem.key) (cb : SCallback T σ) (et : Bool) (junk : Nat → Bool)
    (p : Pda W) (s : SPreSt T σ) : Option (SPreSt T σ) :=
  if et && s.found then none
  else (hp.pop s.ws).map fun y => spreStepWith val cb et junk p { s with ws := y.2 } y.1

/-- `Solver::pre_star<Trace_Type::Shortest, W, ET>(automaton, early_termination)` (Solver.h:194-213). The returned flag is
`found`. `none` means that the fuel did not suffice. -/
def preStarShortest (hp : Heap (ShElem T) (WithTop T) ShElem.key) (h : HashOrder) (cb : SCallback T σ) (et : Bool)
    (junk : Nat → Bool) (p : Pda W) (a : Aut T) (e : σ) (fuel : Nat) : Option (SPreSt T σ) :=
  whileSome (spreStep val hp cb et junk p) fuel (spreInit val h p a e)

/-- The callback that never stops. -/
def noSCb : SCallback T Unit := fun _ _ _ _ _ => ((), false)

/-- The callback of `pre_star_accepts` for a stack of one symbol (Solver.h:173-175). -/
def oneSymbolSCb (q g : Nat) : SCallback T Unit :=
  fun a _ t _ _ => ((), t.src == q && t.label == g && a.isAcc t.dst)

/-- `Solver::pre_star_accepts<Trace_Type::Shortest>(automaton, state, stack)` (Solver.h:168-179): the automaton afterwards
and the answer; `none` means that the fuel did not suffice. -/
def preStarShortestAccepts (hp : Heap (ShElem T) (WithTop T) ShElem.key) (h : HashOrder) (junk : Nat → Bool) (p : Pda W)
    (a : Aut T) (q : Nat) (w : List Nat) (fuel : Nat) : Option (Aut T × Bool) :=
  match w with
  | [g] =>
    if a.accepts h q [g] then some (a, true)
    else (preStarShortest val hp h (oneSymbolSCb q g) true junk p a () fuel).map fun s => (s.aut, s.found)
  | w => (preStarShortest val hp h noSCb false junk p a () fuel).map fun s => (s.aut, s.found || s.aut.accepts h q w)

end

end Verif
