import Verif.Model.Pda

/-!
# internal/Reducer.h and internal/Reducer.cpp: removal of useless rules

`std::queue` is a list (front first), `std::vector<bool>` a list of Booleans, `std::set<uint32_t>` a
sorted list. The `while (!waiting.empty())` loops are run with fuel (`whileSome`); `none` means that
the fuel did not suffice, and the termination theorems show that some amount always does.
-/

namespace Verif

/-- Iterate `step` until it returns `none` (the loop condition is false), for at most `fuel` steps. -/
def whileSome {σ : Type} (step : σ → Option σ) : Nat → σ → Option σ
  | 0, s => match step s with
    | none => some s
    | some _ => none
  | fuel + 1, s => match step s with
    | none => some s
    | some s' => whileSome step fuel s'

namespace Reducer

variable {W : Type}

/-! ## `tos_t` (internal/Reducer.h:38-62, internal/Reducer.cpp) -/

/-- `tos_t` (internal/Reducer.h:38-45); the enumeration `waiting_t` is the pair of its two bits. -/
structure Tos where
  tos : List Nat := []
  stack : List Nat := []
  wTos : Bool := false
  wBos : Bool := false
  deriving DecidableEq, Repr, Inhabited

/-- `update_state(new_state)` (internal/Reducer.cpp:33-51). -/
def Tos.updateState (t : Tos) (c : Bool × Bool) : Tos × Bool :=
  if t.wTos && t.wBos then (t, false)
  else
    let t' := { t with wTos := t.wTos || c.1, wBos := t.wBos || c.2 }
    (t', t'.wTos != t.wTos || t'.wBos != t.wBos)

/-- The loop of `forward_stack` (internal/Reducer.cpp:65-78): `suf` is the part of `_stack` from `lid`
on, the second argument the part of `prev._stack` from `pid` on. In the last case `p < x`, so the
inner loop at 75 advances at least once. -/
def fwdLoop (suf : List Nat) : List Nat → List Nat
  | [] => suf
  | p :: ps =>
    let pre := suf.takeWhile fun y => decide (y < p)
    match suf.dropWhile fun y => decide (y < p) with
    | [] => pre ++ p :: ps
    | x :: xs =>
      if x = p then pre ++ fwdLoop (x :: xs) ps
      else pre ++ fwdLoop ((p :: ps.takeWhile fun y => decide (y < x)) ++ x :: xs)
        (ps.dropWhile fun y => decide (y < x))
termination_by ps => ps.length
decreasing_by
  · simp
  · have := (List.dropWhile_sublist (l := ps) fun y => decide (y < x)).length_le
    simp only [List.length_cons]; omega

/-- `forward_stack(prev, all_labels)` (internal/Reducer.cpp:57-82). -/
def Tos.forwardStack (t prev : Tos) (n : Nat) : Tos × Bool :=
  let stack' :=
    if t.stack.length ≠ n then
      if prev.stack.length = n then prev.stack else fwdLoop t.stack prev.stack
    else t.stack
  ({ t with stack := stack' }, t.stack.length != stack'.length)

/-- The loop of `active` (internal/Reducer.cpp:91-102): `rit` walks the labels. -/
def activeLoop : List Nat → List Nat → Bool
  | [], _ => false
  | s :: ss, ls =>
    match ls.dropWhile fun y => decide (y < s) with
    | [] => false
    | x :: xs => if x = s then true else activeLoop ss (x :: xs)

/-- `active(prev, labels)` (internal/Reducer.cpp:84-104). -/
def active (prev : Tos) (l : Labels) : Bool :=
  if l.isEmpty then false
  else if l.wildcard then true
  else activeLoop prev.tos l.labels

/-- The insertion loops of `merge_pop` (internal/Reducer.cpp:130-136) and `merge_push` (200-206): `it`
stays on the element just inserted or found. -/
def insertLoop (suf : List Nat) : List Nat → List Nat × Bool
  | [] => (suf, false)
  | s :: ss =>
    let pre := suf.takeWhile fun y => decide (y < s)
    match suf.dropWhile fun y => decide (y < s) with
    | [] => let r := insertLoop [s] ss; (pre ++ r.1, true)
    | x :: xs =>
      if x = s then let r := insertLoop (x :: xs) ss; (pre ++ r.1, r.2)
      else let r := insertLoop (s :: x :: xs) ss; (pre ++ r.1, true)

/-- The insertion loop of `merge_noop` (internal/Reducer.cpp:148-158): `iit` moves past the element. -/
def insertNextLoop (suf : List Nat) : List Nat → List Nat × Bool
  | [] => (suf, false)
  | s :: ss =>
    let pre := suf.takeWhile fun y => decide (y < s)
    match suf.dropWhile fun y => decide (y < s) with
    | [] => let r := insertNextLoop [] ss; (pre ++ s :: r.1, true)
    | x :: xs =>
      if x = s then let r := insertNextLoop xs ss; (pre ++ x :: r.1, r.2)
      else let r := insertNextLoop (x :: xs) ss; (pre ++ s :: r.1, true)

/-- `merge_pop` (internal/Reducer.cpp:106-141). -/
def Tos.mergePop (t prev : Tos) (l : Labels) (ds : Bool) (n : Nat) : Tos × Bool × Bool :=
  if !active prev l then (t, false, false)
  else if !ds then
    if t.tos.length ≠ n then ({ t with tos := List.range n }, true, false) else (t, false, false)
  else
    let f := t.forwardStack prev n
    if f.1.tos.length ≠ n then
      if prev.stack.length = n then ({ f.1 with tos := prev.stack }, true, f.2)
      else
        let r := insertLoop f.1.tos prev.stack
        ({ f.1 with tos := r.1 }, r.2, f.2)
    else (f.1, false, f.2)

/-- `merge_noop` (internal/Reducer.cpp:143-165). -/
def Tos.mergeNoop (t prev : Tos) (l : Labels) (ds : Bool) (n : Nat) : Tos × Bool × Bool :=
  if l.isEmpty then (t, false, false)
  else
    let r := insertNextLoop t.tos (if l.wildcard then prev.tos else l.labels)
    let t1 := { t with tos := r.1 }
    if ds then
      let f := t1.forwardStack prev n
      (f.1, r.2, f.2)
    else (t1, r.2, false)

/-- `merge_swap` (internal/Reducer.cpp:167-185); `lower_bound` and `insert` are `VSet.emplace`. -/
def Tos.mergeSwap (t prev : Tos) (opLabel : Nat) (l : Labels) (ds : Bool) (n : Nat) :
    Tos × Bool × Bool :=
  if !active prev l then (t, false, false)
  else
    let e := VSet.emplace natLt t.tos opLabel
    let t1 := { t with tos := e.1 }
    if ds then
      let f := t1.forwardStack prev n
      (f.1, e.2, f.2)
    else (t1, e.2, false)

/-- `merge_push` (internal/Reducer.cpp:187-211). `self` says that `prev` is the same object as `*this`
(a rule from a state to itself), so that its labels are read after they were changed. -/
def Tos.mergePush (t prev : Tos) (self : Bool) (opLabel : Nat) (l : Labels) (ds : Bool) (n : Nat) :
    Tos × Bool × Bool :=
  let c := t.mergeSwap prev opLabel l ds n
  if ds then
    let prevTos := if self then c.1.tos else prev.tos
    if c.1.stack.length ≠ n then
      if prevTos.length = n then ({ c.1 with stack := prevTos }, c.2.1, true)
      else
        let r := insertLoop c.1.stack prevTos
        ({ c.1 with stack := r.1 }, c.2.1, c.2.2 || r.2)
    else c
  else c

/-- The `switch` of `reduce` (internal/Reducer.h:115-131). In the other three functions reading `prev`
before or after the change makes no difference when it is the same object. -/
def Tos.merge (t prev : Tos) (self : Bool) (r : Rule W) (l : Labels) (ds : Bool) (n : Nat) :
    Tos × Bool × Bool :=
  match r.op with
  | .pop => t.mergePop prev l ds n
  | .noop => t.mergeNoop prev l ds n
  | .push => t.mergePush prev self r.opLabel l ds n
  | .swap => t.mergeSwap prev r.opLabel l ds n

/-! ## Graph search and `forwards_prune`, `backwards_prune` -/

/-- The local variables `seen` and `waiting` (internal/Reducer.h:172-173, 195-196). -/
structure Search where
  seen : List Bool
  waiting : List Nat
  deriving Repr

/-- `seen[s]`. -/
def Search.has (b : Search) (s : Nat) : Bool := (b.seen[s]?).getD false

/-- The body of the inner loops (internal/Reducer.h:180-183, 204-207). -/
def Search.visit (b : Search) (s : Nat) : Search :=
  if b.has s then b else { seen := b.seen.set s true, waiting := b.waiting ++ [s] }

/-- One iteration of the outer loops (internal/Reducer.h:176-185, 199-209); `succ` lists the states
tried from a state. -/
def Search.step (succ : Nat → List Nat) (b : Search) : Option Search :=
  match b.waiting with
  | [] => none
  | el :: ws => some ((succ el).foldl Search.visit { b with waiting := ws })

/-- The state before the loop (internal/Reducer.h:172-175, 195-198). -/
def Search.start (size s : Nat) : Search :=
  { seen := (List.replicate size false).set s true, waiting := [s] }

/-- `for s: if (!seen[s]) pda.clear_state(s)` (internal/Reducer.h:186-190, 210-214). -/
def clearUnseen (p : Pda W) (b : Search) : Pda W :=
  (List.range p.size).foldl (fun p s => if b.has s then p else p.clearState s) p

/-- The targets tried by `forwards_prune` (internal/Reducer.h:179-180). -/
def forwardSucc (p : Pda W) (s : Nat) : List Nat :=
  ((p.st s).rules.filter fun e => !e.2.isEmpty).map fun e => e.1.to

/-- `forwards_prune(pda, initial_id)` (internal/Reducer.h:170-191). -/
def forwardsPrune (fuel : Nat) (p : Pda W) (init : Nat) : Option (Pda W) :=
  (whileSome (Search.step (forwardSucc p)) fuel (Search.start p.size init)).map (clearUnseen p)

/-- `backwards_prune(pda, terminal)` (internal/Reducer.h:193-215). -/
def backwardsPrune (fuel : Nat) (p : Pda W) (term : Nat) : Option (Pda W) :=
  (whileSome (Search.step fun s => (p.st s).preStates) fuel (Search.start p.size term)).map
    (clearUnseen p)

/-! ## `target_tos_prune` -/

/-- `usefull_tos.insert(begin, end)` (internal/Reducer.h:235). -/
def setInsert (u : List Nat) (ls : List Nat) : List Nat :=
  ls.foldl (fun u x => (VSet.emplace natLt u x).1) u

/-- The loop at internal/Reducer.h:231-246: the labels read by some rule; `none` is `cont`. -/
def usefulLoop (n : Nat) : VMap (Rule W) Labels → List Nat → Option (List Nat)
  | [], u => some u
  | e :: es, u =>
    if e.2.wildcard then none
    else
      let u' := setInsert u e.2.labels
      if u'.length = n then none else usefulLoop n es u'

/-- The `switch` at internal/Reducer.h:251-274: new labels, and whether the state is put back. -/
def filterRule (useful : List Nat) (e : Rule W × Labels) : Labels × Bool :=
  match e.1.op with
  | .swap | .push =>
    if !e.2.isEmpty && !VSet.contains natLt useful e.1.opLabel then (e.2.clear, true)
    else (e.2, false)
  | .noop => e.2.noopPreFilter useful
  | .pop => (e.2, false)

/-- The local state of `target_tos_prune` (internal/Reducer.h:219-220). -/
structure Target (W : Type) where
  pda : Pda W
  waiting : List Nat
  inWaiting : List Bool

/-- The rules of a state after the loop at internal/Reducer.h:249-276. -/
def filterRules (s : Nat) (useful : List Nat) (rules : VMap (Rule W) Labels) :
    VMap (Rule W) Labels :=
  rules.map fun e => if e.1.to = s then (e.1, (filterRule useful e).1) else e

/-- Whether that loop asked to put the state back. -/
def filterChanged (s : Nat) (useful : List Nat) (rules : VMap (Rule W) Labels) : Bool :=
  rules.any fun e => decide (e.1.to = s) && (filterRule useful e).2

/-- The loop body for one predecessor (internal/Reducer.h:247-277). The state is put back at most
once, because `in_waiting` is set then. -/
def Target.pre (s : Nat) (useful : List Nat) (t : Target W) (q : Nat) : Target W :=
  let rules := (t.pda.st q).rules
  let pda' := { t.pda with states := t.pda.states.modify q fun x =>
    { x with rules := filterRules s useful x.rules } }
  if filterChanged s useful rules && !(t.inWaiting[q]?).getD false then
    { pda := pda', waiting := t.waiting ++ [q], inWaiting := t.inWaiting.set q true }
  else { t with pda := pda' }

/-- One iteration of the loop (internal/Reducer.h:226-278). -/
def Target.step (term : Nat) (t : Target W) : Option (Target W) :=
  match t.waiting with
  | [] => none
  | s :: ws =>
    if s = term then some { t with waiting := ws }
    else
      let t1 := { t with waiting := ws, inWaiting := t.inWaiting.set s false }
      match usefulLoop t.pda.nLabels (t.pda.st s).rules [] with
      | none => some t1
      | some useful => some ((t.pda.st s).preStates.foldl (Target.pre s useful) t1)

/-- `target_tos_prune(pda, terminal_id)` (internal/Reducer.h:217-279). -/
def targetPrune (fuel : Nat) (p : Pda W) (term : Nat) : Option (Pda W) :=
  (whileSome (Target.step term) fuel
    { pda := p, waiting := List.range p.size, inWaiting := List.replicate p.size true }).map
      Target.pda

/-! ## `reduce` -/

/-- The local variables `approximation` and `waiting` (internal/Reducer.h:73-75). -/
structure Sat where
  app : List Tos
  waiting : List Nat
  deriving Repr

/-- `approximation[s]`. -/
def Sat.at (a : Sat) (s : Nat) : Tos := (a.app[s]?).getD {}

/-- One initial rule (internal/Reducer.h:77-90). The assertion at 86 is a precondition. -/
def initRule (term : Nat) (a : Sat) (e : Rule W × Labels) : Sat :=
  if e.1.to = term then a
  else if e.2.isEmpty then a
  else
    let ss := a.at e.1.to
    let fresh := !ss.wTos && !ss.wBos
    let ss1 := if fresh then (ss.updateState (true, true)).1 else ss
    { app := a.app.set e.1.to { ss1 with tos := (VSet.emplace natLt ss1.tos e.1.opLabel).1 },
      waiting := if fresh then a.waiting ++ [e.1.to] else a.waiting }

/-- Initialisation (internal/Reducer.h:73-90). -/
def initSat (p : Pda W) (init term : Nat) : Sat :=
  (p.st init).rules.foldl (initRule term)
    { app := List.replicate p.size {}, waiting := [] }

/-- One rule in the saturation loop (internal/Reducer.h:103-136). -/
def satRule (term : Nat) (ds : Bool) (n : Nat) (el : Nat) (a : Sat) (e : Rule W × Labels) : Sat :=
  if e.1.to = term then a
  else if e.2.isEmpty then a
  else
    let m := (a.at e.1.to).merge (a.at el) (decide (e.1.to = el)) e.1 e.2 ds n
    let u := m.1.updateState m.2
    { app := a.app.set e.1.to u.1,
      waiting := if u.2 then a.waiting ++ [e.1.to] else a.waiting }

/-- One iteration of the saturation loop (internal/Reducer.h:96-137). -/
def satStep (p : Pda W) (term : Nat) (ds : Bool) (a : Sat) : Option Sat :=
  match a.waiting with
  | [] => none
  | el :: ws =>
    some ((p.st el).rules.foldl (satRule term ds p.nLabels el)
      { app := a.app.set el { a.at el with wTos := false, wBos := false }, waiting := ws })

/-- The rules kept in a state (internal/Reducer.h:143-154): the loop moves the kept ones to the front
in order and drops the rest. -/
def keepRules (term : Nat) (tos : List Nat) (n : Nat) (rules : VMap (Rule W) Labels) :
    VMap (Rule W) Labels :=
  rules.filterMap fun e =>
    if e.1.to = term then some e
    else
      let r := e.2.intersect tos n
      if r.2 then some (e.1, r.1) else none

/-- The pruning loop body (internal/Reducer.h:140-157). -/
def pruneState (a : Sat) (init term : Nat) (p : Pda W) (i : Nat) : Pda W :=
  if i = init then p
  else
    let rules' := keepRules term (a.at i).tos p.nLabels (p.st i).rules
    let p' := { p with states := p.states.modify i fun x => { x with rules := rules' } }
    if rules'.isEmpty then p'.clearState i else p'

/-- The pruning loop (internal/Reducer.h:139-158). -/
def pruneAll (a : Sat) (init term : Nat) (p : Pda W) : Pda W :=
  (List.range' 1 (p.size - 1)).foldl (pruneState a init term) p

/-- The number counted for one rule by `size` (internal/Reducer.h:289-296). -/
def ruleCount (term n : Nat) (e : Rule W × Labels) : Nat :=
  if e.1.to = term then 1
  else if e.2.isEmpty then 0
  else if e.2.wildcard then n else e.2.labels.length

/-- `size(pda, initial_id, terminal_id)` (internal/Reducer.h:282-299). -/
def count (p : Pda W) (init term : Nat) : Nat :=
  1 + (p.st init).rules.length +
    ((List.range' 1 (p.size - 1)).map fun i =>
      ((p.st i).rules.map (ruleCount term p.nLabels)).sum).sum

/-- `target_tos_prune` if `aggresivity >= 3` (internal/Reducer.h:92-94, 161-164). -/
def targetIf (fuel : Nat) (p : Pda W) (aggr : Int) (term : Nat) : Option (Pda W) :=
  if aggr ≥ 3 then targetPrune fuel p term else some p

/-- `aggresivity == 2 || aggresivity == 4` (internal/Reducer.h:74). -/
def dual (aggr : Int) : Bool := decide (aggr = 2) || decide (aggr = 4)

/-- `Reducer::reduce(pda, aggresivity, initial_id, terminal_id)` (internal/Reducer.h:65-168): the PDA
afterwards and the two counts. Out-of-range state ids, undefined in C++, are excluded by the
preconditions of the theorems. -/
def reduce (fuel : Nat) (p : Pda W) (aggr : Int) (init term : Nat) : Option (Pda W × Nat × Nat) :=
  let cnt := count p init term
  if aggr = 0 then some (p, cnt, cnt)
  else
    (forwardsPrune fuel p init).bind fun p1 =>
    (backwardsPrune fuel p1 term).bind fun p2 =>
    (targetIf fuel p2 aggr term).bind fun p3 =>
    (whileSome (satStep p3 term (dual aggr)) fuel (initSat p2 init term)).bind fun a =>
    (backwardsPrune fuel (pruneAll a init term p3) term).bind fun p5 =>
    (targetIf fuel p5 aggr term).map fun p6 => (p6, cnt, count p6 init term)

end Reducer

end Verif
