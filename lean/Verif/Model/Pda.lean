import Verif.Model.Labels
import Mathlib.Order.Defs.LinearOrder
import Mathlib.Algebra.Notation.Defs

/-!
# internal/PDA.h: the pushdown automaton

`W` is the weight type with its native order `<` (the one used by `std::tie(...) < std::tie(...)`)
and its `zero()`. The unweighted instantiation is `W = Unit`.
-/

namespace Verif

instance : Zero Unit := ⟨()⟩

/-- `op_t` as an integer (internal/PDA.h:43-48). -/
def Op.num : Op → Nat
  | .push => 1
  | .pop => 2
  | .swap => 4
  | .noop => 8

/-- `pda_rule_t` (internal/PDA.h:97-143). -/
structure Rule (W : Type) where
  to : Nat
  op : Op
  weight : W
  opLabel : Nat
  deriving DecidableEq, Repr

variable {W : Type}

/-- `pda_rule_t::operator<` (internal/PDA.h:103-106 and 127-130): lexicographic on
`(_to, _op_label, _operation, _weight)`. -/
def Rule.lt [LinearOrder W] (a b : Rule W) : Bool :=
  if a.to < b.to then true
  else if b.to < a.to then false
  else if a.opLabel < b.opLabel then true
  else if b.opLabel < a.opLabel then false
  else if a.op.num < b.op.num then true
  else if b.op.num < a.op.num then false
  else decide (a.weight < b.weight)

/-- The search key `pda_rule_t<W>{state}`: every other member has its default value
(internal/PDA.h:99-101 and 122-125). -/
def Rule.key [Zero W] (state : Nat) : Rule W :=
  { to := state, op := .push, weight := 0, opLabel := 0 }

/-- `PDA::state_t` (internal/PDA.h:219-225), with `_rules` a `fut::set<tuple<rule_t,labels_t>, vector>`. -/
structure PState (W : Type) where
  rules : VMap (Rule W) Labels := []
  preStates : VSet Nat := []

instance : Inhabited (PState W) := ⟨{}⟩

/-- `internal::PDA` (internal/PDA.h:210-320) with its `number_of_labels()`. -/
structure Pda (W : Type) where
  nLabels : Nat
  states : List (PState W) := []

namespace Pda

/-- `states().size()`. -/
def size (p : Pda W) : Nat := p.states.length

/-- `states()[i]`. Out-of-range indices, undefined in C++, give an empty state here; the range
invariants show that they do not occur. -/
def st (p : Pda W) (i : Nat) : PState W := (p.states[i]?).getD default

/-- `add_state(s)` (internal/PDA.h:292-296). -/
def addState (p : Pda W) (s : Nat) : Pda W :=
  if s ≥ p.states.length then
    { p with states := p.states ++ List.replicate (s + 1 - p.states.length) default }
  else p

/-- `add_untyped_rule_impl(from, r, wildcard, pre_labels)` (internal/PDA.h:303-307). -/
def addRuleImpl [LinearOrder W] (p : Pda W) (src : Nat) (r : Rule W) (wildcard : Bool)
    (pre : List Nat) : Pda W :=
  let p1 := p.addState (max src r.to)
  let states1 := p1.states.modify src fun s =>
    let e := s.rules.emplace Rule.lt r {}
    { s with rules := e.1.modify e.2.1 fun x => (x.1, x.2.merge wildcard pre) }
  let states2 := states1.modify r.to fun s =>
    { s with preStates := (VSet.emplace natLt s.preStates src).1 }
  { p1 with states := states2 }

/-- `user_rule_t::to_impl_rule()` (internal/PDA.h:175-177 and 202-204). -/
def toImpl (r : URule W) : Rule W :=
  { to := r.dst, op := r.op, weight := r.weight, opLabel := r.opLabel }

/-- `add_rule(user_rule_t)` (internal/PDA.h:282-284). -/
def addRule [LinearOrder W] (p : Pda W) (r : URule W) : Pda W :=
  p.addRuleImpl r.src (toImpl r) false [r.pre]

/-- `add_wildcard_rule(user_rule_t)` (internal/PDA.h:285-288). -/
def addWildcardRule [LinearOrder W] (p : Pda W) (r : URule W) : Pda W :=
  p.addRuleImpl r.src (toImpl r) true []

/-- `clear_state(s)` (internal/PDA.h:265-280). The read/write iterator loop keeps the rules whose
target is not `s`, in order. -/
def clearState (p : Pda W) (s : Nat) : Pda W :=
  let states1 := p.states.modify s fun x => { x with rules := [] }
  let pres := ((states1[s]?).getD default).preStates
  let states2 := pres.foldl (fun sts q =>
    sts.modify q fun x => { x with rules := x.rules.filter fun e => decide (e.1.to ≠ s) }) states1
  { p with states := states2.modify s fun x => { x with preStates := [] } }

/-- The loop `lb = rules.lower_bound(pda_rule_t{state}); while (lb != end && lb->first._to == state)`
(internal/PdaSaturation.h:141-147, 268-274): the visited rules with their `rule_id`. -/
def rulesInto [LinearOrder W] [Zero W] (p : Pda W) (pre state : Nat) :
    List (Nat × Rule W × Labels) :=
  let rules := (p.st pre).rules
  let lb := rules.lb Rule.lt (Rule.key state)
  (((rules.zipIdx).drop lb).takeWhile (fun x => x.1.1.to == state)).map
    fun x => (x.2, x.1.1, x.1.2)

/-- The labels iterated by `insert_edge_bulk` (internal/PdaSaturation.h:211-221) and by
`all_rules` (PDA.h:224-232). -/
def expand (p : Pda W) (l : Labels) : List Nat :=
  if l.wildcard then List.range p.nLabels else l.labels

/-- The rules of the automaton as a set: what `all_rules()` lists (PDA.h:219-237). -/
def allRules (p : Pda W) : List (URule W) :=
  (List.range p.size).flatMap fun i =>
    (p.st i).rules.flatMap fun e =>
      (p.expand e.2).map fun g =>
        { src := i, pre := g, dst := e.1.to, op := e.1.op, opLabel := e.1.opLabel,
          weight := e.1.weight }

/-- The transition relation of the automaton: `all_rules()` as a predicate. -/
def Has (p : Pda W) (r : URule W) : Prop := r ∈ p.allRules

end Pda

/-- One call of the construction API. -/
inductive PdaCall (W : Type) where
  /-- `add_rule(from, to, op, op_label, wildcard, pre_labels)` with label ids. -/
  | rule (src : Nat) (r : Rule W) (wildcard : Bool) (pre : List Nat)
  /-- `insert_state` / `add_state`. -/
  | state (s : Nat)

/-- Perform one call. -/
def Pda.call [LinearOrder W] (p : Pda W) : PdaCall W → Pda W
  | .rule src r wc pre => p.addRuleImpl src r wc pre
  | .state s => p.addState s

/-- A PDA built by a sequence of calls from the empty one. -/
def Pda.build [LinearOrder W] (nLabels : Nat) (cs : List (PdaCall W)) : Pda W :=
  cs.foldl Pda.call { nLabels := nLabels }

end Verif
