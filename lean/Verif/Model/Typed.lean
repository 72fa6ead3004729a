import Verif.Model.Pda
import Verif.Model.Algorithms

/-!
# PDA.h: the typed pushdown automaton, and the hash container it is built in

`L` is `label_t`. `_label_map` is a `ptrie_set<label_t>`: inserting gives ids in order of first insertion, so
it is modelled by the list of distinct labels, the id of a label being its position.
-/

namespace Verif

variable {L W : Type}

/-- `PDA::rule_t`, the rule type for users of the library (PDA.h:71-112). -/
structure TRule (L W : Type) where
  src : Nat
  pre : L
  dst : Nat
  op : Op
  opLabel : L
  weight : W
  deriving DecidableEq, Repr

/-- `PDA<label_t, W, .., size_t, true>` (PDA.h:60-278). -/
structure TPda (L W : Type) where
  labels : List L := []
  states : List (PState W) := []

/-- The base class `internal::PDA` with `number_of_labels() = _label_map.size()` (PDA.h:144-146). -/
def TPda.core (t : TPda L W) : Pda W := { nLabels := t.labels.length, states := t.states }

namespace TPda

variable [DecidableEq L]

/-- `PDA(const std::unordered_set<label_t>&)` (PDA.h:127-138): the labels are inserted in the order of a
`std::set`. `all` is the iteration order of the unordered set, which has no duplicates. -/
def ofLabels [LinearOrder L] (all : List L) : TPda L W := { labels := sortBy ltB all }

/-- `_label_map.exists(label)`: the id if present. -/
def labelId (t : TPda L W) (l : L) : Option Nat := t.labels.idxOf? l

/-- `find_labelid(op, label)` (PDA.h:240-250); `none` is the thrown `std::logic_error`. -/
def findLabelId (t : TPda L W) (op : Op) (l : L) : Option Nat :=
  if op ≠ .pop ∧ op ≠ .noop then t.labelId l else some 4294967295

/-- `encode_pre(pre)` (PDA.h:174-183); `none` is the failed assertion (a label that is not in the map). -/
def encodePre (t : TPda L W) (pre : List L) : Option (List Nat) := pre.mapM t.labelId

/-- `add_rule(from, to, op, op_label, wildcard, pre_labels, weight)` (PDA.h:254-262). The order in which the
two arguments are evaluated is immaterial, both only read. -/
def addRules [LinearOrder W] (t : TPda L W) (src dst : Nat) (op : Op) (opLabel : L) (wildcard : Bool)
    (pre : List L) (weight : W) : Option (TPda L W) :=
  (t.findLabelId op opLabel).bind fun lid =>
    (t.encodePre pre).map fun pre' =>
      { t with states := (t.core.addRuleImpl src { to := dst, op, weight, opLabel := lid } wildcard pre').states }

/-- `add_rule(const rule_t&)` (PDA.h:153-159, 264-274). -/
def addRule [LinearOrder W] (t : TPda L W) (r : TRule L W) : Option (TPda L W) :=
  t.addRules r.src r.dst r.op r.opLabel false [r.pre] r.weight

/-- `add_wildcard_rule(const rule_t&)` (PDA.h:160-167). -/
def addWildcardRule [LinearOrder W] (t : TPda L W) (r : TRule L W) : Option (TPda L W) :=
  (t.findLabelId r.op r.opLabel).map fun lid =>
    { t with states := (t.core.addRuleImpl r.src { to := r.dst, op := r.op, weight := r.weight, opLabel := lid }
        true []).states }

/-- `insert_label(label)` (PDA.h:196-198): the new automaton and the id. -/
def insertLabel (t : TPda L W) (l : L) : TPda L W × Nat :=
  match t.labelId l with
  | some i => (t, i)
  | none => ({ t with labels := t.labels ++ [l] }, t.labels.length)

/-- `get_symbol(id)` (PDA.h:148-151); an id out of range, undefined in C++, gives the default label. -/
def symbol [Inhabited L] (t : TPda L W) (id : Nat) : L := (t.labels[id]?).getD default

/-- The constructor `rule_t(pda, from, pre, rule)` (PDA.h:83-85 and 102-105). -/
def typedRule [Inhabited L] (t : TPda L W) (src pre : Nat) (r : Rule W) : TRule L W :=
  { src, pre := t.symbol pre, dst := r.to, op := r.op,
    opLabel := if r.op = .pop ∨ r.op = .noop then default else t.symbol r.opLabel, weight := r.weight }

/-- `all_rules()` (PDA.h:219-237). -/
def allRules [Inhabited L] (t : TPda L W) : List (TRule L W) :=
  t.states.zipIdx.flatMap fun s =>
    s.1.rules.flatMap fun e => (t.core.expand e.2).map fun g => t.typedRule s.2 g e.1

end TPda

/-! ## The hash container

A PDA is built with `fut::type::hash` (`std::unordered_map`) and then moved into `fut::type::vector`. -/

/-- `internal::PDA<W, hash>::state_t` (internal/PDA.h:219-225): `_rules` is an unordered map, here the list of
its entries in order of insertion. -/
structure HState (W : Type) where
  rules : List (Rule W × Labels) := []
  preStates : VSet Nat := []

instance : Inhabited (HState W) := ⟨{}⟩

/-- `internal::PDA<W, hash>` (internal/PDA.h:210-320). -/
structure HPda (W : Type) where
  nLabels : Nat
  states : List (HState W) := []

namespace HPda

/-- `_rules.emplace(r, labels_t()).first->second.merge(wildcard, pre_labels)` on the unordered map
(internal/PDA.h:305). -/
def emplaceMerge [DecidableEq W] (m : List (Rule W × Labels)) (r : Rule W) (wc : Bool) (pre : List Nat) :
    List (Rule W × Labels) :=
  if m.any (fun e => e.1 == r) then m.map fun e => if e.1 = r then (e.1, e.2.merge wc pre) else e
  else m ++ [(r, Labels.merge {} wc pre)]

/-- `add_state(s)` (internal/PDA.h:292-296). -/
def addState (p : HPda W) (s : Nat) : HPda W :=
  if s ≥ p.states.length then
    { p with states := p.states ++ List.replicate (s + 1 - p.states.length) default }
  else p

/-- `add_untyped_rule_impl` (internal/PDA.h:303-307). -/
def addRuleImpl [DecidableEq W] (p : HPda W) (src : Nat) (r : Rule W) (wc : Bool) (pre : List Nat) : HPda W :=
  let p1 := p.addState (max src r.to)
  let states1 := p1.states.modify src fun s => { s with rules := emplaceMerge s.rules r wc pre }
  let states2 := states1.modify r.to fun s => { s with preStates := (VSet.emplace natLt s.preStates src).1 }
  { p1 with states := states2 }

/-- One call of the construction API. -/
def call [DecidableEq W] (p : HPda W) : PdaCall W → HPda W
  | .rule src r wc pre => p.addRuleImpl src r wc pre
  | .state s => p.addState s

/-- A PDA built by a sequence of calls. -/
def build [DecidableEq W] (nLabels : Nat) (cs : List (PdaCall W)) : HPda W :=
  cs.foldl call { nLabels := nLabels }

/-- `PDA(PDA<W, OtherContainer>&&)` and `state_t(state_t<hash>&&)` (internal/PDA.h:222-223, 243-246): the entries
are copied in the iteration order `iter` of the unordered map and sorted (utils/vector_set.h:66-69). -/
def toVector [LinearOrder W] (iter : List (Rule W × Labels) → List (Rule W × Labels)) (p : HPda W) : Pda W :=
  { nLabels := p.nLabels
    states := p.states.map fun s =>
      { rules := sortBy (fun a b => Rule.lt a.1 b.1) (iter s.rules), preStates := s.preStates } }

end HPda

end Verif
