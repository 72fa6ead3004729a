import Verif.Model.Pda

/-!
# internal/PAutomaton.h: P-automata

A `PAutomaton` is modelled by the list of accepting flags of its states and an association list of
its transitions with their annotations. The newest transition is at the head of the list, so the
list also records the order of insertion (the C++ object does not, but nothing in the model reads
that order except through `HashOrder`). The nested container
`fut::set<tuple<size_t,uint32_t,edge_anno_t>, hash, vector>` of each state is treated separately
(C35); here only the finite map it implements is kept.

`_back_edge_state`, `_back_edge_label` and `_best_weight` (175-178) belong to the product
automaton and are modelled there.
-/

namespace Verif

/-- `std::numeric_limits<size_t>::max()`. -/
def sizeMax : Nat := 18446744073709551615

/-- `trace_t` (internal/PAutomaton.h:60-69). -/
structure Trace where
  state : Nat := sizeMax
  ruleId : Nat := sizeMax
  label : Nat := epsilon
  deriving DecidableEq, Repr, Inhabited

namespace Trace

/-- `trace_t()` (internal/PAutomaton.h:71). -/
def null : Trace := {}

/-- `new_pre_trace(rule_id)` (internal/PAutomaton.h:828-830, 73-74). -/
def pre (ruleId : Nat) : Trace := { state := sizeMax, ruleId := ruleId, label := epsilon - 1 }

/-- `new_pre_trace(rule_id, temp_state)` (internal/PAutomaton.h:831-833, 73-74). -/
def preTemp (ruleId temp : Nat) : Trace := { state := temp, ruleId := ruleId, label := epsilon - 1 }

/-- `new_post_trace(from, rule_id, label)` (internal/PAutomaton.h:834-836, 76-77). -/
def post (src ruleId label : Nat) : Trace := { state := src, ruleId := ruleId, label := label }

/-- `new_post_trace(epsilon_state)` (internal/PAutomaton.h:837-839, 79-80). -/
def postEps (state : Nat) : Trace := { state := state }

/-- `is_pre_trace()` (internal/PAutomaton.h:82-84). -/
def isPre (t : Trace) : Bool := t.label == epsilon - 1

/-- `is_post_epsilon_trace()` (internal/PAutomaton.h:85-87). -/
def isPostEps (t : Trace) : Bool := t.label == epsilon

/-- `is_null()` (internal/PAutomaton.h:88-92). -/
def isNull (t : Trace) : Bool := t.state == sizeMax && t.ruleId == sizeMax && t.label == epsilon

end Trace

/-- `edge_annotation_t<W>` with single trace info (internal/PAutomaton.h:127-157). The unweighted
annotation has the weight component `()`. -/
abbrev Ann (W : Type) := Trace × W

/-- A transition with its annotation. -/
abbrev AEdge (W : Type) := Tr × Ann W

/-- The transition keys of an annotated list. -/
def keys {W : Type} (E : List (AEdge W)) : List Tr := E.map Prod.fst

/-- `PAutomaton<W>` (internal/PAutomaton.h:160-897). -/
structure Aut (W : Type) where
  acc : List Bool := []
  edges : List (AEdge W) := []

/-- The iteration order of the hash maps: some rearrangement of the transitions, depending on the
history in an unspecified way. Every model function that iterates over a hash map takes one of
these as a parameter, and all theorems hold for every choice. -/
structure HashOrder where
  ord : List Tr → List Tr
  perm : ∀ l, (ord l).Perm l

/-- The identity order, to show that the type is inhabited. -/
def HashOrder.id : HashOrder := ⟨fun l => l, fun l => List.Perm.refl l⟩

namespace Aut

variable {W : Type}

/-- `states().size()`. -/
def n (a : Aut W) : Nat := a.acc.length

/-- `states()[q]->_accepting` (out of range, undefined in C++: `false`). -/
def isAcc (a : Aut W) (q : Nat) : Bool := (a.acc[q]?).getD false

/-- `_edges.contains(to, label)` of state `from`. -/
def hasEdge (a : Aut W) (t : Tr) : Bool := (keys a.edges).contains t

/-- `get_edge(from, label, to)` (internal/PAutomaton.h:757-759). -/
def getEdge (a : Aut W) (t : Tr) : Option (Ann W) := (a.edges.find? (fun e => e.1 == t)).map Prod.snd

/-- `emplace_edge(from, label, to, trace)` (internal/PAutomaton.h:760-762): inserts only if the
transition is absent. -/
def emplaceEdge (a : Aut W) (t : Tr) (ann : Ann W) : Aut W :=
  if a.hasEdge t then a else { a with edges := (t, ann) :: a.edges }

/-- `add_state(initial, accepting)` (internal/PAutomaton.h:701-711); the new id is the old size. -/
def addState (a : Aut W) (accepting : Bool) : Aut W := { a with acc := a.acc ++ [accepting] }

/-- `add_edge(from, to, label)` with the default annotation (internal/PAutomaton.h:726-729,
134-140). -/
def addEdge [Zero W] (a : Aut W) (src dst label : Nat) : Aut W :=
  a.emplaceEdge ⟨src, label, dst⟩ (Trace.null, 0)

/-- `set_state_accepting(id)` (internal/PAutomaton.h:712-718). -/
def setAccepting (a : Aut W) (q : Nat) : Aut W := { a with acc := a.acc.modify q fun _ => true }

/-- The transitions leaving `q`, in iteration order. -/
def out (h : HashOrder) (a : Aut W) (q : Nat) : List Tr :=
  (h.ord (keys a.edges)).filter fun t => t.src == q

/-- The targets `to` of the outer map of `q`'s edges, in iteration order, each once. -/
def outTos (h : HashOrder) (a : Aut W) (q : Nat) : List Nat := ((a.out h q).map Tr.dst).eraseDups

/-- `labels.contains(label)` for the inner map of `q` at `to`. -/
def hasLabel (a : Aut W) (q to label : Nat) : Bool := a.hasEdge ⟨q, label, to⟩

end Aut

end Verif
