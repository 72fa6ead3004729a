import Mathlib.Logic.Relation

/-!
# Specification: pushdown systems and the language of a P-automaton

Textbook definitions, written without reference to the model of the C++ code.
-/

namespace Verif

/-- The four stack operations (`op_t`, internal/PDA.h:43-48). -/
inductive Op where
  | push | pop | swap | noop
  deriving DecidableEq, Repr, Inhabited

/-- A pushdown rule `⟨src, pre⟩ → ⟨dst, op⟩` (`user_rule_t`, internal/PDA.h:149-205). -/
structure URule (W : Type) where
  src : Nat
  pre : Nat
  dst : Nat
  op : Op
  opLabel : Nat
  weight : W
  deriving DecidableEq, Repr

/-- A configuration: control state and stack, top first. -/
abbrev Config := Nat × List Nat

/-- The stack that replaces `pre :: w` when `op` is applied. -/
def effect (op : Op) (pre opLabel : Nat) (w : List Nat) : List Nat :=
  match op with
  | .push => opLabel :: pre :: w
  | .pop => w
  | .swap => opLabel :: w
  | .noop => pre :: w

/-- One move of the pushdown system with rule set `R`. -/
inductive Step {W : Type} (R : URule W → Prop) : Config → Config → Prop where
  | mk (r : URule W) (w : List Nat) (h : R r) :
      Step R (r.src, r.pre :: w) (r.dst, effect r.op r.pre r.opLabel w)

/-- Reachability by zero or more moves. -/
def Reach {W : Type} (R : URule W → Prop) : Config → Config → Prop :=
  Relation.ReflTransGen (Step R)

/-- A run along an explicit list of rules. -/
inductive Run {W : Type} : Config → List (URule W) → Config → Prop where
  | nil (c : Config) : Run c [] c
  | cons (r : URule W) (w : List Nat) (rs : List (URule W)) (c : Config)
      (h : Run (r.dst, effect r.op r.pre r.opLabel w) rs c) :
      Run (r.src, r.pre :: w) (r :: rs) c

/-- A transition `src --label--> dst` of a P-automaton. -/
structure Tr where
  src : Nat
  label : Nat
  dst : Nat
  deriving DecidableEq, Repr, Inhabited

/-- The epsilon label, `std::numeric_limits<uint32_t>::max()` (internal/PAutomaton.h:168). -/
def epsilon : Nat := 4294967295

/-- A path in the transition relation `E` that spells the word literally. -/
inductive Path (E : Tr → Prop) : Nat → List Nat → Nat → Prop where
  | nil (q : Nat) : Path E q [] q
  | cons {p g q : Nat} {w : List Nat} {r : Nat} :
      E ⟨p, g, q⟩ → Path E q w r → Path E p (g :: w) r

/-- A path in which epsilon transitions read nothing. -/
inductive EPath (E : Tr → Prop) : Nat → List Nat → Nat → Prop where
  | nil (q : Nat) : EPath E q [] q
  | cons {p g q : Nat} {w : List Nat} {r : Nat} :
      g ≠ epsilon → E ⟨p, g, q⟩ → EPath E q w r → EPath E p (g :: w) r
  | eps {p q : Nat} {w : List Nat} {r : Nat} :
      E ⟨p, epsilon, q⟩ → EPath E q w r → EPath E p w r

/-- `⟨p, w⟩` is accepted by the automaton with transitions `E` and accepting states `F`. -/
def Accepted (E : Tr → Prop) (F : Nat → Prop) (c : Config) : Prop :=
  ∃ q, Path E c.1 c.2 q ∧ F q

/-- Acceptance where epsilon transitions read nothing. -/
def EAccepted (E : Tr → Prop) (F : Nat → Prop) (c : Config) : Prop :=
  ∃ q, EPath E c.1 c.2 q ∧ F q

end Verif
