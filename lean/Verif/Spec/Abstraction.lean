import Verif.Spec.Pds
import Verif.Spec.Regular

/-!
# Specification: abstraction of a pushdown problem

Labels are grouped into classes by `α` and control states by `β`.
-/

namespace Verif

/-- Every rule of `R` has its image in `R'`. The operand label counts only for PUSH and SWAP. -/
def Abstracts (α : Nat → Option Nat) (β : Nat → Nat) (R R' : URule Unit → Prop) : Prop :=
  ∀ r, R r → ∃ a b, α r.pre = some a ∧ (r.op = .push ∨ r.op = .swap → α r.opLabel = some b) ∧
    R' ⟨β r.src, a, β r.dst, r.op, b, ()⟩

/-- `α'` has classes for the same labels, each of them within a class of `α`, and separates two labels that are
in one class of `α`. -/
structure StrictlyFiner (α α' : Nat → Option Nat) : Prop where
  known : ∀ x, (α' x).isSome = (α x).isSome
  finer : ∀ x y, α' x = α' y → α x = α y
  split : ∃ x y, (α x).isSome = true ∧ α x = α y ∧ α' x ≠ α' y

/-- The concrete problem: the rules, the states from which a run starts, and those in which it ends. -/
structure Problem where
  rules : URule Unit → Prop
  initial : Nat → Prop
  final : Nat → Prop

/-- Some run leads from an initial state with a stack of the language of `ini` to a final state with a stack of the
language of `fin`. All labels of the first stack are among the labels `known`. -/
def Problem.Solvable (P : Problem) (known : Nat → Prop) (ini fin : Nfa) : Prop :=
  ∃ q v q' v', P.initial q ∧ ini.Lang v ∧ (∀ x ∈ v, known x) ∧ Reach P.rules (q, v) (q', v') ∧ P.final q' ∧ fin.Lang v'

end Verif
