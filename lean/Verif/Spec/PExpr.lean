import Verif.Model.PAutParser

/-!
# Specification: what a P-automaton expression describes

Only the syntax trees are used here, none of the functions that model the parser.
-/

namespace Verif

variable {L S : Type}

/-- Zero or more words of `D` one after the other. -/
inductive WStar (D : List L → Prop) : List L → Prop where
  | nil : WStar D []
  | app (u v : List L) : D u → WStar D v → WStar D (u ++ v)

mutual
/-- `.` is any label, `[a,b]` one of the labels, `[^a,b]` any other label. -/
def SVal.Den : SVal L → List L → Prop
  | .dot => fun w => ∃ g, w = [g]
  | .set neg l ls => fun w => ∃ g, w = [g] ∧ (if neg then g ∉ l :: ls else g ∈ l :: ls)
  | .group e => e.Den
/-- `*`, `+` and `?` are zero or more, one or more, zero or one. -/
def SUn.Den : SUn L → List L → Prop
  | .mk v none => v.Den
  | .mk v (some .star) => WStar v.Den
  | .mk v (some .plus) => fun w => ∃ u x, w = u ++ x ∧ v.Den u ∧ WStar v.Den x
  | .mk v (some .question) => fun w => v.Den w ∨ w = []
/-- One after the other. -/
def SSeq.Den : SSeq L → List L → Prop
  | .one u => u.Den
  | .more u s => fun w => ∃ x y, w = x ++ y ∧ u.Den x ∧ s.Den y
/-- Any of the alternatives. -/
def SAlt.Den : SAlt L → List L → Prop
  | .one s => s.Den
  | .more s a => fun w => s.Den w ∨ a.Den w
end

mutual
/-- The labels that occur in an expression. -/
def SVal.labels : SVal L → List L
  | .dot => []
  | .set _ l ls => l :: ls
  | .group e => e.labels
def SUn.labels : SUn L → List L
  | .mk v _ => v.labels
def SSeq.labels : SSeq L → List L
  | .one u => u.labels
  | .more u s => u.labels ++ s.labels
def SAlt.labels : SAlt L → List L
  | .one s => s.labels
  | .more s a => s.labels ++ a.labels
end

/-- The stacks of an atom; without an expression it is the empty stack. -/
def PAtom.Stack (a : PAtom L S) (w : List L) : Prop :=
  match a.expr with
  | none => w = []
  | some e => e.Den w

/-- The labels that occur in an atom. -/
def PAtom.labels (a : PAtom L S) : List L :=
  match a.expr with
  | none => []
  | some e => e.labels

/-- The state with number `c` is listed in the atom. -/
def PAtom.Lists (find : S → Option (Option Nat)) (a : PAtom L S) (c : Nat) : Prop := ∃ s ∈ a.states, find s.name = some (some c)

/-- The atom describes the configuration: its state is listed and its stack matches the expression. -/
def PAtom.Describes (find : S → Option (Option Nat)) (a : PAtom L S) (c : Nat) (w : List L) : Prop :=
  a.Lists find c ∧ a.Stack w

/-- Some atom describes the configuration, and all labels of the stack are among `known` or occur in that atom or in one
to the left of it. -/
def DescribedBy (find : S → Option (Option Nat)) : List L → List (PAtom L S) → Nat → List L → Prop
  | _, [], _, _ => False
  | known, a :: as, c, w =>
    (a.Describes find c w ∧ ∀ l ∈ w, l ∈ known ++ a.labels) ∨ DescribedBy find (known ++ a.labels) as c w

mutual
/-- Nothing inside leads back to the start of the expression. -/
def SVal.fresh : SVal L → Bool
  | .dot => true
  | .set _ _ _ => true
  | .group e => e.fresh
def SUn.fresh : SUn L → Bool
  | .mk v none => v.fresh
  | .mk v (some .question) => v.fresh
  | .mk _ _ => false
def SSeq.fresh : SSeq L → Bool
  | .one u => u.fresh
  | .more u _ => u.fresh
def SAlt.fresh : SAlt L → Bool
  | .one s => s.fresh
  | .more _ _ => true
end

mutual
/-- The whole expression is a repetition. -/
def SVal.loops : SVal L → Bool
  | .dot => false
  | .set _ _ _ => false
  | .group e => e.loops
def SUn.loops : SUn L → Bool
  | .mk v none => v.loops
  | .mk v (some .question) => v.loops
  | .mk v _ => v.fresh || v.loops
def SSeq.loops : SSeq L → Bool
  | .one u => u.loops
  | .more _ _ => false
def SAlt.loops : SAlt L → Bool
  | .one s => s.loops
  | .more _ _ => false
end

mutual
/-- The condition of C49: `*` and `?` are applied only to expressions that do not start with a repetition, or that are one. -/
def SVal.ok : SVal L → Bool
  | .dot => true
  | .set _ _ _ => true
  | .group e => e.ok
def SUn.ok : SUn L → Bool
  | .mk v none => v.ok
  | .mk v (some .plus) => v.ok
  | .mk v _ => v.ok && (v.fresh || v.loops)
def SSeq.ok : SSeq L → Bool
  | .one u => u.ok
  | .more u s => u.ok && s.ok
def SAlt.ok : SAlt L → Bool
  | .one s => s.ok
  | .more s a => s.ok && a.ok
end

/-- The condition of C49 for the expression of an atom. -/
def PAtom.ok (a : PAtom L S) : Bool :=
  match a.expr with
  | none => true
  | some e => e.ok

end Verif
