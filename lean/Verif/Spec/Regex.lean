import Verif.Spec.Regular
import Verif.Model.Regex

/-! # Specification: the language of a regular expression -/

namespace Verif

mutual
/-- `.` is any symbol, `[a,b]` one of the symbols, `[^a,b]` any other symbol. -/
def RVal.Den : RVal → Words
  | .dot => fun w => ∃ g, w = [g]
  | .set neg l ls => fun w => ∃ g, w = [g] ∧ (if neg then g ∉ l :: ls else g ∈ l :: ls)
  | .group e => e.Den
/-- `*`, `+` and `?` are zero or more, one or more, zero or one. -/
def RUn.Den : RUn → Words
  | .mk v none => v.Den
  | .mk v (some .star) => Words.Star v.Den
  | .mk v (some .plus) => Words.Plus v.Den
  | .mk v (some .question) => fun w => v.Den w ∨ w = []
/-- One after the other. -/
def RSeq.Den : RSeq → Words
  | .one u => u.Den
  | .more u s => Words.concat u.Den s.Den
/-- Any of the alternatives. -/
def RAlt.Den : RAlt → Words
  | .one s => s.Den
  | .more s a => fun w => s.Den w ∨ a.Den w
end

mutual
/-- No alternative can be entered again from inside: no expression in it starts with a `*` or `+` whose
repetition returns to its first position. -/
def RVal.fresh : RVal → Bool
  | .dot => true
  | .set _ _ _ => true
  | .group e => e.fresh
def RUn.fresh : RUn → Bool
  | .mk v none => v.fresh
  | .mk v (some .question) => v.fresh
  | .mk _ _ => false
def RSeq.fresh : RSeq → Bool
  | .one u => u.fresh
  | .more u _ => u.fresh
def RAlt.fresh : RAlt → Bool
  | .one s => s.fresh
  | .more _ _ => true
end

mutual
/-- The whole expression is a repetition (possibly in brackets or with a further operator). -/
def RVal.loops : RVal → Bool
  | .dot => false
  | .set _ _ _ => false
  | .group e => e.loops
def RUn.loops : RUn → Bool
  | .mk v none => v.loops
  | .mk v (some .question) => v.loops
  | .mk v _ => v.fresh || v.loops
def RSeq.loops : RSeq → Bool
  | .one u => u.loops
  | .more _ _ => false
def RAlt.loops : RAlt → Bool
  | .one s => s.loops
  | .more _ _ => false
end

mutual
/-- `*` and `?` are applied only to expressions that do not start with a repetition, or that are one. -/
def RVal.ok : RVal → Bool
  | .dot => true
  | .set _ _ _ => true
  | .group e => e.ok
def RUn.ok : RUn → Bool
  | .mk v none => v.ok
  | .mk v (some .plus) => v.ok
  | .mk v _ => v.ok && (v.fresh || v.loops)
def RSeq.ok : RSeq → Bool
  | .one u => u.ok
  | .more u s => u.ok && s.ok
def RAlt.ok : RAlt → Bool
  | .one s => s.ok
  | .more s a => s.ok && a.ok
end

end Verif
