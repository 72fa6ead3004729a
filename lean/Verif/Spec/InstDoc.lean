import Verif.Model.InstanceJson
import Verif.Spec.JsonText

/-! # What the first element of an instance means

Nothing here looks at the parser. -/

namespace Verif

/-- The weights named by a string. -/
def scalarKind (s : String) : WKind := if s = "uint" then .uint else if s = "int" then .int else .none
def vectorKind (s : String) : WKind := if s = "uint" then .uints else if s = "int" then .ints else .none

/-- The type of weights, if the value is accepted: a string, or an array with at most one string. -/
def TVal.kind : TVal → Option WKind
  | .str s => some (scalarKind s)
  | .arr [] => some .none
  | .arr [.name s] => some (vectorKind s)
  | .arr _ => none

/-- Both entries must be there, once each and in any order. -/
def typeOf : List TField → Option (Bool × WKind)
  | [.names b, .weight v] => v.kind.map (b, ·)
  | [.weight v, .names b] => v.kind.map (b, ·)
  | _ => none

/-- The last string among events, and `d` if there is none. -/
def lastString (d : String) : List JEv → String
  | [] => d
  | .str s :: es => lastString s es
  | _ :: es => lastString d es

/-- A value of `weight-type`, as events: a string, or an array with nothing but strings, natural numbers and such arrays. -/
def TypeValue (v : List JEv) (k : WKind) : Prop :=
  (∃ s, v = [.str s] ∧ k = scalarKind s) ∨
  ∃ u, v = .startArr :: u ∧ Completes [.arr] u ∧ k = vectorKind (lastString "" u) ∧
    ∀ e ∈ u, e = .startArr ∨ e = .endArr ∨ (∃ s, e = .str s) ∨ ∃ n, e = .uns n

/-- The first element of an instance: a Boolean for `state-names` and a type for `weight-type`, in any order. -/
def TypeObject (ty : List JEv) (names : Bool) (k : WKind) : Prop :=
  ∃ v, TypeValue v k ∧ (ty = [.startObj, .key "state-names", .bool names, .key "weight-type"] ++ v ++ [.endObj] ∨
    ty = [.startObj, .key "weight-type"] ++ v ++ [.key "state-names", .bool names, .endObj])

end Verif
