import Verif.Model.Json

/-! # The order of SAX events in a JSON text

Nothing here looks at the parsers. -/

namespace Verif

/-- What is open at some point of a text: an array, an object where a key or its end is next, or an object whose key waits for its
value. -/
inductive JFrame where
  | arr | key | val
  deriving DecidableEq, Repr

/-- What is open after a complete value. -/
def JFrame.valued : List JFrame → Option (List JFrame)
  | .arr :: r => some (.arr :: r)
  | .val :: r => some (.key :: r)
  | _ => none

/-- What is open after an event, `none` if it cannot come. -/
def JFrame.after (f : List JFrame) : JEv → Option (List JFrame)
  | .startObj => (valued f).map (.key :: ·)
  | .startArr => (valued f).map (.arr :: ·)
  | .key _ => match f with
    | .key :: r => some (.val :: r)
    | _ => none
  | .endObj => match f with
    | .key :: r => some r
    | _ => none
  | .endArr => match f with
    | .arr :: r => some r
    | _ => none
  | _ => valued f

/-- The events complete what is open, and end there. -/
inductive Completes : List JFrame → List JEv → Prop where
  | done : Completes [] []
  | step {f f' : List JFrame} {e : JEv} {es : List JEv} : JFrame.after f e = some f' → Completes f' es → Completes f (e :: es)

/-- The events of one JSON object. -/
def IsObject (es : List JEv) : Prop := ∃ es', es = .startObj :: es' ∧ Completes [.key] es'

end Verif
