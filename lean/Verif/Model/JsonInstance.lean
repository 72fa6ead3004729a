import Verif.Model.PAutJson
import Verif.Model.Verifier

/-!
# pdaaal-bin/parsing/Parsing.h with `--json-automata`, and main.cpp on what it reads
-/

namespace Verif

variable {W : Type}

/-- `Parsing::parse_instance` on separate files (Parsing.h:73-88) with `--json-automata`, after the PDA has been read: the initial
P-automaton is read before the final one, and both may add labels to the PDA. -/
def parseJInstance [Zero W] (names : Bool) (p : NPda String String W) (ini fin : List JEv) :
    SaxRes (NPda String String W × NAut W × NAut W) :=
  (parseJAut names p ini).bind fun x => (parseJAut names x.1 fin).bind fun y => .ok (y.1, x.2, y.2)

/-- `run` (main.cpp:77-86) without the output of the instance, for trace types none and any. -/
def runJson [LinearOrder W] [Zero W] (h h' : HashOrder) (names : Bool) (p : NPda String String W) (ini fin : List JEv)
    (engine : Nat) (any : Bool) : Outcome String :=
  match parseJInstance names p ini fin with
  | .ok x => verifyPlain h h' x.1.toTPda x.2.1.toAut x.2.2.toAut engine any
  | .error => .error
  | .undefined => .undefined

end Verif
