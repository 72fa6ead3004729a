import Verif.Model.PAutText
import Verif.Model.Verifier

/-!
# main.cpp and Parsing.h with P-automata as text
-/

namespace Verif

variable {W : Type}

/-- `run` (main.cpp:77-86) with `Parsing::parse_instance` on separate files (Parsing.h:73-88), after the PDA has been read: the initial
P-automaton is read before the final one. -/
def runText [LinearOrder W] [Zero W] (h h' : HashOrder) (addr : Nat → Nat → Nat) (find : String → Option (Option Nat))
    (t : TPda String W) (ini fin : List Char) (engine : Nat) (any : Bool) : Outcome String :=
  match parsePAutText h addr find t ini with
  | .error => .error
  | .undefined => .undefined
  | .ok x => match parsePAutText h addr find x.1 fin with
    | .error => .error
    | .undefined => .undefined
    | .ok y => verifyPlain h h' y.1 x.2 y.2 engine any


end Verif
