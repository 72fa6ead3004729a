import Verif.Model.RunText
import Verif.Model.InstanceJson

/-!
# Parsing.cpp and main.cpp: the program on separate files
-/

namespace Verif

variable {W : Type}

/-- `std::isspace` in the C locale. -/
def cSpace (c : Char) : Bool := c == ' ' || (9 ≤ c.toNat && c.toNat ≤ 13)

/-- The value of decimal digits. -/
def digitsValue (ds : List Char) : Nat := ds.foldl (fun n d => 10 * n + (d.toNat - '0'.toNat)) 0

/-- `std::stoul(s)` (PAutomatonParser.h:166): white space, a sign, digits; what follows is ignored. `none` if it throws, because there is no digit
or the number does not fit. A minus sign negates in 64 bits. -/
def stoul (s : List Char) : Option Nat :=
  let s := s.dropWhile cSpace
  let neg := s.head? == some '-'
  let s := if s.head? == some '-' || s.head? == some '+' then s.tail else s
  let ds := s.takeWhile Char.isDigit
  if ds.isEmpty then none
  else if sizeMax < digitsValue ds then none
  else some (if neg then (sizeMax + 1 - digitsValue ds) % (sizeMax + 1) else digitsValue ds)

/-- `_pda.exists_state(_state_mapping(state_name))` (PAutomatonParser.h:79-85, 160-167, PDA.h:189-195). -/
def findState (names : Bool) (p : NPda String String W) (s : String) : Option (Option Nat) :=
  if names then some (p.names.idxOf? s)
  else (stoul s.toList).map fun n => if n < p.states.length then some n else none

/-- `equals_case_insensitive_1` (Parsing.cpp:81-85), on characters instead of bytes; `std::tolower` in the C locale. -/
def equalsNoCase (any lower : List Char) : Bool :=
  any.length == lower.length && (any.zip lower).all fun x => x.1 == x.2 || x.1.toLower == x.2

/-- `input_format` (Parsing.cpp:32). -/
inductive InputFormat where
  | pdaaal | moped
  deriving DecidableEq, Repr

/-- `get_format` (Parsing.cpp:86-96). -/
def getFormat (s : List Char) : Option InputFormat :=
  if equalsNoCase s "pdaaal".toList then some .pdaaal
  else if equalsNoCase s "moped".toList then some .moped
  else none

/-- `get_weight_type` (Parsing.cpp:97-109). -/
def getWeightType (s : List Char) : Option WKind :=
  if equalsNoCase s "none".toList then some .none
  else if equalsNoCase s "uint".toList then some .uint
  else if equalsNoCase s "int".toList then some .int
  else none

/-- `run` (main.cpp:77-86) with `parse_pda` (Parsing.cpp:111-121) and `parse_stream` (64-71), for trace types none and any: the
options `--format`, `--weight` and `--state-names`, the PDA as JSON and the automata as text. -/
def runFiles (h h' : HashOrder) (addr : Nat → Nat → Nat) (format weight : List Char) (names : Bool) (pda : List JEv) (ini fin : List Char)
    (engine : Nat) (any : Bool) : Outcome String :=
  match getFormat format with
  | none => .error
  | some format => match getWeightType weight with
    | none => .error
    | some k => match format with
      | .moped => .error
      | .pdaaal => match parsePda k.io names pda with
        | none => .error
        | some p => runText h h' addr (findState names p) p.toTPda ini fin engine any

end Verif
