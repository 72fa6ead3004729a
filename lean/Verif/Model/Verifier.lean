import Verif.Model.PAutParser
import Verif.Model.ProductTrace

/-!
# pdaaal-bin/Verifier.h and main.cpp: from a PDA and two P-automaton expressions to the report

Trace types 0 (none) and 1 (any). Times are left out of the report.
-/

namespace Verif

variable {L S W : Type}

/-- The entries that `verify` writes (Verifier.h:95, 325-335), without the time. A configuration of the trace is a state number
and a stack of labels. -/
structure Report (L : Type) where
  engine : String
  result : Bool
  trace : List (Nat × List L)

/-- What a call ends with: no output (Verifier.h:93), a report, an exception, or undefined behaviour. -/
inductive Outcome (L : Type) where
  | nothing
  | report (r : Report L)
  | error
  | undefined

/-- The names of the engines (Verifier.h:94). -/
def engineName (engine : Nat) : String := ["", "post*", "pre*", "dual*"].getD engine ""

/-- `Parsing::parse_instance` on separate files (Parsing.h:73-88), not JSON, after the PDA has been read: the initial P-automaton
is read before the final one, and both may add labels to the PDA. `none` if an exception is thrown. -/
def parseInstance [DecidableEq L] [Zero W] (h : HashOrder) (addr : Nat → Nat → Nat) (find : S → Option (Option Nat))
    (t : TPda L W) (ini fin : List (PAtom L S)) : Option (TPda L W × Aut W × Aut W) :=
  (parsePAut h addr find t ini).bind fun x => (parsePAut h addr find x.1 fin).map fun y => (y.1, x.2, y.2)

/-- `get_tracestate` and the output of the trace (Verifier.h:328-335): labels instead of numbers. -/
def namedTrace [Inhabited L] (t : TPda L W) (cs : List Config) : List (Nat × List L) := cs.map fun c => (c.1, c.2.map t.symbol)

/-- The report of an engine that has answered `ans` and whose trace would be `tr`; `any` tells whether a trace is asked for. -/
def plainReport [Inhabited L] (t : TPda L W) (engine : Nat) (any ans : Bool) (tr : Option (List Config)) : Outcome L :=
  if any && ans then
    match tr with
    | some cs => .report { engine := engineName engine, result := ans, trace := namedTrace t cs }
    | none => .undefined
  else .report { engine := engineName engine, result := ans, trace := [] }

/-- `Verifier::verify` (Verifier.h:90-337) with trace type none or any. `h` is the order of the hash maps in the search, `h'` the
one when the trace is made. -/
def verifyPlain [Inhabited L] [LinearOrder W] [Zero W] (h h' : HashOrder) (t : TPda L W) (a b : Aut W) (engine : Nat) (any : Bool) :
    Outcome L :=
  let i := Instance.ofAutomata t.core.size a b
  match engine with
  | 0 => .nothing
  | 1 => plainReport t 1 any (i.postStarAccepts h t.core).2 ((i.postStarAccepts h t.core).1.getTrace h' t.core false)
  | 2 => plainReport t 2 any (i.preStarAccepts h t.core).2 ((i.preStarAccepts h t.core).1.getTrace h' t.core true)
  | 3 => plainReport t 3 any (i.dualSearchAccepts h t.core).2 ((i.dualSearchAccepts h t.core).1.getTraceDual h' t.core)
  | _ => .error

/-- `run` (main.cpp:77-86) without the output of the instance. -/
def runPlain [DecidableEq L] [Inhabited L] [LinearOrder W] [Zero W] (h h' : HashOrder) (addr : Nat → Nat → Nat)
    (find : S → Option (Option Nat)) (t : TPda L W) (ini fin : List (PAtom L S)) (engine : Nat) (any : Bool) : Outcome L :=
  match parseInstance h addr find t ini fin with
  | none => .error
  | some x => verifyPlain h h' x.1 x.2.1 x.2.2 engine any

end Verif
