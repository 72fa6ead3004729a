import Verif.Model.Files
import Verif.Model.VerifierWeighted
import Mathlib.Algebra.Order.Group.Synonym
import Mathlib.Algebra.Order.Group.Nat
import Mathlib.Order.Nat
import Mathlib.Order.WithBot

/-!
# The program on separate files with all trace types

Times and the output of the instance are left out. Sums do not overflow.
-/

namespace Verif

variable {W U : Type}

/-- `Trace_Type`, as far as it is an option (Verifier.h:37-54). -/
inductive TraceOpt where
  | none | any | shortest | longest | fixedPoint
  deriving DecidableEq, Repr

/-- `operator>>` for `Trace_Type` (Verifier.h:37-55), on the token that has been read. -/
def getTraceOpt (token : List Char) : Option TraceOpt :=
  if token = ['0'] then some .none
  else if token = ['1'] then some .any
  else if token = ['2'] then some .shortest
  else if token = ['3'] then some .longest
  else if token = ['4'] then some .fixedPoint
  else none

/-- The files with the P-automata: text, or JSON with `--json-automata`. -/
inductive AutFiles where
  | text (ini fin : List Char)
  | json (ini fin : List JEv)

/-- `Parsing::parse_instance` on separate files (Parsing.h:77-87) and `verify` on the result. -/
def withAutomata [Zero W] (h : HashOrder) (addr : Nat → Nat → Nat) (names : Bool) (p : NPda String String W) (fs : AutFiles)
    (verify : TPda String W → Aut W → Aut W → WOutcome String U) : WOutcome String U :=
  match fs with
  | .json ini fin => runDocs names p ini fin verify
  | .text ini fin =>
    match parsePAutText h addr (findState names p) p.toTPda ini with
    | .error => .error
    | .undefined => .undefined
    | .ok x => match parsePAutText h addr (findState names p) x.1 fin with
      | .error => .error
      | .undefined => .undefined
      | .ok y => verify y.1 x.2 y.2

/-- `run` (main.cpp:77-86) with `parse_pda` (Parsing.cpp:111-121). The type of weights is part of the result; `none` is an error before it
is known what to do with the PDA. -/
def runFilesBy {U : WKind → Type} (h : HashOrder) (addr : Nat → Nat → Nat) (format weight : List Char) (names : Bool) (pda : List JEv) (fs : AutFiles)
    (verify : (k : WKind) → TPda String k.Carrier → Aut k.Carrier → Aut k.Carrier → WOutcome String (U k)) :
    Option ((k : WKind) × WOutcome String (U k)) :=
  match getFormat format with
  | some .pdaaal => match getWeightType weight with
    | some k => (parsePda k.io names pda).map fun p => ⟨k, withAutomata h addr names p fs (verify k)⟩
    | none => none
  | _ => none

/-- Trace types that need weights, on a PDA without (Verifier.h:123-125, 158-160, 191-193, 241-243, 276-278, 314-316). -/
def verifyUnweighted {L U : Type} (engine : Nat) : WOutcome L U := if engine = 0 then .nothing else .error

/-- What the priority-queue algorithms work with: the two queues, and the values of uninitialized memory that `find_path_shortest` may read
(see `SInstance.ofAutomata`). -/
structure ShortEnv (T : Type) [LinearOrder T] where
  worklist : Heap (ShElem T) (WithTop T) ShElem.key
  queue : Heap (T × Nat) T Prod.fst
  best : Nat → T

/-- The weights of these algorithms. -/
def ShortWeight : WKind → Type
  | .uint => WithTop Nat
  | _ => WithTop Int

/-- `verify` with `--trace 2` for the types of weights that `--weight` gives; it gives no vectors (Parsing.cpp:97-109). -/
def verifyShortestFor (u : ShortEnv Nat) (s : ShortEnv Int) (h : HashOrder) (junk : Nat → Bool) (engine fuel : Nat) :
    (k : WKind) → TPda String k.Carrier → Aut k.Carrier → Aut k.Carrier → WOutcome String (ShortWeight k)
  | .none => fun _ _ _ => verifyUnweighted engine
  | .uint => verifyShortest (W := Int) (T := Nat) Int.toNat u.worklist u.queue h junk u.best engine fuel
  | .int => verifyShortest (W := Int) (T := Int) id s.worklist s.queue h junk s.best engine fuel
  | _ => fun _ _ _ => .undefined

/-- The weights of the fixed-point algorithms that minimise: the least value is 0 for unsigned weights (`bottom()`, Weight.h:116-117) and apart
from the others for signed ones. -/
def FixWeight : WKind → Type
  | .uint => WithTop Nat
  | _ => WithTop (WithBot Int)

/-- An unsigned weight. -/
def unsignedVal (z : Int) : WithTop Nat := (z.toNat : WithTop Nat)

/-- A signed weight. -/
def signedVal (z : Int) : WithTop (WithBot Int) := ((z : WithBot Int) : WithTop (WithBot Int))

/-- `verify` with `--trace 4`. -/
def verifyFixedFor (h : HashOrder) (engine fuel : Nat) :
    (k : WKind) → TPda String k.Carrier → Aut k.Carrier → Aut k.Carrier → WOutcome String (FixWeight k)
  | .none => fun _ _ _ => verifyUnweighted engine
  | .uint => verifyFixed (W := Int) (T := WithTop Nat) unsignedVal h true "negative infinity" engine fuel
  | .int => verifyFixed (W := Int) (T := WithTop (WithBot Int)) signedVal h false "negative infinity" engine fuel
  | _ => fun _ _ _ => .undefined

/-- `verify` with `--trace 3`: the opposite order. For unsigned weights `max()` is apart from the values too when maximising (Weight.h:116-119). -/
def verifyLongestFor (h : HashOrder) (engine fuel : Nat) :
    (k : WKind) → TPda String k.Carrier → Aut k.Carrier → Aut k.Carrier → WOutcome String (WithTop (WithBot Int))
  | .none => fun _ _ _ => verifyUnweighted engine
  | .uint => verifyFixed (W := Int) (T := (WithTop (WithBot Int))ᵒᵈ) signedVal h false "infinity" engine fuel
  | .int => verifyFixed (W := Int) (T := (WithTop (WithBot Int))ᵒᵈ) signedVal h false "infinity" engine fuel
  | _ => fun _ _ _ => .undefined

end Verif
