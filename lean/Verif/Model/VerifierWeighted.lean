import Verif.Model.Verifier
import Verif.Model.JsonInstance
import Verif.Model.ShortestProduct
import Verif.Model.FixedProduct

/-!
# pdaaal-bin/Verifier.h with weights: the trace types shortest, longest and shortest by fixed point

The type of the weights of the rules is `W`, and `val` gives the values the algorithms compute with; the code has one type for both.
-/

namespace Verif

variable {L S W T U : Type}

/-- The entry `weight` of the report: a weight or a text (Verifier.h:122, 218-222, 230-234). -/
inductive JWeight (U : Type) where
  | value (x : U)
  | text (s : String)
  deriving DecidableEq

/-- The entries that `verify` writes (Verifier.h:95, 122, 325-335), without the time. -/
structure WReport (L U : Type) where
  engine : String
  result : Bool
  weight : Option (JWeight U)
  trace : List (Nat × List L)
  deriving DecidableEq

/-- What a call ends with: no output (Verifier.h:93), a report, an exception, undefined behaviour, or not yet ended after the number of
steps the model is given. -/
inductive WOutcome (L U : Type) where
  | nothing
  | report (r : WReport L U)
  | error
  | undefined
  | running
  deriving DecidableEq

/-- The automaton with values for weights. -/
def Aut.reweigh (a : Aut W) (val : W → T) : Aut T := { acc := a.acc, edges := a.edges.map fun e => (e.1, (e.2.1, val e.2.2)) }

/-- The same for automata with two traces per transition (`TraceInfoType::Pair`, internal/PAutomaton.h:105-125). -/
def Aut.paired (a : Aut W) (val : W → T) : Aut (Trace × T) :=
  { acc := a.acc, edges := a.edges.map fun e => (e.1, (e.2.1, (e.2.1, val e.2.2))) }

/-- The report after a search with `Trace_Type::Shortest` (Verifier.h:115-123, 145-155, 177-185, 324-335). -/
def shortReport [Inhabited L] (t : TPda L W) (engine : Nat) (r : Except String (Option (SInstance T × Bool)))
    (tr : SInstance T → Option (List Config) × WithTop T) : WOutcome L (WithTop T) :=
  match r with
  | .error _ => .error
  | .ok none => .running
  | .ok (some (i, true)) =>
    match tr i with
    | (some cs, w) => .report { engine := engineName engine, result := true, weight := some (.value w), trace := namedTrace t cs }
    | (none, _) => .undefined
  | .ok (some (_, false)) => .report { engine := engineName engine, result := false, weight := none, trace := [] }

/-- `Verifier::verify` (Verifier.h:90-337) with trace type shortest, for a PDA with weights. `best` and `junk` are the values of
uninitialized memory, see `SInstance.ofAutomata` and `preStarShortest`. -/
def verifyShortest [Inhabited L] [LinearOrder W] [Zero W] [LinearOrder T] [AddCommMonoid T] (val : W → T)
    (hp : Heap (ShElem T) (WithTop T) ShElem.key) (hq : Heap (T × Nat) T Prod.fst) (h : HashOrder) (junk : Nat → Bool) (best : Nat → T)
    (engine : Nat) (fuel : Nat) (t : TPda L W) (a b : Aut W) : WOutcome L (WithTop T) :=
  let i := SInstance.ofAutomata t.core.size (a.reweigh val) (b.reweigh val) best
  match engine with
  | 0 => .nothing
  | 1 => shortReport t 1 (SInstance.postStarAccepts val hp hq h t.core i fuel) fun i => i.getTrace t.core false
  | 2 => shortReport t 2 (.ok (SInstance.preStarAccepts val hp hq h junk t.core i fuel)) fun i => i.getTrace t.core true
  | 3 => shortReport t 3 (SInstance.dualSearchAccepts val hp hq h junk t.core i fuel) fun i => i.getTraceDual t.core
  | _ => .error

/-- The report after a fixed-point search (Verifier.h:210-236, 243-271, 279-309, 324-335). `word` is the text written for `bottom()`. It
is not written for `ShortestFixedPoint` with unsigned weights (`unsig`). A search or a trace that is `none` has either not ended or met
undefined behaviour, see `Instance.postFixedEnd` and `getTrace`; the two are not told apart here. -/
def fixReport [Inhabited L] [LinearOrder T] [OrderBot T] (t : TPda L W) (engine : Nat) (unsig : Bool) (word : String)
    (r : Option (Instance (Trace × T) × Bool)) (tr : Instance (Trace × T) → Option (List Config × T)) : WOutcome L T :=
  match r with
  | none => .running
  | some (i, true) =>
    match tr i with
    | none => .running
    | some (cs, w) =>
      .report { engine := engineName engine, result := true, weight := some (if unsig = false ∧ w = ⊥ then .text word else .value w), trace := namedTrace t cs }
  | some (_, false) => .report { engine := engineName engine, result := false, weight := none, trace := [] }

/-- `Verifier::verify` (Verifier.h:90-337) with trace type longest or shortest by fixed point, for a PDA with weights. For longest the
order of `T` is the opposite one, `unsig` is false and `word` is "infinity". For shortest by fixed point `unsig` tells whether weights
are unsigned, and `word` is "negative infinity". -/
def verifyFixed [Inhabited L] [LinearOrder W] [Zero W] [LinearOrder T] [OrderBot T] [OrderTop T] [AddCommMonoid T] (val : W → T)
    (h : HashOrder) (unsig : Bool) (word : String) (engine : Nat) (fuel : Nat) (t : TPda L W) (a b : Aut W) : WOutcome L T :=
  let i := Instance.ofAutomata t.core.size (a.paired val) (b.paired val)
  match engine with
  | 0 => .nothing
  | 1 => fixReport t 1 unsig word (i.postStarFixedPointAccepts val h t.core fuel) fun i => i.getTraceFixedPoint h t.core unsig false fuel
  | 2 => fixReport t 2 unsig word (i.preStarFixedPointAccepts val h t.core fuel) fun i => i.getTraceFixedPoint h t.core unsig true fuel
  | 3 =>
    match Instance.interleavingFixedPointAccepts val h t.core i i fuel with
    | none => .running
    | some (r, byPre) => fixReport t 3 unsig word (some r) fun i => i.getTraceFixedPoint h t.core unsig byPre fuel
  | _ => .error

/-- `run` (main.cpp:77-86) without the output of the instance, on expressions. -/
def runExpr [DecidableEq L] [Zero W] (h : HashOrder) (addr : Nat → Nat → Nat) (find : S → Option (Option Nat)) (t : TPda L W)
    (ini fin : List (PAtom L S)) (verify : TPda L W → Aut W → Aut W → WOutcome L U) : WOutcome L U :=
  match parseInstance h addr find t ini fin with
  | none => .error
  | some x => verify x.1 x.2.1 x.2.2

/-- The same on JSON documents. -/
def runDocs [Zero W] (names : Bool) (p : NPda String String W) (ini fin : List JEv)
    (verify : TPda String W → Aut W → Aut W → WOutcome String U) : WOutcome String U :=
  match parseJInstance names p ini fin with
  | .ok x => verify x.1.toTPda x.2.1.toAut x.2.2.toAut
  | .error => .error
  | .undefined => .undefined

end Verif
