import Verif.Model.FilesWeighted
import Verif.Model.JsonStream

/-!
# main.cpp as a whole: options, files, and what is written

Not modelled: the parsing of the command line by boost, and the JSON reader and printer of nlohmann, which are parameters (`ProgEnv.read`,
`ProgEnv.dump`, `ProgEnv.val`). What goes to standard error is left out.
-/

namespace Verif

/-- The options (main.cpp:43-48, 90-92, Parsing.h:56-67, 113-120, Verifier.h:76-81) with their default values. -/
structure ProgOpts where
  help : Bool := false
  version : Bool := false
  input : String := ""
  msgpack : Bool := false
  pda : String := ""
  format : List Char := "pdaaal".toList
  weight : List Char := "none".toList
  names : Bool := false
  initial : String := ""
  final : String := ""
  jsonAutomata : Bool := false
  engine : Nat := 0
  trace : TraceOpt := .none
  silent : Bool := false
  printPda : String := ""
  printInstance : String := ""

/-- The contents of the files that can be opened for reading, standard input, and the files that can be opened for writing. -/
structure World where
  files : String → Option (List Char)
  stdin : List Char
  writable : String → Bool

/-- What the program does not determine itself: the orders of hash maps, addresses, queues, uninitialized memory, the number of steps the
model is given, times, the JSON library and the texts of `--help` and `--version`. `read` gives the events for a text, as MessagePack if the
flag is set, or `none` if it is not well-formed; the model does not look at the events before the error. -/
structure ProgEnv where
  order : HashOrder
  order' : HashOrder
  addr : Nat → Nat → Nat
  uns : ShortEnv Nat
  sig : ShortEnv Int
  junk : Nat → Bool
  fuel : Nat
  parsing : List Char
  time : List Char
  read : Bool → List Char → Option (List JEv)
  dump : List JEv → List Char
  val : OutVal → List Char
  num : WKind → WithTop (WithBot Int) → List Char
  help : List Char
  version : List Char

/-! ## Reading -/

/-- `PAutomatonParser::parse_file` (PAutomatonParser.h:147-152) or `PAutomatonJsonParser::parse` (PAutomatonJsonParser.h:398-417), as
`--json-automata` says (Parsing.h:78-83). -/
def readAutomaton {W : Type} [Zero W] (e : ProgEnv) (w : World) (o : ProgOpts) (file : String) (p : NPda String String W) :
    SaxRes (NPda String String W × NAut W) :=
  match w.files file with
  | none => .error
  | some text =>
    if o.jsonAutomata then match e.read false text with
      | none => .error
      | some es => parseJAut o.names p es
    else match parsePAutText e.order e.addr (findState o.names p) p.toTPda text with
      | .error => .error
      | .undefined => .undefined
      | .ok x => .ok ({ p with toTPda := x.1 }, { toAut := x.2 })

/-- `Parsing::parse_instance` on separate files (Parsing.h:73-88) with `parse_pda` (Parsing.cpp:44-79, 111-121). The name `-` stands for
standard input, for the PDA only. -/
def readSeparate (e : ProgEnv) (w : World) (o : ProgOpts) : SaxRes Inst :=
  match getFormat o.format, getWeightType o.weight with
  | some format, some k =>
    match if o.pda = "-" then some w.stdin else w.files o.pda with
    | none => .error
    | some text => match format with
      | .moped => .error
      | .pdaaal => match (e.read false text).bind (parsePda k.io o.names) with
        | none => .error
        | some p => (readAutomaton e w o o.initial p).bind fun x => (readAutomaton e w o o.final x.1).bind fun y =>
            .ok ⟨k, o.names, y.1, x.2, y.2⟩
  | _, _ => .error

/-- `parse_instance_stream` (Parsing.h:107-113); `none` if the file cannot be opened (93-98). -/
def readStream (e : ProgEnv) (o : ProgOpts) : Option (List Char) → SaxRes Inst
  | none => .error
  | some text => match e.read o.msgpack text with
    | none => .error
    | some es => parseInstDoc es

/-- `Parsing::parse_instance` (Parsing.h:72-103). -/
def readInstance (e : ProgEnv) (w : World) (o : ProgOpts) : SaxRes Inst :=
  if o.input = "" ∧ o.pda ≠ "" ∧ o.initial ≠ "" ∧ o.final ≠ "" then readSeparate e w o
  else readStream e o (if o.input = "" ∨ o.input = "-" then some w.stdin else w.files o.input)

/-! ## Writing -/

/-- `instance->pda().to_json()`. -/
def Inst.pdaJson (i : Inst) : List JEv := (if i.names then i.pda.toJson i.kind.io id id else i.pda.toTPda.toJson i.kind.io id).events

/-- A file that is opened for writing, with the text that is written and an end of line. `none` if it cannot be opened. -/
def writeFile (w : World) (files : String → Option (List Char)) (name : String) (text : List Char) : Option (String → Option (List Char)) :=
  if w.writable name then some fun f => if f = name then some (text ++ ['\n']) else files f else none

/-- `do_output` (main.cpp:51-69): the files, and whether the program goes on. -/
def doOutput (e : ProgEnv) (w : World) (o : ProgOpts) (i : Inst) : (String → Option (List Char)) × Bool :=
  match if o.printPda = "" then some w.files else writeFile w w.files o.printPda (e.dump i.pdaJson) with
  | none => (w.files, false)
  | some files =>
    match if o.printInstance = "" then some files else writeFile w files o.printInstance (e.dump (i.toJson e.order)) with
    | none => (files, false)
    | some files => (files, true)

/-! ## Verifying -/

def JWeight.map {U V : Type} (f : U → V) : JWeight U → JWeight V
  | .value x => .value (f x)
  | .text s => .text s

def WReport.map {L U V : Type} (f : U → V) (r : WReport L U) : WReport L V :=
  { engine := r.engine, result := r.result, weight := r.weight.map (JWeight.map f), trace := r.trace }

def WOutcome.map {L U V : Type} (f : U → V) : WOutcome L U → WOutcome L V
  | .nothing => .nothing
  | .report r => .report (r.map f)
  | .error => .error
  | .undefined => .undefined
  | .running => .running

/-- The reports without weights as reports with weights. -/
def Outcome.weighted {L U : Type} : Outcome L → WOutcome L U
  | .nothing => .nothing
  | .report r => .report { engine := r.engine, result := r.result, weight := none, trace := r.trace }
  | .error => .error
  | .undefined => .undefined

def ofNatWeight (x : WithTop Nat) : WithTop (WithBot Int) := x.map fun n : Nat => ((n : Int) : WithBot Int)
def ofIntWeight (x : WithTop Int) : WithTop (WithBot Int) := x.map fun z : Int => (z : WithBot Int)

/-- The weights of all trace types in one type. -/
def shortWeight : (k : WKind) → ShortWeight k → WithTop (WithBot Int)
  | .uint => ofNatWeight
  | .none => ofIntWeight
  | .int => ofIntWeight
  | .uints => ofIntWeight
  | .ints => ofIntWeight

def fixWeight : (k : WKind) → FixWeight k → WithTop (WithBot Int)
  | .uint => ofNatWeight
  | .none => id
  | .int => id
  | .uints => id
  | .ints => id

/-- Weights that are vectors. -/
def WKind.isVector : WKind → Bool
  | .uints => true
  | .ints => true
  | _ => false

/-- `verify` (Verifier.h:88-337) on an instance. `none` stands for what is not modelled: the trace types shortest, longest and shortest by
fixed point with vectors as weights. -/
def progVerify (e : ProgEnv) (o : ProgOpts) (i : Inst) : Option (WOutcome String (WithTop (WithBot Int))) :=
  match o.trace with
  | .none => some (verifyPlain e.order e.order' i.pda.toTPda i.ini.toAut i.fin.toAut o.engine false).weighted
  | .any => some (verifyPlain e.order e.order' i.pda.toTPda i.ini.toAut i.fin.toAut o.engine true).weighted
  | .shortest => if i.kind.isVector then none
    else some ((verifyShortestFor e.uns e.sig e.order e.junk o.engine e.fuel i.kind i.pda.toTPda i.ini.toAut i.fin.toAut).map (shortWeight i.kind))
  | .longest => if i.kind.isVector then none
    else some (verifyLongestFor e.order o.engine e.fuel i.kind i.pda.toTPda i.ini.toAut i.fin.toAut)
  | .fixedPoint => if i.kind.isVector then none
    else some ((verifyFixedFor e.order o.engine e.fuel i.kind i.pda.toTPda i.ini.toAut i.fin.toAut).map (fixWeight i.kind))

/-! ## The program -/

/-- How the program ends: with a status, an exception that nobody catches, undefined behaviour, or not yet after the number of steps the
model is given; or the model does not say. -/
inductive ProgEnd where
  | code (n : Nat)
  | thrown
  | undefined
  | running
  | unmodelled
  deriving DecidableEq, Repr

/-- The end, what is on standard output (`none` if the code does not determine it: an exception ends the program before or after the
stream has been flushed and closed), and the files. -/
structure ProgRun where
  ending : ProgEnd
  out : Option (List Char)
  files : String → Option (List Char)

/-- The entry that `run` writes first (main.cpp:81). -/
def firstCalls (e : ProgEnv) (o : ProgOpts) : List JCall := if o.silent then [] else [.entry "parsing-duration" (e.val (.num e.parsing))]

/-- The end of `run` (main.cpp:84-85). -/
def finish (e : ProgEnv) (o : ProgOpts) (i : Inst) (files : String → Option (List Char)) : ProgRun :=
  match progVerify e o i with
  | some .nothing => ⟨.code 0, runOutput e.val (e.num i.kind) o.silent e.parsing e.time none, files⟩
  | some (.report r) => ⟨.code 0, runOutput e.val (e.num i.kind) o.silent e.parsing e.time (some r), files⟩
  | some .error => ⟨.thrown, none, files⟩
  | some .undefined => ⟨.undefined, none, files⟩
  | some .running => ⟨.running, none, files⟩
  | none => ⟨.unmodelled, none, files⟩

/-- `main` (main.cpp:88-126) and `run` (77-86). `exit(-1)` (57, 65) does not destroy the stream, so that it is not closed. -/
def prog (e : ProgEnv) (w : World) (o : ProgOpts) : ProgRun :=
  if o.help then ⟨.code 1, some e.help, w.files⟩
  else if o.version then ⟨.code 1, some e.version, w.files⟩
  else match readInstance e w o with
    | .error => ⟨.thrown, some [], w.files⟩
    | .undefined => ⟨.undefined, none, w.files⟩
    | .ok i =>
      let out := doOutput e w o i
      if out.2 then finish e o i out.1 else ⟨.code 255, (JStream.calls {} (firstCalls e o)).map (·.out), out.1⟩

end Verif
