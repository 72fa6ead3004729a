import Verif.Model.VerifierWeighted

/-!
# pdaaal-bin/utils/json_stream.h, and what Verifier.h and main.cpp write with it

Values are given by the text that `json::dump` makes of them.
-/

namespace Verif

/-- The members of `json_stream` (json_stream.h:96-99) and what has been written; the size of an indentation is 4 (json_stream.h:40). -/
structure JStream where
  started : Bool := false
  indent : Nat := 0
  out : List Char := []
  deriving DecidableEq, Repr

namespace JStream

/-- `indent()` (json_stream.h:82-84). -/
def spaces (n : Nat) : List Char := List.replicate (n * 4) ' '

/-- `start_entry` (json_stream.h:85-94). Keys are written as they are. -/
def startEntry (s : JStream) (key : String) : JStream :=
  let s := if s.started then { s with out := s.out ++ [',', '\n'] }
    else { s with started := true, indent := s.indent + 1, out := s.out ++ ['{', '\n'] }
  { s with out := s.out ++ spaces s.indent ++ ('"' :: key.toList ++ ['"', ' ', ':', ' ']) }

/-- `begin_object` (json_stream.h:45-48). -/
def beginObject (s : JStream) (key : String) : JStream := { s.startEntry key with started := false }

/-- `end_object` (json_stream.h:49-58). `none` if `_indent` would fall below zero. -/
def endObject (s : JStream) : Option JStream :=
  if s.started then
    if s.indent = 0 then none
    else some { s with indent := s.indent - 1, out := s.out ++ ('\n' :: spaces (s.indent - 1) ++ ['}']) }
  else some { s with started := true, out := s.out ++ ['{', '}'] }

/-- `entry` (json_stream.h:60-62). -/
def entry (s : JStream) (key : String) (value : List Char) : JStream :=
  let s := s.startEntry key
  { s with out := s.out ++ value }

/-- `entry_object` (json_stream.h:64-74): the value is an object, given by its items, or something else. -/
def entryObject (s : JStream) (key : String) : List Char ⊕ List (String × List Char) → Option JStream
  | .inl value => some (s.entry key value)
  | .inr items => (items.foldl (fun s x => s.entry x.1 x.2) (s.beginObject key)).endObject

/-- The loop of `close` (json_stream.h:77-79), at most `n` rounds. -/
def closeLoop : Nat → JStream → JStream
  | 0, s => s
  | n + 1, s => if 0 < s.indent then match s.endObject with
      | some s => closeLoop n s
      | none => s
    else s

/-- `close` (json_stream.h:76-81), which is also the destructor (41-43). Every second round lowers `_indent`. -/
def close (s : JStream) : JStream := { closeLoop (2 * s.indent + 1) s with started := false }

end JStream

/-- The calls of a `json_stream`. -/
inductive JCall where
  | entry (key : String) (value : List Char)
  | entryObject (key : String) (value : List Char ⊕ List (String × List Char))
  | beginObject (key : String)
  | endObject
  deriving DecidableEq, Repr

/-- One call. -/
def JStream.call (s : JStream) : JCall → Option JStream
  | .entry k v => some (s.entry k v)
  | .entryObject k v => s.entryObject k v
  | .beginObject k => some (s.beginObject k)
  | .endObject => s.endObject

/-- The calls in order. -/
def JStream.calls (s : JStream) (cs : List JCall) : Option JStream := cs.foldlM JStream.call s

/-- The values that the program writes. Numbers are given by their text. -/
inductive OutVal where
  | null
  | bool (b : Bool)
  | num (text : List Char)
  | str (s : String)
  | trace (cs : List (Nat × List String))
  deriving DecidableEq, Repr

/-- The calls of `verify` for a report (Verifier.h:95, 122, 218-222, 325-335). A trace without states is `null` (327). `num` gives the text of
a weight and `time` the one of the duration. -/
def reportCalls {U : Type} (dump : OutVal → List Char) (num : U → List Char) (time : List Char) (r : WReport String U) : List JCall :=
  [.entry "engine" (dump (.str r.engine))] ++
  (match r.weight with
    | none => []
    | some (.value x) => [.entry "weight" (dump (.num (num x)))]
    | some (.text s) => [.entry "weight" (dump (.str s))]) ++
  [.entry "rtime" (dump (.num time)), .entry "result" (dump (.bool r.result)),
    .entry "trace" (dump (if r.trace = [] then .null else .trace r.trace))]

/-- What `run` (main.cpp:77-86) writes if nothing is thrown: the duration of parsing unless `--silent`, and the report. -/
def runOutput {U : Type} (dump : OutVal → List Char) (num : U → List Char) (silent : Bool) (parsing time : List Char)
    (r : Option (WReport String U)) : Option (List Char) :=
  (JStream.calls {} ((if silent then [] else [.entry "parsing-duration" (dump (.num parsing))]) ++
    (match r with
      | none => []
      | some r => reportCalls dump num time r))).map fun s => s.close.out

end Verif
