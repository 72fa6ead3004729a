import Verif.Model.Mapping
import Verif.Model.ProductTrace
import Verif.Model.FromNfa
import Verif.Model.Reducer

/-!
# cegar/CegarPdaFactory.h: reconstruction of concrete traces and the refinement loop

Labels are numbers; the code uses only `==` and `<` on them. The virtual members of the user's classes are arguments.
Assertions are not part of the model: what they say is a precondition of the theorems or proved there.
-/

namespace Verif.Cegar

/-- `Header` (cegar/CegarPdaFactory.h:75-78), bottom to top: first `wild` wildcards, then `conc`. -/
structure Header where
  wild : Nat := 0
  conc : List Nat := []
  deriving DecidableEq, Repr

namespace Header

/-- `size()` (cegar/CegarPdaFactory.h:79-81). -/
def size (h : Header) : Nat := h.wild + h.conc.length

/-- `top_is_concrete()` (cegar/CegarPdaFactory.h:82-84). -/
def topIsConcrete (h : Header) : Bool := !h.conc.isEmpty

/-- `pop()` (cegar/CegarPdaFactory.h:91-102). -/
def pop (h : Header) : Header :=
  if h.conc.isEmpty then { h with wild := h.wild - 1 } else { h with conc := h.conc.dropLast }

/-- `append(labels)` (cegar/CegarPdaFactory.h:103-105). -/
def append (h : Header) (labels : List Nat) : Header := { h with conc := h.conc ++ labels }

end Header

/-- The members of `CegarPdaReconstruction` (cegar/CegarPdaFactory.h:433-440): `map` is the label abstraction of
`_instance.pda()`. -/
structure Recon where
  map : RMap Nat
  initNfa : Nfa
  finNfa : Nfa
  initPath : List Nat := []
  finPath : List Nat := []
  initStack : List Nat := []
  finStack : List Nat := []

/-- `check_nfa_path(nfa, nfa_path, label, i)` (cegar/CegarPdaFactory.h:421-425). False if the path is too short, where
the code reads out of range. -/
def checkPath (n : Nfa) (path : List Nat) (label i : Nat) : Bool :=
  match path[i]? with
  | none => false
  | some q => n.hasAsSuccessor (if i = 0 then n.initial else [(path[i - 1]?).getD 0]) label q

/-- The private `intersect_edge_labels(nfa, nfa_path, labels, i)` (cegar/CegarPdaFactory.h:426-430). -/
def edgeLabels (n : Nfa) (path labels : List Nat) (i : Nat) : List Nat :=
  match path[i]? with
  | none => []
  | some q => n.intersectEdgeLabels (if i = 0 then n.initial else [(path[i - 1]?).getD 0]) q labels

namespace Recon

/-- `initial_header()` (cegar/CegarPdaFactory.h:272-274). -/
def initialHeader (k : Recon) : Header := ⟨k.initPath.length, []⟩

/-- `find_wildcard_specialization(header)` (cegar/CegarPdaFactory.h:324-334); `none` where the code has
`assert(false)`. -/
def findWildcard (k : Recon) (h : Header) : Option Nat :=
  let i := k.initPath.length - h.wild
  (k.map.concrete ((k.initStack[i]?).getD 0)).find? fun l => checkPath k.initNfa k.initPath l i

/-- The loop of `update_header_wildcard_pre` (cegar/CegarPdaFactory.h:314-320): the header and `pre_labels`. -/
def popMany (k : Recon) : Nat → Header → List Nat → Option (Header × List Nat)
  | 0, h, ls => some (h, ls)
  | n + 1, h, ls =>
    if h.topIsConcrete then popMany k n h.pop ls
    else (k.findWildcard h).bind fun l => popMany k n h.pop (ls ++ [l])

/-- `update_header_wildcard_pre(header, post, pops)` (cegar/CegarPdaFactory.h:311-323); `none` if no label is found for
a wildcard, where the code has `assert(false)`. -/
def updateWildcardPre (k : Recon) (h : Header) (post : List Nat) (pops : Nat) : Option (Header × List Nat) :=
  (k.popMany pops h []).map fun r => (r.1.append post, r.2)

/-- The test in `update_header` (cegar/CegarPdaFactory.h:288-290). -/
def preMatches (k : Recon) (h : Header) (pre : Nat) : Bool :=
  match h.conc.getLast? with
  | some l => l == pre
  | none => checkPath k.initNfa k.initPath pre (k.initPath.length - h.wild)

/-- `update_header(header, pre, post, additional_pops)` (cegar/CegarPdaFactory.h:285-298). The inner `none` is
`std::nullopt`; the outer one as in `updateWildcardPre`. -/
def updateHeader (k : Recon) (h : Header) (pre : Nat) (post : List Nat) (pops : Nat) : Option (Option (Header × List Nat)) :=
  if k.preMatches h pre then (k.updateWildcardPre h.pop post pops).map some else some none

/-- `pre_labels(header)` (cegar/CegarPdaFactory.h:337-344). -/
def preLabels (k : Recon) (h : Header) : List Nat :=
  match h.conc.getLast? with
  | some l => [l]
  | none =>
    if h.wild = 0 then []
    else
      let i := k.initPath.length - h.wild
      edgeLabels k.initNfa k.initPath (sortBy ltB (k.map.concrete ((k.initStack[i]?).getD 0))) i

/-- The loop over the labels in `concreterize_wildcards` (cegar/CegarPdaFactory.h:394-408) for the positions `i` and `j`:
the label found, `initial_ok_labels` and `final_ok_labels`. -/
def scanLabels (k : Recon) (i j : Nat) : List Nat → List Nat → List Nat → Option Nat × List Nat × List Nat
  | [], a, b => (none, a, b)
  | l :: ls, a, b =>
    let x := checkPath k.initNfa k.initPath l i
    let y := checkPath k.finNfa k.finPath l j
    if x && y then (some l, a, b)
    else scanLabels k i j ls (if x then a ++ [l] else a) (if y then b ++ [l] else b)

/-- `concreterize_wildcards(header)` (cegar/CegarPdaFactory.h:384-419) for `c` wildcards; `stack` is `concrete_stack`. -/
def concretize (k : Recon) : Nat → List Nat → Except (Refinement Nat) Header
  | 0, stack => .ok ⟨0, stack.reverse⟩
  | c + 1, stack =>
    let label := (k.initStack[k.initStack.length - (c + 1)]?).getD 0
    match k.scanLabels (k.initPath.length - (c + 1)) (k.finPath.length - (c + 1)) (k.map.concrete label) [] [] with
    | (some l, _, _) => concretize k c (stack ++ [l])
    | (none, a, b) => .error (Refinement.ofPair a b label)

/-- The loop over the concrete part in `finalize_header` (cegar/CegarPdaFactory.h:351-363): the labels from the top, and
`i`. -/
def checkConcrete (k : Recon) : List Nat → Nat → Option (Refinement Nat)
  | [], _ => none
  | l :: ls, i =>
    if checkPath k.finNfa k.finPath l i then checkConcrete k ls (i + 1)
    else
      let label := (k.finStack[i]?).getD 0
      some (Refinement.ofPair [l] (edgeLabels k.finNfa k.finPath (sortBy ltB (k.map.concrete label)) i) label)

/-- `finalize_header(header)` (cegar/CegarPdaFactory.h:348-369). -/
def finalizeHeader (k : Recon) (h : Header) : Except (Refinement Nat) Header :=
  match k.checkConcrete h.conc.reverse 0 with
  | some r => .error r
  | none =>
    match k.concretize h.wild [] with
    | .ok h' => .ok (h'.append h.conc)
    | .error r => .error r

end Recon

/-! ## The search for a concrete trace -/

/-- What the search in `reconstruct_trace` calls: `first` is `initial_concrete_rules(trace[0])`, `next i c` is
`search_concrete_rules(trace[i], c)`, `fin c` is `finalize_header(get_header(c))`, and `len` is `trace.size()`. The
ranges of configurations are lists. -/
structure Search (C : Type) where
  len : Nat
  first : List C
  next : Nat → C → List C
  fin : C → Except (Refinement Nat) Header

/-- The variables of the search (cegar/CegarPdaFactory.h:161-180). The back of `search_stack` is the head here; an
element has the configurations from `_it` to `_end`, and `_trace_id`. -/
structure SearchSt (C : Type) where
  stack : List (List C × Nat) := []
  maxDepth : Nat := 0
  deepest : List C := []
  info : HeaderRefinement Nat := []
  final : Option Header := none

/-- `header_refinement_info.combine(refinement)`, for a refinement with two parts. -/
def addInfo (info : HeaderRefinement Nat) (r : Refinement Nat) : HeaderRefinement Nat :=
  match r.parts with
  | [a, b] => info.combine r.id a b
  | _ => info

variable {C : Type}

/-- `pop_back()` and `++search_stack.back()` (cegar/CegarPdaFactory.h:195-198). -/
def backtrack : List (List C × Nat) → List (List C × Nat)
  | [] => []
  | (cs, i) :: rest => (cs.tail, i) :: rest

/-- Keep track of the configurations at the deepest level (cegar/CegarPdaFactory.h:203-211). -/
def seen (s : SearchSt C) (d : Nat) (c : C) : SearchSt C :=
  let s := if d > s.maxDepth then { s with deepest := [], maxDepth := d } else s
  if d = s.maxDepth then { s with deepest := s.deepest ++ [c] } else s

/-- The body of the loop (cegar/CegarPdaFactory.h:193-229); `none` is the end of the loop. -/
def searchStep (e : Search C) (s : SearchSt C) : Option (SearchSt C) :=
  if s.final.isSome then none
  else
    match s.stack with
    | [] => none
    | ([], _) :: rest => some { s with stack := backtrack rest }
    | (c :: cs, i) :: rest =>
      let s := seen s (i + 1) c
      if i + 1 < e.len then some { s with stack := (e.next (i + 1) c, i + 1) :: (c :: cs, i) :: rest }
      else
        match e.fin c with
        | .ok h => some { s with final := some h }
        | .error r => some { s with info := addInfo s.info r, stack := (cs, i) :: rest }

/-- The result of the search. -/
inductive Found (C : Type) where
  /-- A concrete trace with the final header (cegar/CegarPdaFactory.h:241-247). -/
  | trace (confs : List C) (header : Header)
  /-- `find_refinement(trace[depth], deepest)`, and `find_initial_refinement(trace[0])` if the depth is 0
  (cegar/CegarPdaFactory.h:232-239). -/
  | stuck (depth : Nat) (deepest : List C)
  /-- A refinement of the labels (cegar/CegarPdaFactory.h:249-250). -/
  | header (info : HeaderRefinement Nat)
  deriving DecidableEq

/-- The end of `reconstruct_trace` (cegar/CegarPdaFactory.h:231-257). -/
def SearchSt.result (e : Search C) (s : SearchSt C) : Found C :=
  if s.maxDepth < e.len then .stuck s.maxDepth s.deepest
  else
    match s.final with
    | some h => .trace (s.stack.reverse.filterMap fun x => x.1.head?) h
    | none => .header s.info

/-- The initialization of the search (cegar/CegarPdaFactory.h:180-191); `empty` is `finalize_header(initial_header())`. -/
def searchInit (e : Search C) (empty : Except (Refinement Nat) Header) : SearchSt C :=
  if e.len = 0 then
    match empty with
    | .ok h => { final := some h }
    | .error r => { info := addInfo [] r }
  else { stack := [(e.first, 0)] }

/-- The search in `reconstruct_trace` (cegar/CegarPdaFactory.h:160-257); `none` means that the fuel did not suffice. -/
def search (e : Search C) (empty : Except (Refinement Nat) Header) (fuel : Nat) : Option (Found C) :=
  (whileSome (searchStep e) fuel (searchInit e empty)).map fun s => s.result e

end Verif.Cegar
