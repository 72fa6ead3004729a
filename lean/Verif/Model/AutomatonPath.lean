import Verif.Model.PAutomaton

/-!
# AutomatonPath.h: paths of an automaton

`_edges` is a vector used as a stack, with the front of the path at the back of the vector. The model
keeps the reversed vector: the head of the list is the back of the vector.
-/

namespace Verif

/-- `AutomatonPath` (AutomatonPath.h:39-44); `S` is `size_t` or a pair. -/
structure APath (S : Type) where
  fin : S
  edges : List (Nat × S) := []
  deriving DecidableEq, Repr

namespace APath

variable {S : Type}

/-- `AutomatonPath(path, stack)` (AutomatonPath.h:61-69): walks path and stack backwards. `none` where
the C++ code reads `back()` of an empty vector or runs past the beginning of `path`. -/
def mk? (path : List S) (stack : List Nat) : Option (APath S) :=
  match path.reverse with
  | [] => none
  | e :: rpath =>
    if rpath.length < stack.length then none
    else some
      { fin := e, edges := (stack.reverse.zip rpath).foldl (fun es x => (x.1, x.2) :: es) [] }

/-- `empty()` (AutomatonPath.h:78-80). -/
def isEmpty (p : APath S) : Bool := p.edges.isEmpty

/-- `edges_size()` (AutomatonPath.h:81-83). -/
def edgesSize (p : APath S) : Nat := p.edges.length

/-- `front_state()` (AutomatonPath.h:84-86). -/
def frontState (p : APath S) : S :=
  match p.edges with
  | [] => p.fin
  | x :: _ => x.2

/-- `front_edge()` (AutomatonPath.h:87-90), `none` on the empty path, where the assertion fails. -/
def frontEdge (p : APath S) : Option (S × Nat × S) :=
  match p.edges with
  | [] => none
  | [x] => some (x.2, x.1, p.fin)
  | x :: y :: _ => some (x.2, x.1, y.2)

/-- `pop()` (AutomatonPath.h:91-94). -/
def pop (p : APath S) : APath S := { p with edges := p.edges.tail }

/-- `emplace(from, label)` (AutomatonPath.h:95-98). -/
def emplace (p : APath S) (src : S) (label : Nat) : APath S := { p with edges := (label, src) :: p.edges }

/-- `stack()` (AutomatonPath.h:99-106). -/
def stack (p : APath S) : List Nat := p.edges.foldl (fun st x => st ++ [x.1]) []

/-- `get_path_and_stack()` (AutomatonPath.h:107-120): epsilon edges are skipped. -/
def pathAndStack (p : APath S) : List S × List Nat :=
  let r := p.edges.foldl (fun (r : List S × List Nat) x =>
    if x.1 ≠ epsilon then (r.1 ++ [x.2], r.2 ++ [x.1]) else r) ([], [])
  (r.1 ++ [p.fin], r.2)

/-- `split()` for paths of pairs (AutomatonPath.h:122-135). -/
def split (p : APath (Nat × Nat)) : APath Nat × APath Nat :=
  p.edges.reverse.foldl (fun r x => (r.1.emplace x.2.1 x.1, r.2.emplace x.2.2 x.1))
    (⟨p.fin.1, []⟩, ⟨p.fin.2, []⟩)

/-- `remove_epsilon()` (AutomatonPath.h:136-141). -/
def removeEpsilon (p : APath S) : APath S :=
  match p.frontEdge with
  | some (_, l, _) => if l = epsilon then p.pop else p
  | none => p

/-- `AutomatonPath()` (AutomatonPath.h:46-52). -/
def null : APath Nat := ⟨sizeMax, []⟩

/-- `is_null()` (AutomatonPath.h:71-77). -/
def isNull (p : APath Nat) : Bool := p.fin == sizeMax

end APath

end Verif
