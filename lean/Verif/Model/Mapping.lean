import Verif.Model.Refinement

/-!
# cegar/AbstractionMapping.h and the label mapping of cegar/AbstractionPDA.h

A `ptrie_map`/`ptrie_set` gives each new key the next number; it is modelled by the list of its keys (the
number of a key is its position) and, for a map, the list of the data (see C39 for the key encoding).
`none` as a result: the code reads an entry that does not exist, which its assertions exclude.
-/

namespace Verif

variable {α β : Type} [DecidableEq α] [DecidableEq β]

/-- `RefinementMapping` (cegar/AbstractionMapping.h:44-152): `keys` and `data` are `_many_to_one_map`,
`classes` is `_one_to_many_ids`. -/
structure RMap (α : Type) where
  keys : List α := []
  data : List Nat := []
  classes : List (List Nat) := []
  deriving DecidableEq, Repr

namespace RMap

/-- `_many_to_one_map.exists(key)`: the number of the key. -/
def keyId (m : RMap α) (x : α) : Option Nat := if x ∈ m.keys then some (m.keys.idxOf x) else none

/-- `exists(key)` (cegar/AbstractionMapping.h:86-89): the abstract id, if the key exists. -/
def find (m : RMap α) (x : α) : Option Nat := (m.keyId x).map fun k => (m.data[k]?).getD 0

/-- `maps_to` (cegar/AbstractionMapping.h:91-94). -/
def mapsTo (m : RMap α) (x : α) (id : Nat) : Bool := decide (m.find x = some id)

/-- `size()` (cegar/AbstractionMapping.h:145-147). -/
def size (m : RMap α) : Nat := m.classes.length

/-- `get_concrete_values` (cegar/AbstractionMapping.h:109-118). -/
def concrete (m : RMap α) (c : Nat) : List α := ((m.classes[c]?).getD []).filterMap fun k => m.keys[k]?

/-- `encode_many` (cegar/AbstractionMapping.h:96-106): the unordered set of the ids, sorted. `none`: a value
is not in the map. -/
def encodeMany (m : RMap α) (xs : List α) : Option (List Nat) :=
  (xs.mapM m.find).map fun ids => uniqueBy (fun x y => decide (x = y)) (sortBy ltB ids)

/-- One iteration of the loop over a partition (cegar/AbstractionMapping.h:68-73). -/
def moveValue (newId : Nat) (s : RMap α × List Nat) (x : α) : Option (RMap α × List Nat) :=
  (s.1.keyId x).map fun k =>
    ({ s.1 with data := s.1.data.set k newId,
                classes := s.1.classes.modify newId (· ++ [k]) }, s.2 ++ [k])

/-- The body of the loop over the partitions, for a partition that moves (cegar/AbstractionMapping.h:64-73). -/
def movePart (s : RMap α × List Nat) (p : List α) : Option (RMap α × List Nat) :=
  let newId := s.1.classes.length
  p.foldlM (moveValue newId) ({ s.1 with classes := s.1.classes ++ [[]] }, s.2)

/-- One iteration of the loop over the partitions (cegar/AbstractionMapping.h:60-74). -/
def refineStep (mx : Nat) (s : RMap α × List Nat) (p : List α × Nat) : Option (RMap α × List Nat) :=
  if p.2 = mx then some s else movePart s p.1

/-- `std::max_element` by size: the position of the first largest. -/
def maxIdx : List (List α) → Nat
  | [] => 0
  | p :: ps =>
    let j := maxIdx ps
    match ps[j]? with
    | some q => if p.length < q.length then j + 1 else 0
    | none => 0

/-- `refine` (cegar/AbstractionMapping.h:54-84). -/
def refine (m : RMap α) (r : Refinement α) : Option (RMap α) :=
  if r.parts.length ≤ 1 then some m
  else
    (r.parts.zipIdx.foldlM (refineStep (maxIdx r.parts)) (m, [])).bind fun s =>
    (s.1.classes[r.id]?).map fun cls =>
      { s.1 with classes := s.1.classes.set r.id (diffG (sortBy ltB cls) (sortBy ltB s.2)) }

/-- `AbstractionPDA::refine(HeaderRefinement)` (cegar/AbstractionPDA.h:86-90). -/
def refineHeader (m : RMap α) (h : HeaderRefinement α) : Option (RMap α) := h.foldlM refine m

/-- `encode_labels` (cegar/AbstractionPDA.h:60-72), without the cast of the result to 32 bits. -/
def encodeLabels [LinearOrder α] (m : RMap α) (labels : List α) (negated : Bool) : Option (List Nat) :=
  (m.encodeMany labels).map fun ids =>
    if negated then ids.filter fun c => !includesG labels (sortBy ltB (m.concrete c)) else ids

end RMap

/-- `AbstractionMapping` (cegar/AbstractionMapping.h:157-237): `abs` is `_abstract_values`. The function
`_map_fn` is an argument of the operations. -/
structure AMap (α β : Type) where
  map : RMap α := {}
  abs : List β := []

namespace AMap

/-- `_one_to_many_ids.resize(value_id + 1)` if needed (cegar/AbstractionMapping.h:187-189, 199-201). -/
def grow (cs : List (List Nat)) (v : Nat) : List (List Nat) :=
  if cs.length ≤ v then cs ++ List.replicate (v + 1 - cs.length) [] else cs

/-- `ptrie_set::insert`: whether it is new, the number, and the set afterwards. -/
def setInsert (l : List β) (v : β) : Bool × Nat × List β :=
  if v ∈ l then (false, l.idxOf v, l) else (true, l.length, l ++ [v])

/-- `insert(key, ignore_concrete)` (cegar/AbstractionMapping.h:179-195). -/
def insert (fn : α → β) (m : AMap α β) (x : α) (ignore : Bool) : AMap α β × (Bool × Nat) :=
  if !ignore && decide (x ∈ m.map.keys) then (m, (false, (m.map.find x).getD 0))
  else
    let r := setInsert m.abs (fn x)
    let classes := grow m.map.classes r.2.1
    if ignore then ({ map := { m.map with classes }, abs := r.2.2 }, (r.1, r.2.1))
    else
      ({ map := { keys := m.map.keys ++ [x], data := m.map.data ++ [r.2.1],
                  classes := classes.modify r.2.1 (· ++ [m.map.keys.length]) }, abs := r.2.2 }, (r.1, r.2.1))

/-- `insert_abstract` (cegar/AbstractionMapping.h:197-203). -/
def insertAbstract (m : AMap α β) (v : β) : AMap α β × (Bool × Nat) :=
  let r := setInsert m.abs v
  ({ map := { m.map with classes := grow m.map.classes r.2.1 }, abs := r.2.2 }, (r.1, r.2.1))

/-- `exists(key, ignore_concrete)` (cegar/AbstractionMapping.h:205-211). -/
def find (fn : α → β) (m : AMap α β) (x : α) (ignore : Bool) : Option Nat :=
  if !ignore && !decide (x ∈ m.map.keys) then none
  else if fn x ∈ m.abs then some (m.abs.idxOf (fn x)) else none

/-- `get_concrete_values(abstract_value)` (cegar/AbstractionMapping.h:225-228). -/
def concrete (m : AMap α β) (v : β) : List α :=
  m.map.concrete (if v ∈ m.abs then m.abs.idxOf v else m.map.classes.length)

/-- `get_abstract_value(id)` (cegar/AbstractionMapping.h:216-218). -/
def abstractValue (m : AMap α β) (c : Nat) : Option β := m.abs[c]?

end AMap

end Verif
