import Verif.Spec.Pds

/-!
# utils/vector_set.h: sorted-vector maps and sets

A `std::vector` kept sorted is modelled by a list. `std::lower_bound` on a sorted range returns the
first position whose element is not less than the key; it is modelled by `lowerBound`, a linear scan
for that position (the two agree on every range partitioned by `· < key`, which is the precondition
of `std::lower_bound`).
-/

namespace Verif

/-- `std::lower_bound(begin, end, key)` as an index. -/
def lowerBound {α β : Type} (lt : α → β → Bool) : List α → β → Nat
  | [], _ => 0
  | a :: l, k => if lt a k then lowerBound lt l k + 1 else 0

/-- `vector_map<Key,Value>` (utils/vector_set.h:38-161). -/
abbrev VMap (K V : Type) := List (K × V)

namespace VMap

variable {K V : Type} [DecidableEq K]

/-- `lower_bound` of a key (utils/vector_set.h:155-157; elements compare by key only, 50-58). -/
def lb (lt : K → K → Bool) (m : VMap K V) (k : K) : Nat :=
  lowerBound (fun (e : K × V) (k : K) => lt e.1 k) m k

/-- `emplace`/`try_emplace` (utils/vector_set.h:85-105): new vector, index of the element, fresh flag. -/
def emplace (lt : K → K → Bool) (m : VMap K V) (k : K) (v : V) : VMap K V × Nat × Bool :=
  let i := m.lb lt k
  match m[i]? with
  | none => (m.insertIdx i (k, v), i, true)
  | some e => if e.1 ≠ k then (m.insertIdx i (k, v), i, true) else (m, i, false)

/-- `insert_or_assign` (utils/vector_set.h:107-126). -/
def insertOrAssign (lt : K → K → Bool) (m : VMap K V) (k : K) (v : V) : VMap K V × Nat × Bool :=
  let i := m.lb lt k
  match m[i]? with
  | none => (m.insertIdx i (k, v), i, true)
  | some e =>
    if e.1 ≠ k then (m.insertIdx i (k, v), i, true)
    else (m.modify i (fun e => (e.1, v)), i, false)

/-- `contains` (utils/vector_set.h:128-131). -/
def contains (lt : K → K → Bool) (m : VMap K V) (k : K) : Bool :=
  match m[m.lb lt k]? with
  | none => false
  | some e => e.1 == k

/-- `find` followed by a dereference (utils/vector_set.h:133-146); `none` is `end()`. -/
def find (lt : K → K → Bool) (m : VMap K V) (k : K) : Option V :=
  match m[m.lb lt k]? with
  | none => none
  | some e => if e.1 ≠ k then none else some e.2

end VMap

/-- `vector_set<Key>` (utils/vector_set.h:163-234). -/
abbrev VSet (K : Type) := List K

namespace VSet

variable {K : Type} [DecidableEq K]

/-- `emplace` (utils/vector_set.h:190-199). -/
def emplace (lt : K → K → Bool) (m : VSet K) (k : K) : VSet K × Bool :=
  let i := lowerBound lt m k
  match m[i]? with
  | none => (m.insertIdx i k, true)
  | some e => if e ≠ k then (m.insertIdx i k, true) else (m, false)

/-- `contains` (utils/vector_set.h:201-204); `find` (206-219) succeeds in the same cases. -/
def contains (lt : K → K → Bool) (m : VSet K) (k : K) : Bool :=
  match m[lowerBound lt m k]? with
  | none => false
  | some e => e == k

end VSet

/-- `<` on unsigned machine integers as a Boolean. -/
def natLt (a b : Nat) : Bool := decide (a < b)

/-- `std::set_union` on two ranges (used by `labels_t::merge`, internal/PDA.cpp:46-48). -/
def setUnion : List Nat → List Nat → List Nat
  | [], bs => bs
  | a :: as, [] => a :: as
  | a :: as, b :: bs =>
    if a < b then a :: setUnion as (b :: bs)
    else if b < a then b :: setUnion (a :: as) bs
    else a :: setUnion as bs
termination_by as bs => as.length + bs.length

/-- `std::set_intersection` on two ranges. -/
def setInter : List Nat → List Nat → List Nat
  | [], _ => []
  | _ :: _, [] => []
  | a :: as, b :: bs =>
    if a < b then setInter as (b :: bs)
    else if b < a then setInter (a :: as) bs
    else a :: setInter as bs
termination_by as bs => as.length + bs.length

/-- `std::set_difference` on two ranges. -/
def setDiff : List Nat → List Nat → List Nat
  | [], _ => []
  | a :: as, [] => a :: as
  | a :: as, b :: bs =>
    if a < b then a :: setDiff as (b :: bs)
    else if b < a then setDiff (a :: as) bs
    else setDiff as bs
termination_by as bs => as.length + bs.length

end Verif
