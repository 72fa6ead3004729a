import Verif.Model.VectorSet
import Mathlib.Data.List.Basic

/-!
# utils: is_disjoint, priority_set, flags, fut_set
-/

namespace Verif

/-! ## `is_disjoint` (utils/more_algorithms.h:39-75) -/

/-- `is_disjoint(a, b, comp)` (utils/more_algorithms.h:58-75). `ab x y` is `comp(x, y)` for `x` of the
first and `y` of the second vector, `ba y x` is `comp(y, x)`. The iterators are the remaining parts of
the vectors; `std::lower_bound(++it_a, a.end(), *it_b)` drops the elements before the bound.
`is_disjoint(a, b)` (39-56) is the case where both are `<`. -/
def isDisjoint {α β : Type} (ab : α → β → Bool) (ba : β → α → Bool) : List α → List β → Bool
  | [], _ => true
  | _ :: _, [] => true
  | x :: as, y :: bs =>
    if ab x y then isDisjoint ab ba (as.drop (lowerBound ab as y)) (y :: bs)
    else if ba y x then isDisjoint ab ba (x :: as) (bs.drop (lowerBound ba bs x))
    else false
termination_by as bs => as.length + bs.length
decreasing_by
  · simp only [List.length_cons, List.length_drop]; omega
  · simp only [List.length_cons, List.length_drop]; omega

/-! ## `priority_set` (utils/more_algorithms.h:94-132) -/

/-- A `priority_set`: the vector under the `std::priority_queue`, whose first element is the top, and
the set of elements popped so far. -/
structure PSet (W E : Type) where
  queue : List (W × E)
  seen : List E

namespace PSet

variable {W E : Type}

/-- The order of the elements behind the top is left open, and so is the choice among several elements
of best weight: `q` is a heap of the elements `l` if it has the same elements and nothing compares
greater than its first element (`std::push_heap`/`std::pop_heap` with `CompFirst`, 77-84). -/
def Heap (lt : W → W → Bool) (l q : List (W × E)) : Prop :=
  q.Perm l ∧ ∀ x y, q.head? = some x → y ∈ q → lt x.1 y.1 = false

/-- `emplace` (103-109). `std::push_heap` lets the new element rise over smaller elements only, so the
top changes only if it compares less than the new element. -/
def Emplace (lt : W → W → Bool) (w : W) (e : E) (s s' : PSet W E) : Prop :=
  Heap lt ((w, e) :: s.queue) s'.queue ∧ s'.seen = s.seen ∧
    s'.queue.head? = match s.queue with
      | [] => some (w, e)
      | x :: _ => if lt x.1 w then some (w, e) else some x

/-- The loop at the end of `pop` (114-116): remove the top while it has been seen. -/
inductive Drain (lt : W → W → Bool) (seen : List E) : List (W × E) → List (W × E) → Prop where
  | nil : Drain lt seen [] []
  | stop {x q} : x.2 ∉ seen → Drain lt seen (x :: q) (x :: q)
  | next {x q q' r} : x.2 ∈ seen → Heap lt q q' → Drain lt seen q' r → Drain lt seen (x :: q) r

/-- `pop` (110-117) of a queue whose top is `x`; popping an empty queue is undefined. -/
def Pop (lt : W → W → Bool) (x : W × E) (s s' : PSet W E) : Prop :=
  ∃ q q', s.queue = x :: q ∧ Heap lt q q' ∧ s'.seen = x.2 :: s.seen ∧
    Drain lt s'.seen q' s'.queue

end PSet

/-! ## Flags (utils/flags.h:37-119)

`flag_t` is a bit vector of `w` bits; the code takes the least `w` in 8, 16, 32, 64 with `N ≤ w` (39-41). -/

/-- The width of `flag_t` (utils/flags.h:39-41). -/
def flagWidth (N : Nat) : Nat := if N ≤ 8 then 8 else if N ≤ 16 then 16 else if N ≤ 32 then 32 else 64

namespace Flags

variable {w : Nat}

/-- `remove` (43). -/
def remove (mask flag : BitVec w) : BitVec w := mask &&& ~~~flag
/-- `contains` (44-45). -/
def contains (mask flag : BitVec w) : Bool := mask &&& flag == flag
/-- `is_single_flag` (46). -/
def isSingle (x : BitVec w) : Bool := x != 0#w && (x &&& (x - 1#w)) == 0#w
/-- `flag(i)` and `flag<I>()` (48-56, 70-73). -/
def flag (i : Nat) : BitVec w := if i = 0 then 0#w else 1#w <<< (i - 1)
/-- `fill(n)` (74-82). -/
def fill (N n : Nat) : BitVec w :=
  if n = 0 then 0#w
  else if n = N then (1#w <<< (n - 1)) ||| (1#w <<< (n - 1) - 1#w)
  else 1#w <<< n - 1#w
/-- `fill<I>()` (58-68). -/
def fillT (N n : Nat) : BitVec w :=
  if n = 0 then flag 0
  else if n = N then flag n ||| (if n - 1 = 0 then flag 0 else 1#w <<< (n - 1) - 1#w)
  else 1#w <<< n - 1#w
/-- `split_to_single_flags` (83-92). -/
def split (N : Nat) (mask : BitVec w) : List (BitVec w) :=
  (List.range N).filterMap fun i => if contains mask (1#w <<< i) then some (1#w <<< i) else none

/-- `got_flag` (105-107). -/
def gotFlag (mask value : BitVec w) : BitVec w := remove mask value
/-- `needs_flag` (108-110). -/
def needsFlag (mask value : BitVec w) : Bool := contains mask value
/-- `has_missing_flags` (111-113). -/
def hasMissing (mask : BitVec w) : Bool := mask != flag 0
/-- `get_missing_flags` (114-116). -/
def missing (N : Nat) (mask : BitVec w) : List (BitVec w) := split N mask

end Flags

/-! ## `fut_set` (utils/fut_set.h:36-163) -/

/-- `fut::type` (utils/fut_set.h:36-39). -/
inductive Kind where
  | hash
  | vector
  deriving DecidableEq

/-- `std::unordered_map` as a list of entries in some order (a new entry goes to the end; no operation
here depends on the order), and `vector_map` as a sorted list; `map_container` (47-48). -/
abbrev CMap (K V : Type) := List (K × V)

namespace CMap

variable {K V : Type} [DecidableEq K]

/-- `find` and dereference. -/
def find (lt : K → K → Bool) : Kind → CMap K V → K → Option V
  | .hash, m, k => (List.find? (fun e => e.1 == k) m).map (·.2)
  | .vector, m, k => VMap.find lt m k

/-- `try_emplace(key, v)`, or `emplace(key, v)`: the container and whether an entry was created. -/
def tryEmplace (lt : K → K → Bool) : Kind → CMap K V → K → V → CMap K V × Bool
  | .hash, m, k, v => if m.any (fun e => e.1 == k) then (m, false) else (m ++ [(k, v)], true)
  | .vector, m, k, v => ((VMap.emplace lt m k v).1, (VMap.emplace lt m k v).2.2)

/-- `insert_or_assign`. -/
def insertOrAssign (lt : K → K → Bool) : Kind → CMap K V → K → V → CMap K V × Bool
  | .hash, m, k, v =>
    if m.any (fun e => e.1 == k) then (m.map fun e => if e.1 = k then (e.1, v) else e, false)
    else (m ++ [(k, v)], true)
  | .vector, m, k, v => ((VMap.insertOrAssign lt m k v).1, (VMap.insertOrAssign lt m k v).2.2)

/-- Writing through the iterator `find(key)`. -/
def update (m : CMap K V) (k : K) (f : V → V) : CMap K V :=
  m.map fun e => if e.1 = k then (e.1, f e.2) else e

end CMap

/-- `fut_set<std::tuple<K, .., K, V>, C..>`: `kinds` are the container kinds after the first. The keys
of all levels have one type here. The base case without a value (a set, 145-155) is `V = Unit`. -/
def Fut (K V : Type) : List Kind → Type
  | [] => CMap K V
  | _ :: cs => CMap K (Fut K V cs)

namespace Fut

variable {K V : Type} [DecidableEq K]

/-- The default constructor. -/
def empty : (cs : List Kind) → Fut K V cs
  | [] => ([] : CMap K V)
  | _ :: cs => ([] : CMap K (Fut K V cs))

/-- `emplace` (78-86; base: the container's): `assign = false`; `insert_or_assign` (87-94):
`assign = true`. `c` is the kind of the outermost container. The remaining keys are those of the inner
levels; `try_emplace(head)` creates an empty inner container first. -/
def put (lt : K → K → Bool) (assign : Bool) :
    (c : Kind) → (cs : List Kind) → Fut K V cs → K → List K → V → Fut K V cs × Bool
  | c, [], m, k, _, v =>
    if assign then CMap.insertOrAssign lt c m k v else CMap.tryEmplace lt c m k v
  | _, _ :: _, m, _, [], _ => (m, false)
  | c, c' :: cs, m, k, k' :: ks, v =>
    let m1 : CMap K (Fut K V cs) := (CMap.tryEmplace lt c m k (empty cs)).1
    match CMap.find lt c m1 k with
    | none => (m1, false)
    | some inner =>
      let r := put lt assign c' cs inner k' ks v
      (CMap.update m1 k (fun _ => r.1), r.2)

/-- `get` (102-111, 135-142); `none` is the null pointer. -/
def get (lt : K → K → Bool) : (c : Kind) → (cs : List Kind) → Fut K V cs → K → List K → Option V
  | c, [], m, k, _ => CMap.find lt c m k
  | _, _ :: _, _, _, [] => none
  | c, c' :: cs, m, k, k' :: ks =>
    match CMap.find lt c (m : CMap K (Fut K V cs)) k with
    | none => none
    | some inner => get lt c' cs inner k' ks

/-- `contains` (96-100; base: the container's). -/
def contains (lt : K → K → Bool) : (c : Kind) → (cs : List Kind) → Fut K V cs → K → List K → Bool
  | c, [], m, k, _ =>
    match c with
    | .hash => List.any (α := K × V) m (fun e => e.1 == k)
    | .vector => VMap.contains lt m k
  | _, _ :: _, _, _, [] => false
  | c, c' :: cs, m, k, k' :: ks =>
    match CMap.find lt c (m : CMap K (Fut K V cs)) k with
    | none => false
    | some inner => contains lt c' cs inner k' ks

end Fut

end Verif
