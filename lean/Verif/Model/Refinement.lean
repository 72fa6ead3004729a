import Verif.Model.Algorithms
import Verif.Model.Utils
import Mathlib.Data.Nat.Basic

/-!
# cegar/Refinement.h

`T`, `A`, `B` are types with a linear order (`operator<`) and equality. Vectors are lists. Asserted
preconditions are hypotheses of the theorems.
-/

namespace Verif

/-- `Refinement<T>` (cegar/Refinement.h:41-46). -/
structure Refinement (α : Type) where
  id : Nat
  parts : List (List α)
  deriving DecidableEq, Repr

namespace Refinement

variable {α : Type} [LinearOrder α]

/-- The constructor from two vectors (cegar/Refinement.h:48-57). -/
def ofPair (first second : List α) (id : Nat) : Refinement α :=
  { id, parts := [sortBy ltB first, sortBy ltB second] }

/-- The variables of `combine`: `_partitions`, `already_in_partitions` and `ok_partition_id`
(`none` is `numeric_limits<size_t>::max()`). -/
structure Comb (α : Type) where
  parts : List (List α)
  al0 : List α := []
  al1 : List α := []
  ok0 : Option Nat := none
  ok1 : Option Nat := none

/-- `ok_partition_id` after looking at partition `i` (cegar/Refinement.h:87-98), first for
`other_i = 0` and then for `other_i = 1`. `e0`, `e1`: the intersection is empty. -/
def okUpdate (i : Nat) (e0 e1 : Bool) (ok0 ok1 : Option Nat) : Option Nat × Option Nat :=
  let ok1' := if e0 && ok1.isNone && decide (ok0 ≠ some i) then some i else ok1
  let ok0' := if e1 && ok0.isNone && decide (ok1' ≠ some i) then some i else ok0
  (ok0', ok1')

/-- One iteration of the loop over the partitions (cegar/Refinement.h:82-125). -/
def combStep (o0 o1 : List α) (s : Comb α) (i : Nat) : Comb α :=
  let part := (s.parts[i]?).getD []
  let i0 := interG part o0
  let i1 := interG part o1
  let ok := okUpdate i i0.isEmpty i1.isEmpty s.ok0 s.ok1
  let al0 := s.al0 ++ i0
  let al1 := s.al1 ++ i1
  if i0.isEmpty || i1.isEmpty then { parts := s.parts, al0, al1, ok0 := ok.1, ok1 := ok.2 }
  else
    let move0 := decide (i0.length < i1.length)
    let moved := if move0 then i0 else i1
    let n := s.parts.length
    { parts := (s.parts ++ [moved]).set i (diffG part moved), al0, al1,
      ok0 := ok.1.map fun _ => if move0 then n else i,
      ok1 := ok.2.map fun _ => if move0 then i else n }

/-- Insert what is left of one of the other partitions (cegar/Refinement.h:127-151). -/
def combInsert (parts : List (List α)) (o al : List α) (ok : Option Nat) : List (List α) :=
  if al.length = o.length then parts
  else
    let rest := diffG o (sortBy ltB al)
    match ok with
    | some k => parts.set k (mergeBy ltB ((parts[k]?).getD []) rest)
    | none => parts ++ [rest]

/-- `combine(other)` (cegar/Refinement.h:59-160). The case `other._partitions.size() ≠ 2`, excluded by an
assertion, is left out: the argument is the pair of its partitions. -/
def combine (r : Refinement α) (o0 o1 : List α) : Refinement α :=
  if r.parts.isEmpty then { r with parts := [o0, o1] }
  else
    let s := (List.range r.parts.length).foldl (combStep o0 o1) { parts := r.parts }
    { r with parts := combInsert (combInsert s.parts o0 s.al0 s.ok0) o1 s.al1 s.ok1 }

end Refinement

/-- `HeaderRefinement<label_t>` (cegar/Refinement.h:175-178). -/
abbrev HeaderRefinement (α : Type) := List (Refinement α)

/-- `HeaderRefinement::combine` (cegar/Refinement.h:179-187): `find_if` the first refinement with the id. -/
def HeaderRefinement.combine {α : Type} [LinearOrder α] (id : Nat) (o0 o1 : List α) :
    HeaderRefinement α → HeaderRefinement α
  | [] => [{ id, parts := [o0, o1] }]
  | r :: rs =>
    if r.id = id then r.combine o0 o1 :: rs else r :: HeaderRefinement.combine id o0 o1 rs

/-! ## Pair refinement -/

section
variable {A B U T : Type} [LinearOrder A] [LinearOrder B] [LinearOrder U]

/-- `std::pair::operator<`. -/
def pairLt (x y : A × B) : Bool := decide (x.1 < y.1) || (!decide (y.1 < x.1) && decide (x.2 < y.2))

/-- `if (v.empty() || v.back() != x) v.emplace_back(x)`. -/
def pushNew {T : Type} [DecidableEq T] (v : List T) (x : T) : List T :=
  if v.getLast? = some x then v else v ++ [x]

/-- `BmatchA` (cegar/Refinement.h:200-211). -/
def bMatchA (input : List (A × B)) (a : A) : List B :=
  ((input.dropWhile fun x => decide (x.1 < a)).takeWhile fun x => !decide (a < x.1)).foldl
    (fun v x => pushNew v x.2) []

/-- The loop over `set` in `AmatchB_bucket` (cegar/Refinement.h:227-233). `none`: the end of the vector is
dereferenced (asserted not to happen). -/
def bucketLookup : List A → List (A × Nat) → Option (List Nat)
  | [], _ => some []
  | a :: as, m =>
    match m.dropWhile fun x => decide (x.1 < a) with
    | [] => none
    | x :: m' => (bucketLookup as m').map (x.2 :: ·)

/-- `AmatchB_bucket` (cegar/Refinement.h:213-237). -/
def aMatchB (input : List (A × B)) (b : B) (m : List (A × Nat)) : Option (List Nat) :=
  let set := input.foldl (fun v x => if x.2 = b then pushNew v x.1 else v) []
  (bucketLookup set m).map fun l => uniqueBy (fun x y => decide (x = y)) (sortBy ltB l)

/-- One bucket: `refinement.partitions()[i]`, `Z_X[i]` and `Z_Y[i]`. The three vectors of the code have the
same length (asserted at cegar/Refinement.h:245) and are kept in one list here. -/
structure Bucket (T U : Type) where
  elems : List T
  zx : List U
  zy : List U

/-- `assign_to_bucket` (cegar/Refinement.h:237-273): the buckets afterwards and `bucket_i`. -/
def assignBucket (xs ys : List U) (e : T) : List (Bucket T U) → List (Bucket T U) × Nat
  | [] => ([{ elems := [e], zx := xs, zy := ys }], 0)
  | b :: bs =>
    if isDisjoint ltB ltB b.zy xs && isDisjoint ltB ltB b.zx ys then
      ({ elems := b.elems ++ [e], zx := unionG b.zx xs, zy := unionG b.zy ys } :: bs, 0)
    else
      let r := assignBucket xs ys e bs
      (b :: r.1, r.2 + 1)

/-- The loop over `As` (cegar/Refinement.h:313-316): the buckets, and the elements with their buckets. -/
def assignA (X Y : List (A × B)) (s : List (Bucket A B) × List (A × Nat)) (a : A) :
    List (Bucket A B) × List (A × Nat) :=
  let r := assignBucket (bMatchA X a) (bMatchA Y a) a s.1
  (r.1, s.2 ++ [(a, r.2)])

/-- The loop over `Bs` (cegar/Refinement.h:323-325). -/
def assignB (X Y : List (A × B)) (m : List (A × Nat)) (s : Option (List (Bucket B Nat))) (b : B) :
    Option (List (Bucket B Nat)) :=
  s.bind fun s =>
  (aMatchB X b m).bind fun xs =>
  (aMatchB Y b m).map fun ys => (assignBucket xs ys b s).1

/-- The vector `As` (cegar/Refinement.h:290-304), without the bucket numbers that are filled in later. -/
def collectAs (X Y : List (A × B)) : List A :=
  let as1 := X.foldl (fun v x => pushNew v x.1) []
  let as2 := Y.foldl (fun v x => pushNew v x.1) as1
  uniqueBy (fun a b => decide (a = b)) (mergeBy ltB (as2.take as1.length) (as2.drop as1.length))

/-- `make_pair_refinement` (cegar/Refinement.h:276-338): the partitions for `A` and for `B`. `Bs` is the
content of the unordered set of the same name in the order of its iteration; the theorems hold for
every order. -/
def makePairRefinement (X0 Y0 : List (A × B)) (wild : List A) (Bs : List B) :
    Option (List (List A) × List (List B)) :=
  let X := sortBy pairLt X0
  let Y := sortBy pairLt Y0
  let r := (collectAs X Y).foldl (assignA X Y) ([{ elems := [], zx := [], zy := [] }], [])
  (Bs.foldl (assignB X Y r.2) (some [{ elems := [], zx := [], zy := [] }])).map fun bs =>
    (r.1.map Bucket.elems ++ (if wild.isEmpty then [] else [wild]), bs.map Bucket.elems)

/-- `make_simple_pair_refinement` (cegar/Refinement.h:341-377). `none`: the first element of an empty vector
is read (asserted not to happen). -/
def makeSimplePairRefinement (X Y : List (A × B)) (wild : List A) :
    Option (List (List A) × List (List B)) :=
  match X, wild, Y with
  | [], _, _ => none
  | x :: _, ya :: _, _ => some ([[x.1], [ya]], [])
  | _ :: _, [], [] => none
  | x :: _, [], y :: _ =>
    some (if x.1 ≠ y.1 then [[x.1], [y.1]] else [], if x.2 ≠ y.2 then [[x.2], [y.2]] else [])

end

end Verif
