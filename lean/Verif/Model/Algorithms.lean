import Mathlib.Order.Defs.LinearOrder

/-!
# Standard algorithms on sorted ranges

Models of `<algorithm>` functions used by the CEGAR code. `lt` is the comparison object. Where the standard
leaves the order of equivalent elements open (`std::sort`) the functions below fix one; they are only used
on elements where equivalent means equal.
-/

namespace Verif

variable {α : Type}

/-- Insert before the first element that is not smaller. -/
def insertBy (lt : α → α → Bool) (x : α) : List α → List α
  | [] => [x]
  | y :: ys => if lt y x then y :: insertBy lt x ys else x :: y :: ys

/-- `std::sort(first, last, comp)`. -/
def sortBy (lt : α → α → Bool) : List α → List α
  | [] => []
  | x :: xs => insertBy lt x (sortBy lt xs)

/-- `std::inplace_merge` (and `std::merge`) of two sorted ranges: stable. -/
def mergeBy (lt : α → α → Bool) : List α → List α → List α
  | [], bs => bs
  | a :: as, [] => a :: as
  | a :: as, b :: bs =>
    if lt b a then b :: mergeBy lt (a :: as) bs else a :: mergeBy lt as (b :: bs)
termination_by as bs => as.length + bs.length

/-- `std::unique` followed by `erase`: of consecutive equal elements the first stays. -/
def uniqueBy (eq : α → α → Bool) : List α → List α
  | [] => []
  | [a] => [a]
  | a :: b :: l => if eq a b then uniqueBy eq (a :: l) else a :: uniqueBy eq (b :: l)
termination_by l => l.length

variable [LinearOrder α]

/-- `<` as a comparison object. -/
def ltB (a b : α) : Bool := decide (a < b)

/-- `std::set_union`. -/
def unionG : List α → List α → List α
  | [], bs => bs
  | a :: as, [] => a :: as
  | a :: as, b :: bs =>
    if a < b then a :: unionG as (b :: bs)
    else if b < a then b :: unionG (a :: as) bs
    else a :: unionG as bs
termination_by as bs => as.length + bs.length

/-- `std::set_intersection`. -/
def interG : List α → List α → List α
  | [], _ => []
  | _ :: _, [] => []
  | a :: as, b :: bs =>
    if a < b then interG as (b :: bs)
    else if b < a then interG (a :: as) bs
    else a :: interG as bs
termination_by as bs => as.length + bs.length

/-- `std::set_difference`. -/
def diffG : List α → List α → List α
  | [], _ => []
  | a :: as, [] => a :: as
  | a :: as, b :: bs =>
    if a < b then a :: diffG as (b :: bs)
    else if b < a then diffG (a :: as) bs
    else diffG as bs
termination_by as bs => as.length + bs.length

/-- `std::includes(as, bs)`: every element of `bs` is in `as` (with multiplicity). -/
def includesG : List α → List α → Bool
  | _, [] => true
  | [], _ :: _ => false
  | a :: as, b :: bs =>
    if b < a then false
    else if a < b then includesG as (b :: bs)
    else includesG as bs
termination_by as bs => as.length + bs.length

end Verif
