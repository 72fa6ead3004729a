import Verif.Model.VectorSet

/-! # internal/PDA.h:52-88 and internal/PDA.cpp: `labels_t` -/

namespace Verif

/-- `labels_t` (internal/PDA.h:52-58). -/
structure Labels where
  wildcard : Bool := false
  labels : List Nat := []
  deriving DecidableEq, Repr, Inhabited

namespace Labels

/-- `empty()` (internal/PDA.h:68-70). -/
def isEmpty (l : Labels) : Bool := !l.wildcard && l.labels.isEmpty

/-- `contains(label)` (internal/PDA.h:72-76). -/
def contains (l : Labels) (x : Nat) : Bool :=
  if l.wildcard then true else VSet.contains natLt l.labels x

/-- `clear()` (internal/PDA.h:78-81). -/
def clear (_ : Labels) : Labels := { wildcard := false, labels := [] }

/-- `merge(wildcard, other)` (internal/PDA.cpp:33-50). -/
def merge (l : Labels) (wildcard : Bool) (other : List Nat) : Labels :=
  if l.wildcard then l
  else if wildcard then { wildcard := true, labels := [] }
  else { l with labels := setUnion l.labels other }

/-- The loop of `intersect` (internal/PDA.cpp:66-76): `fit` walks `other`, kept labels are compacted
to the front; the result is the list of kept labels. -/
def intersectLoop : List Nat → List Nat → List Nat
  | [], _ => []
  | x :: ls, other =>
    match other.dropWhile (fun f => decide (f < x)) with
    | [] => []
    | f :: fs => if f = x then x :: intersectLoop ls (f :: fs) else intersectLoop ls (f :: fs)

/-- `intersect(other, all_labels)` (internal/PDA.cpp:52-80): new value and returned flag. -/
def intersect (l : Labels) (other : List Nat) (allLabels : Nat) : Labels × Bool :=
  if other.length = allLabels then (l, !l.isEmpty)
  else
    let l' : Labels :=
      if l.wildcard then { wildcard := false, labels := other }
      else { l with labels := intersectLoop l.labels other }
    (l', !l'.isEmpty)

/-- The loop of `noop_pre_filter` (internal/PDA.cpp:89-102): kept labels in order. -/
def filterLoop : List Nat → List Nat → List Nat
  | [], _ => []
  | x :: ls, useful =>
    match useful.dropWhile (fun u => decide (u < x)) with
    | [] => filterLoop ls []
    | u :: us => if u = x then x :: filterLoop ls (u :: us) else filterLoop ls (u :: us)

/-- `noop_pre_filter(usefull)` (internal/PDA.cpp:82-109). `usefull` is a `std::set`, iterated in
ascending order. -/
def noopPreFilter (l : Labels) (useful : List Nat) : Labels × Bool :=
  if l.wildcard then ({ wildcard := false, labels := useful ++ l.labels }, true)
  else
    let kept := filterLoop l.labels useful
    if kept.length ≠ l.labels.length then ({ l with labels := kept }, true) else (l, false)

end Labels

end Verif
