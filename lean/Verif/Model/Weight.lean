import Mathlib.Data.List.Basic

/-!
# Weight.h: weights and weight functions

A value of an arithmetic type is modelled by an integer (for a floating point type: by its multiple
of the smallest positive value). What the code reads from the type, the bounds
`std::numeric_limits<W>::min()` / `max()`, whether it is signed and the built-in `+`, is a record
`NumT`. The result `none` of an operation stands for undefined behaviour.
-/

namespace Verif

/-- What Weight.h uses of an arithmetic type `W`: `is_signed` (Weight.h:55),
`std::numeric_limits<W>::min()` and `max()` (Weight.h:116-119), and `lhs + rhs` (Weight.h:139).
For floating point types `nmin` is the smallest positive normal value, not the lowest value. -/
structure NumT where
  signed : Bool
  nmin : Int
  nmax : Int
  plus : Int → Int → Option Int

namespace NumT

/-- Unsigned integers of `b` bits: `+` wraps around. -/
def uint (b : Nat) : NumT where
  signed := false
  nmin := 0
  nmax := 2 ^ b - 1
  plus x y := some ((x + y) % 2 ^ b)

/-- Two's complement integers of `b` bits: overflow is undefined; types narrower than `int` (32 bits)
are added as `int` and converted back, which wraps around. -/
def sint (b : Nat) : NumT where
  signed := true
  nmin := -(2 ^ (b - 1))
  nmax := 2 ^ (b - 1) - 1
  plus x y :=
    if -(2 ^ (b - 1)) ≤ x + y ∧ x + y < 2 ^ (b - 1) then some (x + y)
    else if b < 32 then some ((x + y + 2 ^ (b - 1)) % 2 ^ b - 2 ^ (b - 1))
    else none

/-- The values of the type, for integer types. -/
def Mem (T : NumT) (x : Int) : Prop := T.nmin ≤ x ∧ x ≤ T.nmax

end NumT

/-! ## Scalars: `weight_impl<W, maximize>` (Weight.h:109-141) -/

/-- `bottom_val` (Weight.h:116-117). -/
def wBottom (T : NumT) (mx : Bool) : Int :=
  if mx then T.nmax - (if T.signed then 0 else 1) else T.nmin

/-- `max_val` (Weight.h:118-119). -/
def wMax (T : NumT) (mx : Bool) : Int :=
  if mx && T.signed then T.nmin else T.nmax

/-- `zero` (Weight.h:57). -/
def wZero : Int := 0

/-- `less` (Weight.h:123-133). -/
def wLess (T : NumT) (mx : Bool) (l r : Int) : Bool :=
  if mx then
    if !T.signed && decide (l = wMax T mx) then false
    else if !T.signed && decide (r = wMax T mx) then true
    else decide (r < l)
  else decide (l < r)

/-- `add` (Weight.h:134-140). -/
def wAdd (T : NumT) (mx : Bool) (l r : Int) : Option Int :=
  if l = wMax T mx ∨ r = wMax T mx then some (wMax T mx)
  else if wBottom T mx ≠ 0 ∧ (l = wBottom T mx ∨ r = wBottom T mx) then some (wBottom T mx)
  else T.plus l r

/-! ## Arrays: `weight_impl<std::array<Inner, N>, maximize>` (Weight.h:142-163) -/

/-- `std::lexicographical_compare` with a comparison `lt` (used at Weight.h:151-154). -/
def lexLess (lt : Int → Int → Bool) : List Int → List Int → Bool
  | _, [] => false
  | [], _ :: _ => true
  | a :: as, b :: bs => if lt a b then true else if lt b a then false else lexLess lt as bs

/-- `less` on arrays (Weight.h:150-155); an array is a list of length `N`. -/
def arrLess (T : NumT) (mx : Bool) (l r : List Int) : Bool := lexLess (wLess T mx) l r

/-- The loop over the components, in both `add`s (Weight.h:158-160, 194-195): the components of `s`
are added onto those of `g`, the rest of `g` is kept. -/
def addOnto (T : NumT) (mx : Bool) : List Int → List Int → Option (List Int)
  | [], g => some g
  | _ :: _, [] => some []
  | a :: s, b :: g => do return (← wAdd T mx a b) :: (← addOnto T mx s g)

/-- `add` on arrays (Weight.h:156-162); both lists have length `N`. -/
def arrAdd (T : NumT) (mx : Bool) (l r : List Int) : Option (List Int) := addOnto T mx l r

/-! ## Vectors: `weight_impl<std::vector<Inner>, maximize>` (Weight.h:164-198) -/

/-- The loop of `less` (Weight.h:181-187). `f1`, `f2` are what is left of the two vectors, `e1`, `e2`
are `exhaust1` and `exhaust2`. Advancing an iterator that is already at the end (181) is undefined. -/
def vecLessLoop (T : NumT) (mx : Bool) : List Int → List Int → Option Bool
  | [], [] => some false
  | [], b :: _ =>
    if wLess T mx wZero b then some true
    else if wLess T mx b wZero then some false
    else none
  | a :: _, [] =>
    if wLess T mx a wZero then some true
    else if wLess T mx wZero a then some false
    else none
  | a :: as, b :: bs =>
    if wLess T mx a b then some true
    else if wLess T mx b a then some false
    else vecLessLoop T mx as bs

/-- `less` on vectors (Weight.h:173-190). -/
def vecLess (T : NumT) (mx : Bool) (l r : List Int) : Option Bool :=
  if !mx && !T.signed then some (lexLess (fun a b => decide (a < b)) l r)
  else vecLessLoop T mx l r

/-- `add` on vectors (Weight.h:191-197): `std::minmax` by size returns `(l, r)` unless `r` is
strictly shorter than `l`. -/
def vecAdd (T : NumT) (mx : Bool) (l r : List Int) : Option (List Int) :=
  if r.length < l.length then addOnto T mx r l else addOnto T mx l r

/-- `zero`, `bottom` and `max` of vectors (Weight.h:92, 171-172). -/
def vecZero : List Int := []
def vecBottom (T : NumT) (mx : Bool) : List Int := [wBottom T mx]
def vecMax (T : NumT) (mx : Bool) : List Int := [wMax T mx]

/-! ## Weight functions (Weight.h:206-250) -/

/-- `linear_weight_function<W, Args...>` (Weight.h:206-230): a single function, or a list of
coefficients and functions. `A` is the tuple of arguments. -/
inductive LinFn (A : Type) where
  | single (f : A → Int)
  | comb (fs : List (Int × LinFn A))

/-- Arithmetic in an integer type `W` of `b` bits as used by `lhs + (rhs.first * rhs.second(args...))`
(Weight.h:227): `toW` converts a mathematical result to the type; `none` is signed overflow. -/
structure IntW where
  toW : Int → Option Int
  /-- The conversion from `int` to `W` of the accumulated value when it is passed as `const W&`. -/
  ofInt : Int → Int

/-- Unsigned type of `b` bits. -/
def IntW.unsigned (b : Nat) : IntW := ⟨fun z => some (z % 2 ^ b), fun z => z % 2 ^ b⟩
/-- Signed type of `b` ≥ 32 bits. -/
def IntW.signed (b : Nat) : IntW :=
  ⟨fun z => if -(2 ^ (b - 1)) ≤ z ∧ z < 2 ^ (b - 1) then some z else none, fun z => z⟩

/-- Conversion of a `W` to `int` (32 bits), as the accumulator of `std::accumulate` has the type of
the initial value `0` (Weight.h:225): the value modulo `2^32`. -/
def toInt32 (z : Int) : Int := (z + 2 ^ 31) % 2 ^ 32 - 2 ^ 31

mutual
/-- `operator()` (Weight.h:221-229). -/
def LinFn.eval {A : Type} (W : IntW) (x : A) : LinFn A → Option Int
  | .single f => some (f x)
  | .comb fs => do return W.ofInt (← LinFn.accumulate W x 0 fs)
/-- `std::accumulate` with the `int` accumulator `acc` (Weight.h:225-228). -/
def LinFn.accumulate {A : Type} (W : IntW) (x : A) (acc : Int) : List (Int × LinFn A) → Option Int
  | [] => some acc
  | (c, f) :: fs => do
    let v ← f.eval W x
    let m ← W.toW (c * v)
    let s ← W.toW (W.ofInt acc + m)
    LinFn.accumulate W x (toInt32 s) fs
end

/-- `ordered_weight_function::operator()` (Weight.h:234-250). -/
def orderedEval {A : Type} (W : IntW) (fs : List (LinFn A)) (x : A) : Option (List Int) :=
  fs.mapM (fun f => f.eval W x)

end Verif
