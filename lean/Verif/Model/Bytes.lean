import Mathlib.Data.List.Basic

/-!
# utils/ptrie_interface.h: byte representation of keys

A key type is a code `KTy`, a key a value `KVal`. A scalar (a type with a byte iterator,
ptrie_interface.h:53-55) is the list of its bytes in the order in which `ptrie::byte_iterator` accesses
them; both directions use the same order. The byte iterator itself belongs to the ptrie library and is
not modelled. `none` is an access past the end of the bytes.
-/

namespace Verif

/-- Key types (ptrie_interface.h:40-47, 133-230). -/
inductive KTy where
  /-- a type with a byte iterator of `n` bytes -/
  | scalar (n : Nat)
  | tuple (ts : List KTy)
  | vector (t : KTy)
  | variant (ts : List KTy)

/-- Key values. -/
inductive KVal where
  | scalar (bytes : List UInt8)
  | tuple (vs : List KVal)
  | vector (vs : List KVal)
  | variant (i : Nat) (v : KVal)

/-- How a `size_t` and an `unsigned char` are stored: `size_t` in 8 bytes in the order of the byte
iterator. -/
structure SizeCodec where
  enc : Nat → List UInt8
  dec : List UInt8 → Nat
  length : ∀ n, (enc n).length = 8
  inv : ∀ n, n < 2 ^ 64 → dec (enc n) = n

/-- Bytes of the index of a variant with `k` alternatives (ptrie_interface.h:195): one byte for up to
255 alternatives, else a `size_t`. -/
def encIndex (S : SizeCodec) (k i : Nat) : List UInt8 :=
  if k ≤ 255 then [UInt8.ofNat i] else S.enc i

/-- Number of bytes of the index. -/
def indexSize (k : Nat) : Nat := if k ≤ 255 then 1 else 8

/-- Reading the index. -/
def decIndex (S : SizeCodec) (k : Nat) (bs : List UInt8) : Nat :=
  if k ≤ 255 then (bs.headD 0).toNat else S.dec bs

mutual
/-- `push_back_bytes` (ptrie_interface.h:140-144 scalar, 158-160 tuple, 174-179 vector,
206-218 variant): the bytes appended. -/
def encodeK (S : SizeCodec) : KTy → KVal → List UInt8
  | .scalar _, .scalar bs => bs
  | .tuple ts, .tuple vs => encodeKs S ts vs
  | .vector t, .vector vs => S.enc vs.length ++ encodeAll S t vs
  | .variant ts, .variant i v =>
    if ts.length = 1 then encodeAlt S ts i v
    else encIndex S ts.length i ++ encodeAlt S ts i v
  | _, _ => []
/-- The components of a tuple. -/
def encodeKs (S : SizeCodec) : List KTy → List KVal → List UInt8
  | t :: ts, v :: vs => encodeK S t v ++ encodeKs S ts vs
  | _, _ => []
/-- The elements of a vector. -/
def encodeAll (S : SizeCodec) (t : KTy) : List KVal → List UInt8
  | [] => []
  | v :: vs => encodeK S t v ++ encodeAll S t vs
/-- The alternative with index `i` of a variant. -/
def encodeAlt (S : SizeCodec) : List KTy → Nat → KVal → List UInt8
  | t :: _, 0, v => encodeK S t v
  | _ :: ts, i + 1, v => encodeAlt S ts i v
  | [], _, _ => []
end

/-- `bytes[id], .., bytes[id + n - 1]` with `id` advanced; `none` past the end. -/
def takeBytes (bytes : List UInt8) (id n : Nat) : Option (List UInt8 × Nat) :=
  if id + n ≤ bytes.length then some ((bytes.drop id).take n, id + n) else none

/-- `n` elements one after the other (ptrie_interface.h:183-186). -/
def repeatDec (dec : Nat → Option (KVal × Nat)) : Nat → Nat → Option (List KVal × Nat)
  | 0, id => some ([], id)
  | n + 1, id => do
    let (v, id) ← dec id
    let (vs, id) ← repeatDec dec n id
    return (v :: vs, id)

mutual
/-- `from_bytes` (ptrie_interface.h:145-149 scalar, 161-163 tuple, 180-187 vector, 219-229 variant):
the value, and the new position in the bytes. -/
def decodeK (S : SizeCodec) (bytes : List UInt8) : KTy → Nat → Option (KVal × Nat)
  | .scalar n, id => do
    let (bs, id) ← takeBytes bytes id n
    return (.scalar bs, id)
  | .tuple ts, id => do
    let (vs, id) ← decodeKs S bytes ts id
    return (.tuple vs, id)
  | .vector t, id => do
    let (bs, id) ← takeBytes bytes id 8
    let (vs, id) ← repeatDec (decodeK S bytes t) (S.dec bs) id
    return (.vector vs, id)
  | .variant ts, id =>
    if ts.length = 1 then do
      let (v, id) ← decodeAlt S bytes ts 0 id
      return (.variant 0 v, id)
    else do
      let (bs, id) ← takeBytes bytes id (indexSize ts.length)
      let (v, id) ← decodeAlt S bytes ts (decIndex S ts.length bs) id
      return (.variant (decIndex S ts.length bs) v, id)
/-- The components of a tuple. -/
def decodeKs (S : SizeCodec) (bytes : List UInt8) : List KTy → Nat → Option (List KVal × Nat)
  | [], id => some ([], id)
  | t :: ts, id => do
    let (v, id) ← decodeK S bytes t id
    let (vs, id) ← decodeKs S bytes ts id
    return (v :: vs, id)
/-- The alternative with index `i` of a variant; an index out of range is undefined
(`boost::mp11::mp_with_index`). -/
def decodeAlt (S : SizeCodec) (bytes : List UInt8) : List KTy → Nat → Nat → Option (KVal × Nat)
  | t :: _, 0, id => decodeK S bytes t id
  | _ :: ts, i + 1, id => decodeAlt S bytes ts i id
  | [], _, _ => none
end

mutual
/-- `fixed_byte_size<KEY>::size()` (ptrie_interface.h:117-131); `none` if not defined. -/
def fixedSize : KTy → Option Nat
  | .scalar n => some n
  | .tuple ts => fixedSizes ts
  | _ => none
/-- The sum over the components of a tuple. -/
def fixedSizes : List KTy → Option Nat
  | [] => some 0
  | t :: ts => do return (← fixedSize t) + (← fixedSizes ts)
end

mutual
/-- `byte_vector_converter<KEY>::size` (ptrie_interface.h:137-139, 155-157, 171-173, 196-205), used to
reserve memory. -/
def sizeK : KTy → KVal → Nat
  | .scalar n, _ => n
  | .tuple ts, .tuple vs => sizeKs ts vs
  | .vector t, .vector vs => 8 + (fixedSize t).getD 0 * vs.length
  | .variant ts, .variant i v =>
    if ts.length = 1 then sizeAlt ts i v else indexSize ts.length + sizeAlt ts i v
  | _, _ => 0
/-- The components of a tuple. -/
def sizeKs : List KTy → List KVal → Nat
  | t :: ts, v :: vs => sizeK t v + sizeKs ts vs
  | _, _ => 0
/-- The alternative with index `i` of a variant. -/
def sizeAlt : List KTy → Nat → KVal → Nat
  | t :: _, 0, v => sizeK t v
  | _ :: ts, i + 1, v => sizeAlt ts i v
  | [], _, _ => 0
end

/-- `ptrie_interface<KEY>::to_ptrie` (ptrie_interface.h:243-248). -/
def toPtrie (S : SizeCodec) (t : KTy) (v : KVal) : List UInt8 := encodeK S t v

/-- `ptrie_interface<KEY>::unpack` on the stored bytes (ptrie_interface.h:250-257). -/
def unpack (S : SizeCodec) (t : KTy) (bytes : List UInt8) : Option KVal := do
  let (v, _) ← decodeK S bytes t 0
  return v

end Verif
