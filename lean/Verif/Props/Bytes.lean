import Verif.Model.Bytes

/-!
# C39: the byte encoding of keys is injective
-/

namespace Verif.Props

mutual
/-- `v` is a value of the key type `t`: scalars have their number of bytes, vectors have fewer than
`2^64` elements, a variant holds one of its at most `2^64` alternatives. -/
inductive HasTy : KTy → KVal → Prop where
  | scalar {n bs} : bs.length = n → HasTy (.scalar n) (.scalar bs)
  | tuple {ts vs} : HasTys ts vs → HasTy (.tuple ts) (.tuple vs)
  | vector {t vs} : vs.length < 2 ^ 64 → HasTyAll t vs → HasTy (.vector t) (.vector vs)
  | variant {ts i v} : ts.length ≤ 2 ^ 64 → HasTyAlt ts i v → HasTy (.variant ts) (.variant i v)
/-- The components of a tuple. -/
inductive HasTys : List KTy → List KVal → Prop where
  | nil : HasTys [] []
  | cons {t ts v vs} : HasTy t v → HasTys ts vs → HasTys (t :: ts) (v :: vs)
/-- The elements of a vector. -/
inductive HasTyAll : KTy → List KVal → Prop where
  | nil {t} : HasTyAll t []
  | cons {t v vs} : HasTy t v → HasTyAll t vs → HasTyAll t (v :: vs)
/-- An alternative of a variant. -/
inductive HasTyAlt : List KTy → Nat → KVal → Prop where
  | zero {t ts v} : HasTy t v → HasTyAlt (t :: ts) 0 v
  | succ {t ts i v} : HasTyAlt ts i v → HasTyAlt (t :: ts) (i + 1) v
end

theorem HasTyAlt.lt {ts : List KTy} {i : Nat} {v : KVal} (h : HasTyAlt ts i v) : i < ts.length := by
  induction ts generalizing i with
  | nil => cases h
  | cons t ts ih =>
    cases h with
    | zero _ => simp
    | succ h => have := ih h; simp; omega

theorem takeBytes_append (pre bs post : List UInt8) :
    takeBytes (pre ++ (bs ++ post)) pre.length bs.length = some (bs, pre.length + bs.length) := by
  unfold takeBytes
  rw [if_pos (by simp), List.drop_left, List.take_left]

variable (S : SizeCodec)

theorem decIndex_enc (k i : Nat) (hi : i < k) (hk : k ≤ 2 ^ 64) :
    (encIndex S k i).length = indexSize k ∧ decIndex S k (encIndex S k i) = i := by
  unfold encIndex indexSize decIndex
  by_cases h : k ≤ 255
  · simp only [h, if_true]
    refine ⟨rfl, ?_⟩
    simp only [List.headD_cons, UInt8.toNat_ofNat']
    omega
  · simp only [h, if_false]
    exact ⟨S.length i, S.inv i (by omega)⟩

mutual
/-- Reading back at the right place, for any bytes before and after. -/
theorem decodeK_encode {t : KTy} {v : KVal} (h : HasTy t v) (pre post : List UInt8) :
    decodeK S (pre ++ (encodeK S t v ++ post)) t pre.length =
      some (v, pre.length + (encodeK S t v).length) := by
  match h with
  | .scalar (n := n) (bs := bs) hn =>
    subst hn
    simp only [decodeK, encodeK]
    rw [takeBytes_append]
    rfl
  | .tuple (ts := ts) (vs := vs) h =>
    simp only [decodeK, encodeK]
    rw [decodeKs_encode h pre post]
    rfl
  | .vector (t := t) (vs := vs) hl h =>
    simp only [decodeK, encodeK]
    have e1 := takeBytes_append pre (S.enc vs.length) (encodeAll S t vs ++ post)
    rw [S.length] at e1
    rw [List.append_assoc, e1]
    have e2 := decodeAll_encode h (pre ++ S.enc vs.length) post
    rw [List.append_assoc, List.length_append, S.length] at e2
    simp only [Option.bind_eq_bind, Option.bind_some, S.inv _ hl, e2, List.length_append, S.length]
    rw [Nat.add_assoc]
    rfl
  | .variant (ts := ts) (i := i) (v := v) hk h =>
    simp only [decodeK, encodeK]
    by_cases h1 : ts.length = 1
    · rw [if_pos h1, if_pos h1]
      have hi := h.lt
      have hi0 : i = 0 := by omega
      subst hi0
      rw [decodeAlt_encode h pre post]
      rfl
    · rw [if_neg h1, if_neg h1]
      obtain ⟨i1, i2⟩ := decIndex_enc S ts.length i h.lt hk
      have e1 := takeBytes_append pre (encIndex S ts.length i) (encodeAlt S ts i v ++ post)
      rw [i1] at e1
      rw [List.append_assoc, e1]
      have e2 := decodeAlt_encode h (pre ++ encIndex S ts.length i) post
      rw [List.append_assoc, List.length_append, i1] at e2
      simp only [Option.bind_eq_bind, Option.bind_some, i2, e2, List.length_append, i1]
      rw [Nat.add_assoc]
      rfl
theorem decodeKs_encode {ts : List KTy} {vs : List KVal} (h : HasTys ts vs) (pre post : List UInt8) :
    decodeKs S (pre ++ (encodeKs S ts vs ++ post)) ts pre.length =
      some (vs, pre.length + (encodeKs S ts vs).length) := by
  match h with
  | .nil => simp [decodeKs, encodeKs]
  | .cons (t := t) (ts := ts) (v := v) (vs := vs) h1 h2 =>
    simp only [decodeKs, encodeKs]
    have e1 := decodeK_encode h1 pre (encodeKs S ts vs ++ post)
    have e2 := decodeKs_encode h2 (pre ++ encodeK S t v) post
    rw [List.append_assoc, List.length_append] at e2
    rw [List.append_assoc, e1]
    simp only [Option.bind_eq_bind, Option.bind_some, e2, List.length_append]
    rw [Nat.add_assoc]
    rfl
theorem decodeAll_encode {t : KTy} {vs : List KVal} (h : HasTyAll t vs) (pre post : List UInt8) :
    repeatDec (decodeK S (pre ++ (encodeAll S t vs ++ post)) t) vs.length pre.length =
      some (vs, pre.length + (encodeAll S t vs).length) := by
  match h with
  | .nil => simp [repeatDec, encodeAll]
  | .cons (v := v) (vs := vs) h1 h2 =>
    simp only [repeatDec, encodeAll, List.length_cons]
    have e1 := decodeK_encode h1 pre (encodeAll S t vs ++ post)
    have e2 := decodeAll_encode h2 (pre ++ encodeK S t v) post
    rw [List.append_assoc, List.length_append] at e2
    rw [List.append_assoc, e1]
    simp only [Option.bind_eq_bind, Option.bind_some, e2, List.length_append]
    rw [Nat.add_assoc]
    rfl
theorem decodeAlt_encode {ts : List KTy} {i : Nat} {v : KVal} (h : HasTyAlt ts i v)
    (pre post : List UInt8) :
    decodeAlt S (pre ++ (encodeAlt S ts i v ++ post)) ts i pre.length =
      some (v, pre.length + (encodeAlt S ts i v).length) := by
  match h with
  | .zero h => simpa [decodeAlt, encodeAlt] using decodeK_encode h pre post
  | .succ h => simpa [decodeAlt, encodeAlt] using decodeAlt_encode h pre post
end

/-- C39: unpacking the bytes of a key gives the key back. -/
theorem c39_round_trip {t : KTy} {v : KVal} (h : HasTy t v) : unpack S t (toPtrie S t v) = some v := by
  have := decodeK_encode S h [] []
  simp only [List.nil_append, List.append_nil, List.length_nil] at this
  unfold unpack toPtrie
  rw [this]
  rfl

/-- C39: different keys have different encodings. -/
theorem c39_injective {t : KTy} {v v' : KVal} (h : HasTy t v) (h' : HasTy t v')
    (he : toPtrie S t v = toPtrie S t v') : v = v' := by
  have h1 := c39_round_trip S h
  rw [he, c39_round_trip S h'] at h1
  cases h1
  rfl

/-- C39: no encoding is a proper prefix of another one, so encodings can be put one after the other. -/
theorem c39_prefix_free {t : KTy} {v v' : KVal} (h : HasTy t v) (h' : HasTy t v') (r r' : List UInt8)
    (he : toPtrie S t v ++ r = toPtrie S t v' ++ r') : v = v' ∧ r = r' := by
  have h1 := decodeK_encode S h [] r
  have h2 := decodeK_encode S h' [] r'
  simp only [List.nil_append, List.length_nil] at h1 h2
  unfold toPtrie at he
  rw [he, h2] at h1
  have hv : v = v' := by cases h1; rfl
  subst hv
  exact ⟨rfl, List.append_cancel_left he⟩

mutual
/-- The types that the converters accept: the elements of a vector have a fixed size
(ptrie_interface.h:168). -/
def Accepted39 : KTy → Prop
  | .scalar _ => True
  | .tuple ts => Accepted39s ts
  | .vector t => (fixedSize t).isSome ∧ Accepted39 t
  | .variant ts => Accepted39s ts
/-- The same for all components. -/
def Accepted39s : List KTy → Prop
  | [] => True
  | t :: ts => Accepted39 t ∧ Accepted39s ts
end

mutual
theorem fixedSize_length {t : KTy} {v : KVal} (h : HasTy t v) {n : Nat} (hn : fixedSize t = some n) :
    (encodeK S t v).length = n := by
  match h with
  | .scalar hl =>
    simp only [fixedSize, Option.some.injEq] at hn
    simp [encodeK, hl, hn]
  | .tuple h =>
    simp only [fixedSize] at hn
    simp only [encodeK]
    exact fixedSizes_length h hn
  | .vector _ _ => simp [fixedSize] at hn
  | .variant _ _ => simp [fixedSize] at hn
theorem fixedSizes_length {ts : List KTy} {vs : List KVal} (h : HasTys ts vs) {n : Nat}
    (hn : fixedSizes ts = some n) : (encodeKs S ts vs).length = n := by
  match h with
  | .nil =>
    simp only [fixedSizes, Option.some.injEq] at hn
    simp [encodeKs, ← hn]
  | .cons h1 h2 =>
    simp only [fixedSizes, Option.bind_eq_bind, Option.bind_eq_some_iff, Option.pure_def,
      Option.some.injEq] at hn
    obtain ⟨a, ha, b, hb, rfl⟩ := hn
    simp [encodeKs, fixedSize_length h1 ha, fixedSizes_length h2 hb]
end

theorem encodeAll_length {t : KTy} {vs : List KVal} (h : HasTyAll t vs) {n : Nat}
    (hn : fixedSize t = some n) : (encodeAll S t vs).length = n * vs.length := by
  match h with
  | .nil => simp [encodeAll]
  | .cons h1 h2 =>
    simp [encodeAll, fixedSize_length S h1 hn, encodeAll_length h2 hn, Nat.mul_add, Nat.add_comm]

mutual
/-- C39: `size` is the number of bytes of the encoding, so exactly the needed memory is reserved. -/
theorem c39_size {t : KTy} {v : KVal} (h : HasTy t v) (ht : Accepted39 t) :
    sizeK t v = (toPtrie S t v).length := by
  unfold toPtrie
  match h with
  | .scalar hl => simp [sizeK, encodeK, hl]
  | .tuple h =>
    rw [Accepted39] at ht
    simp only [sizeK, encodeK]
    exact sizeKs_length h ht
  | .vector hl h =>
    rw [Accepted39] at ht
    obtain ⟨n, hn⟩ := Option.isSome_iff_exists.1 ht.1
    simp [sizeK, encodeK, hn, S.length, encodeAll_length S h hn]
  | .variant hk h =>
    rw [Accepted39] at ht
    have := sizeAlt_length h ht
    have hi := (decIndex_enc S _ _ h.lt hk).1
    simp only [sizeK, encodeK]
    split
    · exact this
    · rw [List.length_append, hi, this]
theorem sizeKs_length {ts : List KTy} {vs : List KVal} (h : HasTys ts vs) (ht : Accepted39s ts) :
    sizeKs ts vs = (encodeKs S ts vs).length := by
  match h with
  | .nil => simp [sizeKs, encodeKs]
  | .cons h1 h2 =>
    rw [Accepted39s] at ht
    simp only [sizeKs, encodeKs, List.length_append]
    rw [sizeKs_length h2 ht.2, c39_size h1 ht.1]
    rfl
theorem sizeAlt_length {ts : List KTy} {i : Nat} {v : KVal} (h : HasTyAlt ts i v)
    (ht : Accepted39s ts) : sizeAlt ts i v = (encodeAlt S ts i v).length := by
  match h with
  | .zero h =>
    rw [Accepted39s] at ht
    simp only [sizeAlt, encodeAlt]
    exact c39_size h ht.1
  | .succ h =>
    rw [Accepted39s] at ht
    simp only [sizeAlt, encodeAlt]
    exact sizeAlt_length h ht.2
end

/-! ### A concrete codec and key -/

/-- `n` bytes of a number, lowest first. -/
def leBytes : Nat → Nat → List UInt8
  | 0, _ => []
  | n + 1, x => UInt8.ofNat x :: leBytes n (x / 256)

/-- The number. -/
def leValue : List UInt8 → Nat
  | [] => 0
  | b :: bs => b.toNat + 256 * leValue bs

theorem leValue_leBytes (n x : Nat) (h : x < 256 ^ n) : leValue (leBytes n x) = x := by
  induction n generalizing x with
  | zero => simp at h; simp [leBytes, leValue, h]
  | succ n ih =>
    rw [Nat.pow_succ] at h
    have : x / 256 < 256 ^ n := Nat.div_lt_of_lt_mul (by omega)
    simp only [leBytes, leValue, ih _ this, UInt8.toNat_ofNat']
    omega

theorem leBytes_length (n x : Nat) : (leBytes n x).length = n := by
  induction n generalizing x with
  | zero => rfl
  | succ n ih => simp [leBytes, ih]

/-- Little endian `size_t`. -/
def leCodec : SizeCodec where
  enc := leBytes 8
  dec := leValue
  length := leBytes_length 8
  inv n h := leValue_leBytes 8 n (by simpa using h)

/-- A tuple of a two byte scalar, a vector of one byte scalars and a variant, as in the key
`(uint16_t, std::vector<uint8_t>, std::variant<uint8_t, std::vector<uint8_t>>)`. -/
example : HasTy (.tuple [.scalar 2, .vector (.scalar 1), .variant [.scalar 1, .vector (.scalar 1)]])
    (.tuple [.scalar [1, 2], .vector [.scalar [3], .scalar [4]], .variant 0 (.scalar [9])]) ∧
    toPtrie leCodec (.tuple [.scalar 2, .vector (.scalar 1), .variant [.scalar 1, .vector (.scalar 1)]])
      (.tuple [.scalar [1, 2], .vector [.scalar [3], .scalar [4]], .variant 0 (.scalar [9])]) =
      [1, 2, 2, 0, 0, 0, 0, 0, 0, 0, 3, 4, 0, 9] :=
  ⟨.tuple (.cons (.scalar rfl) (.cons (.vector (by decide) (.cons (.scalar rfl) (.cons (.scalar rfl) .nil)))
    (.cons (.variant (by decide) (.zero (.scalar rfl))) .nil))), by
      simp [toPtrie, encodeK, encodeKs, encodeAll, encodeAlt, encIndex, leCodec, leBytes]⟩

end Verif.Props
