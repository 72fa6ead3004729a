import Verif.Proofs.Weight

/-!
# C30, C31, C50: scalar weights, vector weights, weight functions

`T.IsInt` holds for the unsigned types of every width and the signed types of every width
(`NumT.isInt_uint`, `NumT.isInt_sint`). `mx` tells whether weights are maximised (`max_weight`) or
minimised (`min_weight`).
-/

namespace Verif.Props

/-- `x` is one of the two marks: `max()`, or `bottom()` when that is not the neutral element. -/
def Marked (T : NumT) (mx : Bool) (x : Int) : Prop :=
  x = wMax T mx ∨ (x = wBottom T mx ∧ wBottom T mx ≠ wZero)

/-- Adding `x` and `y` does not overflow: the sum of two unmarked weights is an unmarked weight. -/
def NoOverflow (T : NumT) (mx : Bool) (x y : Int) : Prop :=
  ¬ Marked T mx x → ¬ Marked T mx y → T.Mem (x + y) ∧ ¬ Marked T mx (x + y)

section
variable {T : NumT} (hT : T.IsInt) (mx : Bool)

/-- C30: `less` is a strict total order. -/
theorem c30_strict_total :
    (∀ x, wLess T mx x x = false) ∧
    (∀ x y z, T.Mem x → T.Mem y → T.Mem z →
      wLess T mx x y = true → wLess T mx y z = true → wLess T mx x z = true) ∧
    (∀ x y, T.Mem x → T.Mem y → x ≠ y → wLess T mx x y = true ∨ wLess T mx y x = true) := by
  refine ⟨?_, ?_, ?_⟩
  · intro x
    unfold wLess
    grind
  · intro x y z hx hy hz h1 h2
    unfold wLess wMax NumT.Mem at *
    cases mx <;> cases hs : T.signed <;> simp [hs] at * <;> grind
  · intro x y hx hy hne
    unfold wLess wMax at *
    cases mx <;> cases hs : T.signed <;> simp_all [NumT.Mem] <;> grind

include hT in
/-- C30: `bottom()` and `max()` are values of the type, nothing is less than `bottom()`, and `max()`
is less than nothing. -/
theorem c30_bounds :
    T.Mem (wBottom T mx) ∧ T.Mem (wMax T mx) ∧
      ∀ x, T.Mem x → wLess T mx x (wBottom T mx) = false ∧ wLess T mx (wMax T mx) x = false := by
  have h1 := hT.uns; have h2 := hT.sgn; have h3 := hT.top
  unfold wLess wMax wBottom NumT.Mem
  cases mx <;> cases hs : T.signed <;> simp_all <;> grind

include hT in
/-- C30: `add` is commutative, also when it overflows. -/
theorem c30_add_comm (x y : Int) : wAdd T mx x y = wAdd T mx y x := by
  unfold wAdd
  rw [hT.comm x y]
  grind

include hT in
/-- C30: the neutral element is `zero()`, and `max()` absorbs everything. -/
theorem c30_add_zero_max (x : Int) (hx : T.Mem x) :
    wAdd T mx x wZero = some x ∧ wAdd T mx wZero x = some x ∧
    wAdd T mx x (wMax T mx) = some (wMax T mx) ∧ wAdd T mx (wMax T mx) x = some (wMax T mx) := by
  have h1 := hT.uns; have h2 := hT.sgn; have h3 := hT.top
  have h0 := hT.zero
  have e : wAdd T mx x wZero = some x := by
    unfold wAdd
    by_cases hm : x = wMax T mx
    · rw [if_pos (Or.inl hm), hm]
    · have hz : wZero ≠ wMax T mx := by
        unfold wZero wMax
        cases mx <;> cases hs : T.signed <;> simp_all <;> omega
      rw [if_neg (by rintro (h | h); exact hm h; exact hz h)]
      by_cases hb : wBottom T mx ≠ 0 ∧ (x = wBottom T mx ∨ wZero = wBottom T mx)
      · rw [if_pos hb]
        rcases hb with ⟨hb, h | h⟩
        · rw [h]
        · exact absurd h.symm hb
      · rw [if_neg hb, hT.plus x wZero hx h0 (by simpa [wZero] using hx)]
        simp [wZero]
  refine ⟨e, ?_, ?_, ?_⟩
  · rw [c30_add_comm hT]
    exact e
  · simp [wAdd]
  · simp [wAdd]

include hT in
/-- C30: the sum of two weights whose sum does not overflow is defined and is a weight: the
mathematical sum for unmarked weights; otherwise `max()` if one of them is `max()`, else `bottom()`. -/
theorem c30_add_value (x y : Int) (hx : T.Mem x) (hy : T.Mem y) (h : NoOverflow T mx x y) :
    ∃ s, wAdd T mx x y = some s ∧ T.Mem s ∧
      (¬ Marked T mx x → ¬ Marked T mx y → s = x + y) ∧
      (x = wMax T mx ∨ y = wMax T mx → s = wMax T mx) ∧
      (x ≠ wMax T mx → y ≠ wMax T mx → wBottom T mx ≠ wZero →
        (x = wBottom T mx ∨ y = wBottom T mx) → s = wBottom T mx) := by
  obtain ⟨b1, b2, -⟩ := c30_bounds hT mx
  unfold wAdd
  by_cases hm : x = wMax T mx ∨ y = wMax T mx
  · rw [if_pos hm]
    refine ⟨_, rfl, b2, fun h1 h2 => ?_, fun _ => rfl, fun h1 h2 => ?_⟩
    · rcases hm with hm | hm
      · exact absurd (Or.inl hm) h1
      · exact absurd (Or.inl hm) h2
    · rcases hm with hm | hm
      · exact absurd hm h1
      · exact absurd hm h2
  · rw [if_neg hm]
    by_cases hb : wBottom T mx ≠ 0 ∧ (x = wBottom T mx ∨ y = wBottom T mx)
    · rw [if_pos hb]
      refine ⟨_, rfl, b1, fun h1 h2 => ?_, fun h => absurd h hm, fun _ _ _ _ => rfl⟩
      rcases hb with ⟨hb, hb' | hb'⟩
      · exact absurd (Or.inr ⟨hb', hb⟩) h1
      · exact absurd (Or.inr ⟨hb', hb⟩) h2
    · rw [if_neg hb]
      have hx' : ¬ Marked T mx x := by
        rintro (h | h)
        · exact hm (Or.inl h)
        · exact hb ⟨h.2, Or.inl h.1⟩
      have hy' : ¬ Marked T mx y := by
        rintro (h | h)
        · exact hm (Or.inr h)
        · exact hb ⟨h.2, Or.inr h.1⟩
      refine ⟨x + y, hT.plus x y hx hy (h hx' hy').1, (h hx' hy').1, fun _ _ => rfl, fun h => absurd h hm, ?_⟩
      intro _ _ h1 h2
      exact absurd ⟨h1, h2⟩ hb

include hT in
/-- C30: `add` is associative as long as none of the four sums overflows. -/
theorem c30_add_assoc (x y z : Int) (hx : T.Mem x) (hy : T.Mem y) (hz : T.Mem z)
    (h1 : NoOverflow T mx x y) (h2 : NoOverflow T mx y z)
    (h3 : ∀ s, wAdd T mx x y = some s → NoOverflow T mx s z)
    (h4 : ∀ s, wAdd T mx y z = some s → NoOverflow T mx x s) :
    ((wAdd T mx x y).bind fun s => wAdd T mx s z) = ((wAdd T mx y z).bind fun s => wAdd T mx x s) := by
  obtain ⟨b1, b2, -⟩ := c30_bounds hT mx
  obtain ⟨s, e1, m1, p1⟩ := c30_add_value hT mx x y hx hy h1
  obtain ⟨t, e2, m2, p2⟩ := c30_add_value hT mx y z hy hz h2
  obtain ⟨u, e3, m3, p3⟩ := c30_add_value hT mx s z m1 hz (h3 s e1)
  obtain ⟨v, e4, m4, p4⟩ := c30_add_value hT mx x t hx m2 (h4 t e2)
  rw [e1, e2, Option.bind_some, Option.bind_some, e3, e4]
  congr 1
  simp only [NoOverflow, Marked, wZero] at *
  by_cases a1 : x = wMax T mx <;> by_cases a2 : y = wMax T mx <;> by_cases a3 : z = wMax T mx <;>
    by_cases c1 : x = wBottom T mx <;> by_cases c2 : y = wBottom T mx <;>
    by_cases c3 : z = wBottom T mx <;> grind

include hT in
/-- C30: `add` is monotone: if `y` is not less than `x`, then `y + z` is not less than `x + z`. -/
theorem c30_add_mono (x y z : Int) (hx : T.Mem x) (hy : T.Mem y) (hz : T.Mem z)
    (h1 : NoOverflow T mx x z) (h2 : NoOverflow T mx y z) (h : wLess T mx y x = false) :
    ∃ s t, wAdd T mx x z = some s ∧ wAdd T mx y z = some t ∧ wLess T mx t s = false := by
  obtain ⟨b1, b2, b3⟩ := c30_bounds hT mx
  obtain ⟨s, e1, m1, p1⟩ := c30_add_value hT mx x z hx hz h1
  obtain ⟨t, e2, m2, p2⟩ := c30_add_value hT mx y z hy hz h2
  refine ⟨s, t, e1, e2, ?_⟩
  have q := hT.uns; have q' := hT.sgn; have q'' := hT.top
  simp only [NoOverflow, Marked, wZero, wLess, NumT.Mem] at *
  cases mx <;> cases hs : T.signed <;> simp [hs, wMax, wBottom] at * <;> grind

include hT in
/-- C30: `add` is strictly monotone in an unmarked weight. -/
theorem c30_add_strict (x y z : Int) (hx : T.Mem x) (hy : T.Mem y) (hz : T.Mem z)
    (hn : ¬ Marked T mx z)
    (h1 : NoOverflow T mx x z) (h2 : NoOverflow T mx y z) (h : wLess T mx x y = true) :
    ∃ s t, wAdd T mx x z = some s ∧ wAdd T mx y z = some t ∧ wLess T mx s t = true := by
  obtain ⟨b1, b2, b3⟩ := c30_bounds hT mx
  obtain ⟨s, e1, m1, p1⟩ := c30_add_value hT mx x z hx hz h1
  obtain ⟨t, e2, m2, p2⟩ := c30_add_value hT mx y z hy hz h2
  refine ⟨s, t, e1, e2, ?_⟩
  have q := hT.uns; have q' := hT.sgn; have q'' := hT.top
  simp only [NoOverflow, Marked, wZero, wLess, NumT.Mem] at *
  cases mx <;> cases hs : T.signed <;> simp [hs, wMax, wBottom] at * <;> grind

end

/-! ### What breaks the laws -/

/-- C30: marks reached by ordinary sums break associativity although every sum is a value of the
type: in 8 bits, `(100 + 27) + (-1)` is `max()`, but `100 + (27 + (-1))` is `126`. -/
theorem c30_assoc_at_marks :
    (wAdd (NumT.sint 8) false 100 27).bind (fun s => wAdd (NumT.sint 8) false s (-1)) = some 127 ∧
    (wAdd (NumT.sint 8) false 27 (-1)).bind (fun s => wAdd (NumT.sint 8) false 100 s) = some 126 := by
  decide

/-- C30: for floating point types `std::numeric_limits<W>::min()` is positive. Then `zero()` is less
than `bottom()` when minimising, and `max()` is less than every weight below `numeric_limits<W>::min()`,
such as `zero()`, when maximising. -/
theorem c30_floating_bounds (T : NumT) (hs : T.signed = true) (hpos : 0 < T.nmin) :
    wLess T false wZero (wBottom T false) = true ∧ wLess T true (wMax T true) wZero = true := by
  simp [wLess, wBottom, wMax, wZero, hs, hpos]

/-- The laws are not vacuous: 64 bit signed weights, `3 + 4 = 7`, and `5 + bottom() = bottom()`. -/
example : (NumT.sint 64).IsInt ∧ (NumT.uint 32).IsInt ∧ (NumT.sint 64).Mem 3 ∧
    NoOverflow (NumT.sint 64) false 3 4 ∧ wAdd (NumT.sint 64) false 3 4 = some 7 ∧
    wAdd (NumT.sint 64) true 5 (wBottom (NumT.sint 64) true) = some (wBottom (NumT.sint 64) true) ∧
    wLess (NumT.uint 32) true 5 3 = true :=
  ⟨NumT.isInt_sint (by decide), NumT.isInt_uint (by decide), by unfold NumT.Mem; decide,
    by unfold NoOverflow Marked NumT.Mem; decide, by decide, by decide, by decide⟩

/-! ## Arrays -/

/-- Every component is a weight. -/
def AllMem (T : NumT) (l : List Int) : Prop := ∀ x ∈ l, T.Mem x

/-- The first difference decides: `l` and `r` agree before position `i` and `l i` is less than `r i`;
a component that is not there counts as zero. -/
def FirstLess (T : NumT) (mx : Bool) (l r : List Int) : Prop :=
  ∃ i, (∀ j, j < i → l.getD j 0 = r.getD j 0) ∧ wLess T mx (l.getD i 0) (r.getD i 0) = true

section
variable {T : NumT} (hT : T.IsInt) (mx : Bool)

theorem firstLess_cons {a b : Int} {l r : List Int} :
    FirstLess T mx (a :: l) (b :: r) ↔ wLess T mx a b = true ∨ (a = b ∧ FirstLess T mx l r) := by
  constructor
  · rintro ⟨i, h1, h2⟩
    cases i with
    | zero => exact Or.inl (by simpa using h2)
    | succ i =>
      refine Or.inr ⟨by simpa using h1 0 (by omega), i, fun j hj => ?_, by simpa using h2⟩
      simpa using h1 (j + 1) (by omega)
  · rintro (h | ⟨rfl, i, h1, h2⟩)
    · exact ⟨0, fun j hj => absurd hj (by omega), by simpa using h⟩
    · refine ⟨i + 1, fun j hj => ?_, by simpa using h2⟩
      cases j with
      | zero => simp
      | succ j => simpa using h1 j (by omega)

theorem firstLess_nil_nil : ¬ FirstLess T mx [] [] := by
  rintro ⟨i, -, h⟩
  have := (c30_strict_total (T := T) mx).1 0
  simp [this] at h

theorem firstLess_nil_cons {b : Int} {r : List Int} :
    FirstLess T mx [] (b :: r) ↔ wLess T mx 0 b = true ∨ (0 = b ∧ FirstLess T mx [] r) := by
  have : FirstLess T mx [] (b :: r) ↔ FirstLess T mx (0 :: []) (b :: r) := by
    unfold FirstLess
    have e : ∀ j, ([] : List Int).getD j 0 = [0].getD j 0 := by
      intro j
      cases j <;> simp
    simp only [e]
  rw [this, firstLess_cons]

theorem firstLess_cons_nil {a : Int} {l : List Int} :
    FirstLess T mx (a :: l) [] ↔ wLess T mx a 0 = true ∨ (a = 0 ∧ FirstLess T mx l []) := by
  have : FirstLess T mx (a :: l) [] ↔ FirstLess T mx (a :: l) (0 :: []) := by
    unfold FirstLess
    have e : ∀ j, ([] : List Int).getD j 0 = [0].getD j 0 := by
      intro j
      cases j <;> simp
    simp only [e]
  rw [this, firstLess_cons]

theorem allMem_getD (hT : T.IsInt) {l : List Int} (h : AllMem T l) (i : Nat) : T.Mem (l.getD i 0) := by
  rw [List.getD_eq_getElem?_getD]
  cases e : l[i]? with
  | none => exact hT.zero
  | some x => exact h x (List.mem_of_getElem? e)

include hT in
/-- C31: the order that counts missing components as zero is a strict weak order: it is irreflexive
and transitive, and two vectors of which neither is less have the same components. -/
theorem c31_firstLess_weak_order :
    (∀ l, ¬ FirstLess T mx l l) ∧
    (∀ l r s, AllMem T l → AllMem T r → AllMem T s →
      FirstLess T mx l r → FirstLess T mx r s → FirstLess T mx l s) ∧
    (∀ l r, AllMem T l → AllMem T r → ¬ FirstLess T mx l r → ¬ FirstLess T mx r l →
      ∀ i, l.getD i 0 = r.getD i 0) := by
  obtain ⟨t1, t2, t3⟩ := c30_strict_total (T := T) mx
  refine ⟨?_, ?_, ?_⟩
  · rintro l ⟨i, -, h⟩
    rw [t1] at h
    cases h
  · rintro l r s hl hr hs ⟨i, h1, h2⟩ ⟨j, h3, h4⟩
    rcases Nat.lt_trichotomy i j with h | h | h
    · exact ⟨i, fun k hk => (h1 k hk).trans (h3 k (by omega)), by rw [← h3 i h]; exact h2⟩
    · subst h
      exact ⟨i, fun k hk => (h1 k hk).trans (h3 k hk), t2 _ _ _ (allMem_getD hT hl _)
        (allMem_getD hT hr _) (allMem_getD hT hs _) h2 h4⟩
    · exact ⟨j, fun k hk => (h1 k (by omega)).trans (h3 k hk), by rw [h1 j h]; exact h4⟩
  · intro l r hl hr h1 h2 i
    induction i using Nat.strongRecOn with
    | ind i ih =>
      by_contra hne
      rcases t3 _ _ (allMem_getD hT hl i) (allMem_getD hT hr i) hne with h | h
      · exact h1 ⟨i, ih, h⟩
      · exact h2 ⟨i, fun j hj => (ih j hj).symm, h⟩

/-- C30 for arrays: `less` compares arrays by their first difference. -/
theorem c30_array_less (l r : List Int) (hlen : l.length = r.length) (hl : AllMem T l)
    (hr : AllMem T r) : arrLess T mx l r = true ↔ FirstLess T mx l r := by
  unfold arrLess
  induction l generalizing r with
  | nil =>
    cases r with
    | nil => simp [lexLess, firstLess_nil_nil]
    | cons b r => simp at hlen
  | cons a l ih =>
    cases r with
    | nil => simp at hlen
    | cons b r =>
      obtain ⟨t1, t2, t3⟩ := c30_strict_total (T := T) mx
      have hl' : AllMem T l := fun x hx => hl x (List.mem_cons_of_mem _ hx)
      have hr' : AllMem T r := fun x hx => hr x (List.mem_cons_of_mem _ hx)
      have ih := ih r (by simpa using hlen) hl' hr'
      rw [firstLess_cons, lexLess]
      by_cases h1 : wLess T mx a b = true
      · simp [h1]
      · by_cases h2 : wLess T mx b a = true
        · have : a ≠ b := by rintro rfl; exact h1 h2
          simp [h1, h2, this]
        · have : a = b := by
            by_contra hne
            rcases t3 a b (hl a (by simp)) (hr b (by simp)) hne with h | h
            · exact h1 h
            · exact h2 h
          subst this
          simp [t1, ih]

/-- Components are added where both lists have one; the rest of the second list is kept. -/
theorem addOnto_comm (hT : T.IsInt) (l r : List Int) (hlen : l.length = r.length) :
    addOnto T mx l r = addOnto T mx r l := by
  induction l generalizing r with
  | nil =>
    cases r with
    | nil => rfl
    | cons b r => simp at hlen
  | cons a l ih =>
    cases r with
    | nil => simp at hlen
    | cons b r =>
      simp only [addOnto]
      rw [c30_add_comm hT, ih r (by simpa using hlen)]

theorem addOnto_value (hT : T.IsInt) {l r s : List Int} (hlen : l.length ≤ r.length)
    (hr : AllMem T r) (h : addOnto T mx l r = some s) :
    s.length = r.length ∧ ∀ i, wAdd T mx (l.getD i 0) (r.getD i 0) = some (s.getD i 0) := by
  induction l generalizing r s with
  | nil =>
    simp only [addOnto, Option.some.injEq] at h
    subst h
    refine ⟨rfl, fun i => ?_⟩
    have := (c30_add_zero_max hT mx _ (allMem_getD hT hr i)).2.1
    simpa [wZero] using this
  | cons a l ih =>
    cases r with
    | nil => simp at hlen
    | cons b r =>
      simp only [addOnto, Option.bind_eq_bind, Option.bind_eq_some_iff, Option.pure_def,
        Option.some.injEq] at h
      obtain ⟨x, hx, s', hs', rfl⟩ := h
      obtain ⟨h1, h2⟩ := ih (by simpa using hlen) (fun x hx => hr x (List.mem_cons_of_mem _ hx)) hs'
      refine ⟨by simp [h1], fun i => ?_⟩
      cases i with
      | zero => simpa using hx
      | succ i => simpa using h2 i

include hT in
/-- C30 for arrays: `add` is commutative and adds component by component; the array of zeros is
neutral. -/
theorem c30_array_add (l r : List Int) (hlen : l.length = r.length) (hr : AllMem T r) :
    arrAdd T mx l r = arrAdd T mx r l ∧
    (∀ s, arrAdd T mx l r = some s → s.length = l.length ∧
      ∀ i, wAdd T mx (l.getD i 0) (r.getD i 0) = some (s.getD i 0)) ∧
    arrAdd T mx (List.replicate r.length wZero) r = some r := by
  refine ⟨addOnto_comm mx hT l r hlen, fun s hs => ?_, ?_⟩
  · have := addOnto_value mx hT (Nat.le_of_eq hlen) hr hs
    exact ⟨this.1.trans hlen.symm, this.2⟩
  · clear hlen
    unfold arrAdd
    induction r with
    | nil => rfl
    | cons b r ih =>
      have := (c30_add_zero_max hT mx b (hr b (by simp))).2.1
      simp [List.replicate_succ, addOnto, this, ih (fun x hx => hr x (List.mem_cons_of_mem _ hx))]

/-! ## Vectors -/

include hT in
/-- C31 (partial: minimised unsigned vectors of different lengths are excluded, and the result may be
undefined): when `less` on vectors is defined, it is the order in which missing components count as
zero. -/
theorem c31_less_partial (l r : List Int) (hl : AllMem T l) (hr : AllMem T r)
    (h : l.length = r.length ∨ mx = true ∨ T.signed = true) (b : Bool)
    (hb : vecLess T mx l r = some b) : b = true ↔ FirstLess T mx l r := by
  obtain ⟨t1, t2, t3⟩ := c30_strict_total (T := T) mx
  have heq : ∀ a b, T.Mem a → T.Mem b → wLess T mx a b ≠ true → wLess T mx b a ≠ true → a = b := by
    intro a b ha hb h1 h2
    by_contra hne
    rcases t3 a b ha hb hne with h | h
    · exact h1 h
    · exact h2 h
  unfold vecLess at hb
  by_cases hc : (!mx && !T.signed) = true
  · rw [if_pos hc] at hb
    simp only [Bool.and_eq_true, Bool.not_eq_true'] at hc
    have hlen : l.length = r.length := by
      rcases h with h | h | h
      · exact h
      · rw [hc.1] at h; cases h
      · rw [hc.2] at h; cases h
    have : (fun a b => decide (a < b)) = wLess T mx := by
      funext a b
      simp [wLess, hc.1]
    rw [this] at hb
    have := c30_array_less mx l r hlen hl hr
    rw [arrLess] at this
    rw [← this]
    simp only [Option.some.injEq] at hb
    rw [hb]
  · rw [if_neg hc] at hb
    clear h hc
    induction l generalizing r with
    | nil =>
      cases r with
      | nil =>
        simp [vecLessLoop] at hb
        simp [← hb, firstLess_nil_nil]
      | cons c r =>
        rw [firstLess_nil_cons]
        simp only [vecLessLoop, wZero] at hb
        by_cases h1 : wLess T mx 0 c = true
        · simp [h1] at hb ⊢
          exact hb
        · by_cases h2 : wLess T mx c 0 = true
          · have : 0 ≠ c := by rintro rfl; exact h1 h2
            simp [h1, h2] at hb
            simp [h1, this, ← hb]
          · simp [h1, h2] at hb
    | cons a l ih =>
      cases r with
      | nil =>
        rw [firstLess_cons_nil]
        simp only [vecLessLoop, wZero] at hb
        by_cases h1 : wLess T mx a 0 = true
        · simp [h1] at hb ⊢
          exact hb
        · by_cases h2 : wLess T mx 0 a = true
          · have : a ≠ 0 := by rintro rfl; exact h1 h2
            simp [h1, h2] at hb
            simp [h1, this, ← hb]
          · simp [h1, h2] at hb
      | cons c r =>
        rw [firstLess_cons]
        simp only [vecLessLoop] at hb
        by_cases h1 : wLess T mx a c = true
        · simp [h1] at hb ⊢
          exact hb
        · by_cases h2 : wLess T mx c a = true
          · have : a ≠ c := by rintro rfl; exact h1 h2
            simp [h1, h2] at hb
            simp [h1, this, ← hb]
          · have := heq a c (hl a (by simp)) (hr c (by simp)) h1 h2
            subst this
            simp only [h1, if_false, Bool.false_eq_true] at hb
            simp only [t1, Bool.false_eq_true, false_or, true_and]
            exact ih r (fun x hx => hl x (List.mem_cons_of_mem _ hx))
              (fun x hx => hr x (List.mem_cons_of_mem _ hx)) hb

/-- C31: when `less` on vectors is undefined (an iterator is advanced past the end): exactly if the
lengths differ, the vectors agree on their common positions, and the next component of the longer one
is zero. -/
theorem c31_less_undefined (hT : T.IsInt) (l r : List Int) (hl : AllMem T l) (hr : AllMem T r) :
    vecLess T mx l r = none ↔
      (mx = true ∨ T.signed = true) ∧ l.length ≠ r.length ∧
        ∀ i, i ≤ min l.length r.length → l.getD i 0 = r.getD i 0 := by
  obtain ⟨t1, t2, t3⟩ := c30_strict_total (T := T) mx
  have heq : ∀ a b, T.Mem a → T.Mem b → wLess T mx a b ≠ true → wLess T mx b a ≠ true → a = b := by
    intro a b ha hb h1 h2
    by_contra hne
    rcases t3 a b ha hb hne with h | h
    · exact h1 h
    · exact h2 h
  unfold vecLess
  by_cases hc : (!mx && !T.signed) = true
  · rw [if_pos hc]
    simp only [Bool.and_eq_true, Bool.not_eq_true'] at hc
    simp [hc.1, hc.2]
  · rw [if_neg hc]
    have hc' : mx = true ∨ T.signed = true := by
      cases mx <;> cases h : T.signed <;> simp_all
    simp only [hc', true_and]
    clear hc hc'
    induction l generalizing r with
    | nil =>
      cases r with
      | nil => simp [vecLessLoop]
      | cons c r =>
        have h0 := hr c (by simp)
        simp only [vecLessLoop, wZero]
        by_cases h1 : wLess T mx 0 c = true
        · have : 0 ≠ c := by rintro rfl; rw [t1] at h1; cases h1
          simp [h1, this]
        · by_cases h2 : wLess T mx c 0 = true
          · have : 0 ≠ c := by rintro rfl; exact h1 h2
            simp [h1, h2, this]
          · have := heq 0 c hT.zero h0 h1 h2
            subst this
            simp [t1]
    | cons a l ih =>
      have ha := hl a (by simp)
      cases r with
      | nil =>
        simp only [vecLessLoop, wZero]
        by_cases h1 : wLess T mx a 0 = true
        · have : a ≠ 0 := by rintro rfl; rw [t1] at h1; cases h1
          simp [h1, this]
        · by_cases h2 : wLess T mx 0 a = true
          · have : a ≠ 0 := by rintro rfl; exact h1 h2
            simp [h1, h2, this]
          · have := heq a 0 ha hT.zero h1 h2
            subst this
            simp [t1]
      | cons c r =>
        have hcm := hr c (by simp)
        have key : (∀ i, i ≤ min (a :: l).length (c :: r).length → (a :: l).getD i 0 = (c :: r).getD i 0) ↔
            a = c ∧ ∀ i, i ≤ min l.length r.length → l.getD i 0 = r.getD i 0 := by
          constructor
          · intro h
            refine ⟨by simpa using h 0 (by simp), fun i hi => ?_⟩
            simpa using h (i + 1) (by simp only [List.length_cons]; omega)
          · rintro ⟨h1, h2⟩ i hi
            cases i with
            | zero => simpa using h1
            | succ i => simpa using h2 i (by simp only [List.length_cons] at hi; omega)
        rw [key]
        simp only [vecLessLoop]
        by_cases h1 : wLess T mx a c = true
        · have : a ≠ c := by rintro rfl; rw [t1] at h1; cases h1
          simp [h1, this]
        · by_cases h2 : wLess T mx c a = true
          · have : a ≠ c := by rintro rfl; exact h1 h2
            simp [h1, h2, this]
          · have := heq a c ha hcm h1 h2
            subst this
            simp only [h1, if_false, Bool.false_eq_true]
            have := ih r (fun x hx => hl x (List.mem_cons_of_mem _ hx))
              (fun x hx => hr x (List.mem_cons_of_mem _ hx))
            simpa using this

include hT in
/-- C31: `add` on vectors is commutative, the empty vector is neutral, and the components of the sum
are the sums of the components, where missing components count as zero. -/
theorem c31_add (l r : List Int) (hl : AllMem T l) (hr : AllMem T r) :
    vecAdd T mx l r = vecAdd T mx r l ∧
    vecAdd T mx vecZero r = some r ∧ vecAdd T mx l vecZero = some l ∧
    ∀ s, vecAdd T mx l r = some s → s.length = max l.length r.length ∧
      ∀ i, wAdd T mx (l.getD i 0) (r.getD i 0) = some (s.getD i 0) := by
  refine ⟨?_, ?_, ?_, ?_⟩
  · unfold vecAdd
    rcases Nat.lt_trichotomy l.length r.length with h | h | h
    · rw [if_neg (by omega), if_pos h]
    · rw [if_neg (by omega), if_neg (by omega), addOnto_comm mx hT l r h]
    · rw [if_pos h, if_neg (by omega)]
  · simp [vecAdd, vecZero, addOnto]
  · cases l <;> simp [vecAdd, vecZero, addOnto]
  · intro s hs
    unfold vecAdd at hs
    by_cases h : r.length < l.length
    · rw [if_pos h] at hs
      obtain ⟨h1, h2⟩ := addOnto_value mx hT (by omega) hl hs
      exact ⟨by omega, fun i => (c30_add_comm hT mx _ _).trans (h2 i)⟩
    · rw [if_neg h] at hs
      obtain ⟨h1, h2⟩ := addOnto_value mx hT (by omega) hr hs
      exact ⟨by omega, h2⟩

end

/-- C31: comparing `[1]` with `[1, 0]` reads past the end of the first vector. -/
theorem c31_reads_past_end : vecLess (NumT.sint 32) false [1] [1, 0] = none := by decide

/-- C31: minimised unsigned vectors do not count missing components as zero: `[]` is less than `[0]`
although they have the same components. -/
theorem c31_unsigned_missing :
    vecLess (NumT.uint 32) false [] [0] = some true ∧ ¬ FirstLess (NumT.uint 32) false [] [0] := by
  refine ⟨by decide, ?_⟩
  rw [firstLess_nil_cons]
  rintro (h | ⟨-, h⟩)
  · revert h; decide
  · exact firstLess_nil_nil _ h

/-- C31: `max()` of vectors is not the largest vector. -/
theorem c31_above_max :
    vecLess (NumT.uint 32) false (vecMax (NumT.uint 32) false) [4294967295, 1] = some true ∧
    vecLess (NumT.sint 32) false (vecMax (NumT.sint 32) false) [2147483647, 1] = some true := by decide

example : AllMem (NumT.sint 32) [3, -1] ∧ vecLess (NumT.sint 32) false [3, -1] [3] = some true ∧
    FirstLess (NumT.sint 32) false [3, -1] [3] ∧
    vecAdd (NumT.sint 32) false [3, -1] [4] = some [7, -1] :=
  ⟨by unfold AllMem NumT.Mem; decide, by decide, ⟨1, by decide, by decide⟩, by decide⟩

/-! ## Weight functions -/

mutual
/-- The value of a weight function as a mathematical linear combination. -/
def linValue {A : Type} (x : A) : LinFn A → Int
  | .single f => f x
  | .comb fs => linSum x fs
/-- The sum of coefficients times values. -/
def linSum {A : Type} (x : A) : List (Int × LinFn A) → Int
  | [] => 0
  | (c, f) :: fs => c * linValue x f + linSum x fs
end

/-- `z` is a value of the unsigned / signed type with `b` bits. -/
def HoldsW (signed : Bool) (b : Nat) (z : Int) : Prop :=
  if signed then -(2 ^ (b - 1)) ≤ z ∧ z < 2 ^ (b - 1) else 0 ≤ z ∧ z < 2 ^ b

/-- The arithmetic of the unsigned / signed type with `b` bits. -/
def arithW (signed : Bool) (b : Nat) : IntW := if signed then IntW.signed b else IntW.unsigned b

/-- `z` is a value of `int`. -/
def HoldsInt (z : Int) : Prop := -(2 ^ 31) ≤ z ∧ z < 2 ^ 31

mutual
/-- Every product is a value of `W` and every partial sum is a value of both `W` and `int`. -/
def Small {A : Type} (signed : Bool) (b : Nat) (x : A) : LinFn A → Prop
  | .single _ => True
  | .comb fs => SmallSum signed b x 0 fs
/-- The same for a list of summands after a partial sum `acc`. -/
def SmallSum {A : Type} (signed : Bool) (b : Nat) (x : A) (acc : Int) : List (Int × LinFn A) → Prop
  | [] => True
  | (c, f) :: fs => Small signed b x f ∧ HoldsW signed b (c * linValue x f) ∧
      HoldsW signed b (acc + c * linValue x f) ∧ HoldsInt (acc + c * linValue x f) ∧
      SmallSum signed b x (acc + c * linValue x f) fs
end

theorem arithW_toW {signed : Bool} {b : Nat} {z : Int} (h : HoldsW signed b z) :
    (arithW signed b).toW z = some z ∧ (arithW signed b).ofInt z = z := by
  cases signed <;> simp only [HoldsW, arithW, IntW.signed, IntW.unsigned, if_true, if_false,
    Bool.false_eq_true] at *
  · rw [Int.emod_eq_of_lt h.1 h.2]
    exact ⟨rfl, rfl⟩
  · exact ⟨if_pos h, trivial⟩

theorem toInt32_of {z : Int} (h : HoldsInt z) : toInt32 z = z := by
  unfold HoldsInt at h
  unfold toInt32
  omega

mutual
/-- C50 (partial: the accumulated sums must be values of `int`): `linear_weight_function` computes the
linear combination of its component functions. -/
theorem c50_linear_partial {A : Type} (signed : Bool) (b : Nat) (x : A) (f : LinFn A)
    (h : Small signed b x f) : f.eval (arithW signed b) x = some (linValue x f) := by
  cases f with
  | single f => simp [LinFn.eval, linValue]
  | comb fs =>
    rw [Small] at h
    have h0 : HoldsW signed b 0 := by
      unfold HoldsW
      have h1 : (0:Int) < 2 ^ b := Int.pow_pos (by decide)
      have h2 : (0:Int) < 2 ^ (b - 1) := Int.pow_pos (by decide)
      cases signed <;> simp only [Bool.false_eq_true, if_true, if_false] <;> omega
    obtain ⟨e1, e2⟩ := accumulate_partial signed b x 0 fs h0 h
    rw [Int.zero_add] at e1 e2
    simp [LinFn.eval, e1, linValue, e2]
theorem accumulate_partial {A : Type} (signed : Bool) (b : Nat) (x : A) (acc : Int)
    (fs : List (Int × LinFn A)) (hacc : HoldsW signed b acc) (h : SmallSum signed b x acc fs) :
    LinFn.accumulate (arithW signed b) x acc fs = some (acc + linSum x fs) ∧
      (arithW signed b).ofInt (acc + linSum x fs) = acc + linSum x fs := by
  match fs with
  | [] => simp [LinFn.accumulate, linSum, (arithW_toW hacc).2]
  | (c, f) :: fs =>
    rw [SmallSum] at h
    obtain ⟨h1, h2, h3, h4, h5⟩ := h
    have e1 := c50_linear_partial signed b x f h1
    have e2 := accumulate_partial signed b x (acc + c * linValue x f) fs h3 h5
    rw [LinFn.accumulate, e1]
    simp only [Option.bind_eq_bind, Option.bind_some, (arithW_toW h2).1, (arithW_toW hacc).2,
      (arithW_toW h3).1, toInt32_of h4, linSum]
    rw [e2.1, Int.add_assoc]
    rw [Int.add_assoc] at e2
    exact ⟨rfl, e2.2⟩
end

mutual
/-- Every component function returns a value of the unsigned type with `b` bits. -/
def LeavesIn {A : Type} (b : Nat) (x : A) : LinFn A → Prop
  | .single f => 0 ≤ f x ∧ f x < 2 ^ b
  | .comb fs => LeavesInSum b x fs
/-- The same for a list of summands. -/
def LeavesInSum {A : Type} (b : Nat) (x : A) : List (Int × LinFn A) → Prop
  | [] => True
  | (_, f) :: fs => LeavesIn b x f ∧ LeavesInSum b x fs
end

theorem toInt32_mod {b : Nat} (hb : b ≤ 32) (z : Int) : toInt32 z % 2 ^ b = z % 2 ^ b := by
  obtain ⟨c, hc⟩ : ∃ c : Int, (2:Int) ^ 32 = 2 ^ b * c := ⟨2 ^ (32 - b), by
    rw [← Int.pow_add]; congr 1; omega⟩
  have e : toInt32 z = z + 2 ^ b * (c * (-((z + 2 ^ 31) / 2 ^ 32))) := by
    rw [← Int.mul_assoc, ← hc]
    unfold toInt32
    omega
  rw [e, Int.add_mul_emod_self_left]

mutual
/-- C50 for unsigned types of at most 32 bits, without any condition on the sums:
`linear_weight_function` computes the linear combination in the arithmetic of the type. -/
theorem c50_linear_unsigned {A : Type} (b : Nat) (hb : b ≤ 32) (x : A) (f : LinFn A)
    (h : LeavesIn b x f) : f.eval (arithW false b) x = some (linValue x f % 2 ^ b) := by
  cases f with
  | single f =>
    rw [LeavesIn] at h
    simp [LinFn.eval, linValue, Int.emod_eq_of_lt h.1 h.2]
  | comb fs =>
    rw [LeavesIn] at h
    obtain ⟨v, e1, e2⟩ := accumulate_unsigned b hb x 0 fs h
    rw [Int.zero_add] at e2
    rw [LinFn.eval, e1, linValue, ← e2]
    simp [arithW, IntW.unsigned]
theorem accumulate_unsigned {A : Type} (b : Nat) (hb : b ≤ 32) (x : A) (acc : Int)
    (fs : List (Int × LinFn A)) (h : LeavesInSum b x fs) :
    ∃ v, LinFn.accumulate (arithW false b) x acc fs = some v ∧
      v % 2 ^ b = (acc + linSum x fs) % 2 ^ b := by
  match fs with
  | [] => exact ⟨acc, by simp [LinFn.accumulate], by simp [linSum]⟩
  | (c, f) :: fs =>
    rw [LeavesInSum] at h
    have e1 := c50_linear_unsigned b hb x f h.1
    obtain ⟨v, e2, e3⟩ := accumulate_unsigned b hb x
      (toInt32 ((acc % 2 ^ b + c * (linValue x f % 2 ^ b) % 2 ^ b) % 2 ^ b)) fs h.2
    refine ⟨v, ?_, ?_⟩
    · rw [LinFn.accumulate, e1]
      simpa [arithW, IntW.unsigned] using e2
    · rw [e3, linSum, Int.add_emod, toInt32_mod hb, ← Int.add_assoc,
        Int.emod_emod_of_dvd _ (Int.dvd_refl _)]
      conv => rhs; rw [Int.add_emod, Int.add_emod acc]
      congr 3
      rw [Int.mul_emod c (linValue x f % 2 ^ b), Int.emod_emod_of_dvd _ (Int.dvd_refl _),
        ← Int.mul_emod]
end

/-- C50: with 64 bit weights the sum is cut to 32 bits: `1 * 2^32` evaluates to `0`. -/
theorem c50_linear_truncates :
    (LinFn.comb [(1, LinFn.single fun _ : Unit => 2 ^ 32)]).eval (arithW false 64) () = some 0 ∧
    (LinFn.comb [(1, LinFn.single fun _ : Unit => 2 ^ 32)]).eval (arithW true 64) () = some 0 ∧
    linValue () (LinFn.comb [(1, LinFn.single fun _ : Unit => 2 ^ 32)]) = 2 ^ 32 := by
  refine ⟨by decide, by decide, by decide⟩

example : Small true 64 (3, 4) (LinFn.comb [(2, .single Prod.fst), (-1, .single Prod.snd)]) ∧
    linValue ((3, 4) : Int × Int) (LinFn.comb [(2, .single Prod.fst), (-1, .single Prod.snd)]) = 2 := by
  simp only [Small, SmallSum, linValue, linSum, HoldsW, HoldsInt]
  decide

/-- C50: a list of functions that are small yields the vector of the linear combinations. -/
theorem c50_ordered_partial {A : Type} (signed : Bool) (b : Nat) (x : A) (fs : List (LinFn A))
    (h : ∀ f ∈ fs, Small signed b x f) :
    orderedEval (arithW signed b) fs x = some (fs.map (linValue x)) := by
  unfold orderedEval
  induction fs with
  | nil => rfl
  | cons f fs ih =>
    rw [List.mapM_cons, c50_linear_partial signed b x f (h f (by simp)),
      ih (fun g hg => h g (List.mem_cons_of_mem _ hg))]
    rfl

end Verif.Props
