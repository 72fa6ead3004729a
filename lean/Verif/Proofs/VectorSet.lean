import Verif.Model.VectorSet

/-! # Lemmas about sorted-vector maps and sets -/

namespace Verif

/-- A Boolean strict total order. -/
structure StrictTotal {K : Type} (lt : K → K → Bool) : Prop where
  irrefl : ∀ a, lt a a = false
  trans : ∀ a b c, lt a b = true → lt b c = true → lt a c = true
  tri : ∀ a b, lt a b = true ∨ a = b ∨ lt b a = true

theorem StrictTotal.asymm {K : Type} {lt : K → K → Bool} (h : StrictTotal lt) {a b : K}
    (hab : lt a b = true) : lt b a = false := by
  cases hba : lt b a with
  | false => rfl
  | true => have := h.trans a b a hab hba; simp [h.irrefl] at this

theorem StrictTotal.ne {K : Type} {lt : K → K → Bool} (h : StrictTotal lt) {a b : K}
    (hab : lt a b = true) : a ≠ b := by
  rintro rfl; simp [h.irrefl] at hab

theorem natLt_total : StrictTotal natLt where
  irrefl a := by simp [natLt]
  trans a b c := by simp only [natLt, decide_eq_true_eq]; omega
  tri a b := by simp only [natLt, decide_eq_true_eq]; omega

namespace VMap

variable {K V : Type} [DecidableEq K] {lt : K → K → Bool}

/-- Keys strictly increasing. -/
def Sorted (lt : K → K → Bool) (m : VMap K V) : Prop :=
  List.Pairwise (fun a b => lt a.1 b.1 = true) m

theorem lb_cons (e : K × V) (m : VMap K V) (k : K) :
    lb lt (e :: m) k = if lt e.1 k then lb lt m k + 1 else 0 := rfl

theorem emplace_nil (k : K) (v : V) : emplace lt ([] : VMap K V) k v = ([(k, v)], 0, true) := rfl

theorem emplace_cons (e : K × V) (m : VMap K V) (k : K) (v : V) :
    emplace lt (e :: m) k v =
      if lt e.1 k then
        (e :: (emplace lt m k v).1, (emplace lt m k v).2.1 + 1, (emplace lt m k v).2.2)
      else if e.1 ≠ k then ((k, v) :: e :: m, 0, true) else (e :: m, 0, false) := by
  unfold emplace
  rw [lb_cons]
  by_cases h : lt e.1 k = true
  · simp only [h, if_true, List.getElem?_cons_succ]
    cases h1 : m[lb lt m k]? with
    | none => simp
    | some e' => by_cases h2 : e'.1 = k <;> simp [h2]
  · simp only [h, List.getElem?_cons_zero]
    by_cases h2 : e.1 = k <;> simp [h2]

theorem insertOrAssign_cons (e : K × V) (m : VMap K V) (k : K) (v : V) :
    insertOrAssign lt (e :: m) k v =
      if lt e.1 k then
        (e :: (insertOrAssign lt m k v).1, (insertOrAssign lt m k v).2.1 + 1,
          (insertOrAssign lt m k v).2.2)
      else if e.1 ≠ k then ((k, v) :: e :: m, 0, true) else ((e.1, v) :: m, 0, false) := by
  unfold insertOrAssign
  rw [lb_cons]
  by_cases h : lt e.1 k = true
  · simp only [h, if_true, List.getElem?_cons_succ]
    cases h1 : m[lb lt m k]? with
    | none => simp
    | some e' => by_cases h2 : e'.1 = k <;> simp [h2]
  · simp only [h, List.getElem?_cons_zero]
    by_cases h2 : e.1 = k <;> simp [h2]

theorem find_cons (e : K × V) (m : VMap K V) (k : K) :
    find lt (e :: m) k =
      if lt e.1 k then find lt m k else if e.1 ≠ k then none else some e.2 := by
  unfold find
  rw [lb_cons]
  by_cases h : lt e.1 k = true
  · simp only [h, if_true, List.getElem?_cons_succ]
  · simp [h]

theorem contains_cons (e : K × V) (m : VMap K V) (k : K) :
    contains lt (e :: m) k = if lt e.1 k then contains lt m k else e.1 == k := by
  unfold contains
  rw [lb_cons]
  by_cases h : lt e.1 k = true <;> simp [h]

/-- Membership in a sorted map determines the value. -/
theorem Sorted.unique (hl : StrictTotal lt) {m : VMap K V} (hs : m.Sorted lt) {k : K} {v v' : V}
    (h : (k, v) ∈ m) (h' : (k, v') ∈ m) : v = v' := by
  induction m with
  | nil => simp at h
  | cons e m ih =>
    rw [Sorted, List.pairwise_cons] at hs
    rcases List.mem_cons.1 h with rfl | h1 <;> rcases List.mem_cons.1 h' with h2 | h2
    · cases h2; rfl
    · have := hs.1 _ h2; simp [hl.irrefl] at this
    · subst h2; have := hs.1 _ h1; simp [hl.irrefl] at this
    · exact ih hs.2 h1 h2

theorem find_eq (hl : StrictTotal lt) {m : VMap K V} (hs : m.Sorted lt) (k : K) (v : V) :
    find lt m k = some v ↔ (k, v) ∈ m := by
  induction m with
  | nil => simp [find]
  | cons e m ih =>
    rw [Sorted, List.pairwise_cons] at hs
    rw [find_cons]
    by_cases h : lt e.1 k = true
    · rw [if_pos h, ih hs.2, List.mem_cons]
      constructor
      · exact .inr
      · rintro (rfl | h')
        · simp [hl.irrefl] at h
        · exact h'
    · rw [if_neg h]
      by_cases h2 : e.1 = k
      · subst h2
        simp only [ne_eq, not_true_eq_false, if_false, Option.some.injEq, List.mem_cons]
        constructor
        · rintro rfl; exact .inl rfl
        · rintro (h' | h')
          · exact (congrArg Prod.snd h').symm
          · have := hs.1 _ h'; simp [hl.irrefl] at this
      · simp only [ne_eq, h2, not_false_eq_true, if_true, List.mem_cons, false_iff, not_or,
          reduceCtorEq]
        refine ⟨?_, fun h' => h (hs.1 _ h')⟩
        rintro rfl; exact h2 rfl

theorem contains_eq (hl : StrictTotal lt) {m : VMap K V} (hs : m.Sorted lt) (k : K) :
    contains lt m k = true ↔ ∃ v, (k, v) ∈ m := by
  have : contains lt m k = (find lt m k).isSome := by
    unfold contains find
    cases h1 : m[lb lt m k]? with
    | none => rfl
    | some e => by_cases h2 : e.1 = k <;> simp [h2]
  rw [this, Option.isSome_iff_exists]
  simp [find_eq hl hs]

theorem mem_emplace (hl : StrictTotal lt) {m : VMap K V} (hs : m.Sorted lt) (k : K) (v : V)
    (x : K × V) :
    x ∈ (emplace lt m k v).1 ↔ x ∈ m ∨ (x = (k, v) ∧ ∀ v', (k, v') ∉ m) := by
  induction m with
  | nil => simp [emplace_nil]
  | cons e m ih =>
    rw [Sorted, List.pairwise_cons] at hs
    rw [emplace_cons]
    by_cases h : lt e.1 k = true
    · rw [if_pos h]
      simp only [List.mem_cons, ih hs.2, not_or]
      have hne := hl.ne h
      constructor
      · rintro (h1 | h1 | ⟨h1, h2⟩)
        · exact .inl (.inl h1)
        · exact .inl (.inr h1)
        · exact .inr ⟨h1, fun v' => ⟨by rintro rfl; exact hne rfl, h2 v'⟩⟩
      · rintro ((h1 | h1) | ⟨h1, h2⟩)
        · exact .inl h1
        · exact .inr (.inl h1)
        · exact .inr (.inr ⟨h1, fun v' => (h2 v').2⟩)
    · rw [if_neg h]
      by_cases h2 : e.1 = k
      · simp only [ne_eq, h2, not_true_eq_false, if_false]
        constructor
        · exact .inl
        · rintro (h1 | ⟨_, h3⟩)
          · exact h1
          · exact absurd (List.mem_cons.2 (.inl (by cases e; simp_all))) (h3 e.2)
      · simp only [ne_eq, h2, not_false_eq_true, if_true]
        rw [List.mem_cons]
        constructor
        · rintro (h1 | h1)
          · refine .inr ⟨h1, fun v' hv' => ?_⟩
            rcases List.mem_cons.1 hv' with h3 | h3
            · exact h2 (congrArg Prod.fst h3).symm
            · exact h (hs.1 _ h3)
          · exact .inl h1
        · rintro (h1 | ⟨h1, _⟩)
          · exact .inr h1
          · exact .inl h1

theorem emplace_sorted (hl : StrictTotal lt) {m : VMap K V} (hs : m.Sorted lt) (k : K) (v : V) :
    Sorted lt (emplace lt m k v).1 := by
  induction m with
  | nil => simp [emplace_nil, Sorted]
  | cons e m ih =>
    have hs0 := hs
    rw [Sorted, List.pairwise_cons] at hs
    rw [emplace_cons]
    by_cases h : lt e.1 k = true
    · rw [if_pos h]
      show List.Pairwise _ _
      rw [List.pairwise_cons]
      refine ⟨fun x hx => ?_, ih hs.2⟩
      rcases (mem_emplace hl hs.2 k v x).1 hx with h1 | ⟨rfl, _⟩
      · exact hs.1 _ h1
      · exact h
    · rw [if_neg h]
      by_cases h2 : e.1 = k
      · simpa [h2] using hs0
      · simp only [ne_eq, h2, not_false_eq_true, if_true]
        show List.Pairwise _ _
        rw [List.pairwise_cons]
        have hlt : lt k e.1 = true := by
          rcases hl.tri e.1 k with h3 | h3 | h3
          · exact absurd h3 h
          · exact absurd h3 h2
          · exact h3
        refine ⟨fun x hx => ?_, hs0⟩
        rcases List.mem_cons.1 hx with rfl | h3
        · exact hlt
        · exact hl.trans _ _ _ hlt (hs.1 _ h3)

theorem emplace_fresh (hl : StrictTotal lt) {m : VMap K V} (hs : m.Sorted lt) (k : K) (v : V) :
    (emplace lt m k v).2.2 = true ↔ ∀ v', (k, v') ∉ m := by
  induction m with
  | nil => simp [emplace_nil]
  | cons e m ih =>
    rw [Sorted, List.pairwise_cons] at hs
    rw [emplace_cons]
    by_cases h : lt e.1 k = true
    · rw [if_pos h]
      simp only [ih hs.2, List.mem_cons, not_or]
      have hne := hl.ne h
      exact ⟨fun h1 v' => ⟨by rintro rfl; exact hne rfl, h1 v'⟩, fun h1 v' => (h1 v').2⟩
    · rw [if_neg h]
      by_cases h2 : e.1 = k
      · simp only [ne_eq, h2, not_true_eq_false, if_false, Bool.false_eq_true, false_iff]
        exact fun h3 => h3 e.2 (List.mem_cons.2 (.inl (by cases e; simp_all)))
      · simp only [ne_eq, h2, not_false_eq_true, if_true, true_iff]
        intro v' hv'
        rcases List.mem_cons.1 hv' with h3 | h3
        · exact h2 (congrArg Prod.fst h3).symm
        · exact h (hs.1 _ h3)

/-- The index returned by `emplace` points at an element with the given key. -/
theorem emplace_idx (hl : StrictTotal lt) {m : VMap K V} (hs : m.Sorted lt) (k : K) (v : V) :
    ∃ v', (emplace lt m k v).1[(emplace lt m k v).2.1]? = some (k, v') := by
  induction m with
  | nil => exact ⟨v, rfl⟩
  | cons e m ih =>
    rw [Sorted, List.pairwise_cons] at hs
    rw [emplace_cons]
    by_cases h : lt e.1 k = true
    · rw [if_pos h]
      obtain ⟨v', hv'⟩ := ih hs.2
      exact ⟨v', by simpa using hv'⟩
    · rw [if_neg h]
      by_cases h2 : e.1 = k
      · exact ⟨e.2, by cases e; simp_all⟩
      · exact ⟨v, by simp [h2]⟩

theorem mem_insertOrAssign (hl : StrictTotal lt) {m : VMap K V} (hs : m.Sorted lt) (k : K) (v : V)
    (x : K × V) :
    x ∈ (insertOrAssign lt m k v).1 ↔ (x.1 ≠ k ∧ x ∈ m) ∨ x = (k, v) := by
  induction m with
  | nil => simp [insertOrAssign, lb, lowerBound]
  | cons e m ih =>
    rw [Sorted, List.pairwise_cons] at hs
    rw [insertOrAssign_cons]
    by_cases h : lt e.1 k = true
    · rw [if_pos h]
      simp only [List.mem_cons, ih hs.2]
      have hne := hl.ne h
      constructor
      · rintro (rfl | h1 | h1)
        · exact .inl ⟨hne, .inl rfl⟩
        · exact .inl ⟨h1.1, .inr h1.2⟩
        · exact .inr h1
      · rintro (⟨h1, h2 | h2⟩ | h1)
        · exact .inl h2
        · exact .inr (.inl ⟨h1, h2⟩)
        · exact .inr (.inr h1)
    · rw [if_neg h]
      have hk : ∀ x ∈ m, x.1 ≠ k := fun x hx he => h (he ▸ hs.1 x hx)
      by_cases h2 : e.1 = k
      · simp only [ne_eq, h2, not_true_eq_false, if_false, List.mem_cons]
        constructor
        · rintro (rfl | h1)
          · exact .inr rfl
          · exact .inl ⟨hk _ h1, .inr h1⟩
        · rintro (⟨h1, rfl | h3⟩ | rfl)
          · exact absurd h2 h1
          · exact .inr h3
          · exact .inl rfl
      · simp only [ne_eq, h2, not_false_eq_true, if_true, List.mem_cons]
        constructor
        · rintro (rfl | rfl | h1)
          · exact .inr rfl
          · exact .inl ⟨h2, .inl rfl⟩
          · exact .inl ⟨hk _ h1, .inr h1⟩
        · rintro (⟨_, h3⟩ | rfl)
          · exact .inr h3
          · exact .inl rfl

theorem insertOrAssign_sorted (hl : StrictTotal lt) {m : VMap K V} (hs : m.Sorted lt)
    (k : K) (v : V) : Sorted lt (insertOrAssign lt m k v).1 := by
  induction m with
  | nil => simp [insertOrAssign, Sorted, lb, lowerBound]
  | cons e m ih =>
    have hs0 := hs
    rw [Sorted, List.pairwise_cons] at hs
    rw [insertOrAssign_cons]
    by_cases h : lt e.1 k = true
    · rw [if_pos h]
      show List.Pairwise _ _
      rw [List.pairwise_cons]
      refine ⟨fun x hx => ?_, ih hs.2⟩
      rcases (mem_insertOrAssign hl hs.2 k v x).1 hx with ⟨_, h1⟩ | rfl
      · exact hs.1 _ h1
      · exact h
    · rw [if_neg h]
      by_cases h2 : e.1 = k
      · simp only [ne_eq, h2, not_true_eq_false, if_false]
        show List.Pairwise _ _
        rw [List.pairwise_cons]
        exact ⟨fun x hx => h2 ▸ hs.1 x hx, hs.2⟩
      · simp only [ne_eq, h2, not_false_eq_true, if_true]
        show List.Pairwise _ _
        rw [List.pairwise_cons]
        have hlt : lt k e.1 = true := by
          rcases hl.tri e.1 k with h3 | h3 | h3
          · exact absurd h3 h
          · exact absurd h3 h2
          · exact h3
        refine ⟨fun x hx => ?_, hs0⟩
        rcases List.mem_cons.1 hx with rfl | h3
        · exact hlt
        · exact hl.trans _ _ _ hlt (hs.1 _ h3)

/-- Updating the element at the index of key `k` in a sorted map. -/
theorem mem_modify_key (hl : StrictTotal lt) {m : VMap K V} (hs : m.Sorted lt) {k : K} {v : V}
    {i : Nat} (hi : m[i]? = some (k, v)) (f : V → V) (x : K × V) :
    x ∈ m.modify i (fun e => (e.1, f e.2)) ↔ (x.1 ≠ k ∧ x ∈ m) ∨ x = (k, f v) := by
  induction m generalizing i with
  | nil => simp at hi
  | cons e m ih =>
    rw [Sorted, List.pairwise_cons] at hs
    cases i with
    | zero =>
      simp only [List.getElem?_cons_zero, Option.some.injEq] at hi
      subst hi
      simp only [List.modify_zero_cons, List.mem_cons]
      have hk : ∀ x ∈ m, x.1 ≠ k := fun x hx he => by
        have := hs.1 x hx; simp [he, hl.irrefl] at this
      constructor
      · rintro (rfl | h1)
        · exact .inr rfl
        · exact .inl ⟨hk _ h1, .inr h1⟩
      · rintro (⟨h1, rfl | h3⟩ | rfl)
        · exact absurd rfl h1
        · exact .inr h3
        · exact .inl rfl
    | succ i =>
      simp only [List.getElem?_cons_succ] at hi
      simp only [List.modify_succ_cons, List.mem_cons, ih hs.2 hi]
      have hek : e.1 ≠ k := hl.ne (hs.1 _ (List.mem_of_getElem? hi))
      constructor
      · rintro (rfl | h1 | h1)
        · exact .inl ⟨hek, .inl rfl⟩
        · exact .inl ⟨h1.1, .inr h1.2⟩
        · exact .inr h1
      · rintro (⟨h1, h2 | h2⟩ | h1)
        · exact .inl h2
        · exact .inr (.inl ⟨h1, h2⟩)
        · exact .inr (.inr h1)

theorem modify_sorted {m : VMap K V} (hs : m.Sorted lt) (i : Nat) (f : V → V) :
    Sorted lt (m.modify i (fun e => (e.1, f e.2))) := by
  induction m generalizing i with
  | nil => simpa using hs
  | cons e m ih =>
    rw [Sorted, List.pairwise_cons] at hs
    cases i with
    | zero => simp only [List.modify_zero_cons]; exact List.pairwise_cons.2 ⟨hs.1, hs.2⟩
    | succ i =>
      simp only [List.modify_succ_cons]
      refine List.pairwise_cons.2 ⟨fun x hx => ?_, ih hs.2 i⟩
      obtain ⟨j, hj⟩ := List.mem_iff_getElem?.1 hx
      rw [List.getElem?_modify] at hj
      cases hm : m[j]? with
      | none => simp [hm] at hj
      | some y =>
        have hy := hs.1 y (List.mem_of_getElem? hm)
        simp only [hm, Option.map_eq_map, Option.map_some, Option.some.injEq] at hj
        subst hj
        split <;> exact hy

end VMap

namespace VSet

variable {K : Type} [DecidableEq K] {lt : K → K → Bool}

/-- Elements strictly increasing. -/
def Sorted (lt : K → K → Bool) (m : VSet K) : Prop := List.Pairwise (fun a b => lt a b = true) m

theorem lb_cons (e : K) (m : VSet K) (k : K) :
    lowerBound lt (e :: m) k = if lt e k then lowerBound lt m k + 1 else 0 := rfl

theorem emplace_cons (e : K) (m : VSet K) (k : K) :
    emplace lt (e :: m) k =
      if lt e k then (e :: (emplace lt m k).1, (emplace lt m k).2)
      else if e ≠ k then (k :: e :: m, true) else (e :: m, false) := by
  unfold emplace
  rw [lb_cons]
  by_cases h : lt e k = true
  · simp only [h, if_true, List.getElem?_cons_succ]
    cases h1 : m[lowerBound lt m k]? with
    | none => simp
    | some e' => by_cases h2 : e' = k <;> simp [h2]
  · simp only [h, List.getElem?_cons_zero]
    by_cases h2 : e = k <;> simp [h2]

theorem contains_cons (e : K) (m : VSet K) (k : K) :
    contains lt (e :: m) k = if lt e k then contains lt m k else e == k := by
  unfold contains
  rw [lb_cons]
  by_cases h : lt e k = true <;> simp [h]

theorem contains_eq (hl : StrictTotal lt) {m : VSet K} (hs : Sorted lt m) (k : K) :
    contains lt m k = true ↔ k ∈ m := by
  induction m with
  | nil => simp [contains]
  | cons e m ih =>
    rw [Sorted, List.pairwise_cons] at hs
    rw [contains_cons]
    by_cases h : lt e k = true
    · rw [if_pos h, ih hs.2, List.mem_cons]
      have := hl.ne h
      grind
    · rw [if_neg h, List.mem_cons]
      have := hs.1
      grind

theorem mem_emplace (hl : StrictTotal lt) {m : VSet K} (k x : K) :
    x ∈ (emplace lt m k).1 ↔ x ∈ m ∨ x = k := by
  induction m with
  | nil => simp [emplace, lowerBound]
  | cons e m ih =>
    rw [emplace_cons]
    by_cases h : lt e k = true
    · rw [if_pos h]
      simp only [List.mem_cons, ih]
      grind
    · rw [if_neg h]
      by_cases h2 : e = k
      · simp only [h2, ne_eq, not_true_eq_false, if_false, List.mem_cons]; grind
      · simp only [ne_eq, h2, not_false_eq_true, if_true, List.mem_cons]
        grind

theorem emplace_sorted (hl : StrictTotal lt) {m : VSet K} (hs : Sorted lt m) (k : K) :
    Sorted lt (emplace lt m k).1 := by
  induction m with
  | nil => simp [emplace, lowerBound, Sorted]
  | cons e m ih =>
    have hs0 := hs
    rw [Sorted, List.pairwise_cons] at hs
    rw [emplace_cons]
    by_cases h : lt e k = true
    · rw [if_pos h]
      refine List.pairwise_cons.2 ⟨fun x hx => ?_, ih hs.2⟩
      rcases (mem_emplace hl k x).1 hx with h1 | rfl
      · exact hs.1 _ h1
      · exact h
    · rw [if_neg h]
      by_cases h2 : e = k
      · simpa [h2] using hs0
      · simp only [ne_eq, h2, not_false_eq_true, if_true]
        have hlt : lt k e = true := by
          rcases hl.tri e k with h3 | h3 | h3
          · exact absurd h3 h
          · exact absurd h3 h2
          · exact h3
        refine List.pairwise_cons.2 ⟨fun x hx => ?_, hs0⟩
        rcases List.mem_cons.1 hx with rfl | h3
        · exact hlt
        · exact hl.trans _ _ _ hlt (hs.1 _ h3)

theorem emplace_fresh (hl : StrictTotal lt) {m : VSet K} (hs : Sorted lt m) (k : K) :
    (emplace lt m k).2 = true ↔ k ∉ m := by
  induction m with
  | nil => simp [emplace, lowerBound]
  | cons e m ih =>
    rw [Sorted, List.pairwise_cons] at hs
    rw [emplace_cons]
    by_cases h : lt e k = true
    · rw [if_pos h]
      have hne := hl.ne h
      simp only [ih hs.2, List.mem_cons, not_or]
      exact ⟨fun h1 => ⟨fun h2 => hne h2.symm, h1⟩, fun h1 => h1.2⟩
    · rw [if_neg h]
      have := hs.1
      by_cases h2 : e = k
      · simp [h2]
      · simp only [ne_eq, h2, not_false_eq_true, if_true, List.mem_cons, not_or, true_iff]
        exact ⟨fun h3 => h2 h3.symm, fun h3 => h (this _ h3)⟩

end VSet

/-! ## Set operations on sorted ranges -/

/-- Strictly increasing list of naturals. -/
abbrev SSorted (l : List Nat) : Prop := l.Pairwise (· < ·)

theorem mem_setUnion (x : Nat) (as bs : List Nat) :
    x ∈ setUnion as bs ↔ x ∈ as ∨ x ∈ bs := by
  fun_induction setUnion as bs <;> grind

theorem setInter_sublist (as bs : List Nat) : (setInter as bs).Sublist as := by
  fun_induction setInter as bs with
  | case1 => exact .slnil
  | case2 => exact List.nil_sublist _
  | case3 a as b bs h ih => exact ih.trans (List.sublist_cons_self _ _)
  | case4 a as b bs h h' ih => exact ih
  | case5 a as b bs h h' ih => exact ih.cons_cons _

theorem mem_setInter {as bs : List Nat} (ha : SSorted as) (hb : SSorted bs) (x : Nat) :
    x ∈ setInter as bs ↔ x ∈ as ∧ x ∈ bs := by
  fun_induction setInter as bs with
  | case1 => simp
  | case2 => simp
  | case3 a as b bs h ih =>
    have hb' := List.pairwise_cons.1 hb
    rw [SSorted, List.pairwise_cons] at ha
    rw [ih ha.2 hb]
    grind
  | case4 a as b bs h h' ih =>
    have ha' := List.pairwise_cons.1 ha
    rw [SSorted, List.pairwise_cons] at hb
    rw [ih ha hb.2]
    grind
  | case5 a as b bs h h' ih =>
    have hab : a = b := by omega
    subst hab
    rw [SSorted, List.pairwise_cons] at ha hb
    simp only [List.mem_cons, ih ha.2 hb.2]
    grind

theorem setDiff_sublist (as bs : List Nat) : (setDiff as bs).Sublist as := by
  fun_induction setDiff as bs with
  | case1 => exact .slnil
  | case2 => exact List.Sublist.refl _
  | case3 a as b bs h ih => exact ih.cons_cons _
  | case4 a as b bs h h' ih => exact ih
  | case5 a as b bs h h' ih => exact ih.trans (List.sublist_cons_self _ _)

theorem mem_setDiff {as bs : List Nat} (ha : SSorted as) (hb : SSorted bs) (x : Nat) :
    x ∈ setDiff as bs ↔ x ∈ as ∧ x ∉ bs := by
  fun_induction setDiff as bs with
  | case1 => simp
  | case2 => simp
  | case3 a as b bs h ih =>
    have hb' := List.pairwise_cons.1 hb
    rw [SSorted, List.pairwise_cons] at ha
    simp only [List.mem_cons, ih ha.2 hb]
    grind
  | case4 a as b bs h h' ih =>
    have ha' := List.pairwise_cons.1 ha
    rw [SSorted, List.pairwise_cons] at hb
    rw [ih ha hb.2]
    grind
  | case5 a as b bs h h' ih =>
    have hab : a = b := by omega
    subst hab
    rw [SSorted, List.pairwise_cons] at ha hb
    rw [ih ha.2 hb.2]
    grind

end Verif
