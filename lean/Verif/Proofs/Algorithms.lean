import Verif.Model.Algorithms
import Mathlib.Order.Basic
import Mathlib.Data.List.Basic
import Mathlib.Data.List.Nodup

/-! # The standard algorithms on sorted ranges -/

namespace Verif

section
variable {α K : Type} [LinearOrder K] (f : α → K)

/-- Comparison by a key. -/
abbrev keyLt (x y : α) : Bool := decide (f x < f y)

theorem insertBy_perm (lt : α → α → Bool) (x : α) (l : List α) : (insertBy lt x l).Perm (x :: l) := by
  induction l with
  | nil => exact List.Perm.refl _
  | cons y ys ih =>
    unfold insertBy
    split
    · exact (List.Perm.cons y ih).trans (List.Perm.swap x y ys)
    · exact List.Perm.refl _

theorem sortBy_perm (lt : α → α → Bool) (l : List α) : (sortBy lt l).Perm l := by
  induction l with
  | nil => exact List.Perm.refl _
  | cons x xs ih => exact (insertBy_perm lt x _).trans (List.Perm.cons x ih)

theorem mem_sortBy (lt : α → α → Bool) (l : List α) (x : α) : x ∈ sortBy lt l ↔ x ∈ l :=
  (sortBy_perm lt l).mem_iff

theorem insertBy_sorted (x : α) (l : List α) (h : l.Pairwise fun a b => f a ≤ f b) :
    (insertBy (keyLt f) x l).Pairwise fun a b => f a ≤ f b := by
  induction l with
  | nil => simp [insertBy]
  | cons y ys ih =>
    unfold insertBy
    rw [List.pairwise_cons] at h
    split
    · rename_i hlt
      rw [List.pairwise_cons]
      refine ⟨fun z hz => ?_, ih h.2⟩
      rcases List.mem_cons.1 ((insertBy_perm _ x ys).mem_iff.1 hz) with rfl | hz
      · exact le_of_lt (by simpa using hlt)
      · exact h.1 z hz
    · rename_i hlt
      have hle : f x ≤ f y := not_lt.1 (by simpa using hlt)
      rw [List.pairwise_cons, List.pairwise_cons]
      refine ⟨fun z hz => ?_, h⟩
      rcases List.mem_cons.1 hz with rfl | hz
      · exact hle
      · exact le_trans hle (h.1 z hz)

theorem sortBy_sorted (l : List α) : (sortBy (keyLt f) l).Pairwise fun a b => f a ≤ f b := by
  induction l with
  | nil => exact List.Pairwise.nil
  | cons x xs ih => exact insertBy_sorted f x _ ih

theorem mergeBy_perm (lt : α → α → Bool) (as bs : List α) : (mergeBy lt as bs).Perm (as ++ bs) := by
  fun_induction mergeBy lt as bs with
  | case1 => exact List.Perm.refl _
  | case2 => simp
  | case3 a as b bs h ih =>
    exact (List.Perm.cons b ih).trans (List.perm_middle (l₁ := a :: as) (a := b) (l₂ := bs)).symm
  | case4 a as b bs h ih => exact List.Perm.cons a ih

theorem mem_mergeBy (lt : α → α → Bool) (as bs : List α) (x : α) : x ∈ mergeBy lt as bs ↔ x ∈ as ∨ x ∈ bs := by
  rw [(mergeBy_perm lt as bs).mem_iff, List.mem_append]

theorem mergeBy_sorted (as bs : List α) (ha : as.Pairwise fun a b => f a ≤ f b)
    (hb : bs.Pairwise fun a b => f a ≤ f b) : (mergeBy (keyLt f) as bs).Pairwise fun a b => f a ≤ f b := by
  fun_induction mergeBy (keyLt f) as bs with
  | case1 => exact hb
  | case2 => exact ha
  | case3 a as b bs h ih =>
    rw [List.pairwise_cons] at hb ⊢
    refine ⟨fun z hz => ?_, ih ha hb.2⟩
    have hlt : f b < f a := by simpa using h
    rcases (mem_mergeBy _ _ _ _).1 hz with hz | hz
    · rw [List.pairwise_cons] at ha
      rcases List.mem_cons.1 hz with rfl | hz
      · exact le_of_lt hlt
      · exact le_trans (le_of_lt hlt) (ha.1 z hz)
    · exact hb.1 z hz
  | case4 a as b bs h ih =>
    rw [List.pairwise_cons] at ha ⊢
    refine ⟨fun z hz => ?_, ih ha.2 hb⟩
    have hle : f a ≤ f b := not_lt.1 (by simpa using h)
    rcases (mem_mergeBy _ _ _ _).1 hz with hz | hz
    · exact ha.1 z hz
    · rw [List.pairwise_cons] at hb
      rcases List.mem_cons.1 hz with rfl | hz
      · exact hle
      · exact le_trans hle (hb.1 z hz)

end

section
variable {α : Type} [LinearOrder α]

/-- Strictly increasing. -/
abbrev Strict (l : List α) : Prop := l.Pairwise (· < ·)

/-- Increasing. -/
abbrev Incr (l : List α) : Prop := l.Pairwise (· ≤ ·)

theorem Strict.incr {l : List α} (h : Strict l) : Incr l := h.imp le_of_lt

theorem Strict.nodup {l : List α} (h : Strict l) : l.Nodup := h.imp ne_of_lt

theorem Incr.strict {l : List α} (h : Incr l) (hn : l.Nodup) : Strict l :=
  (h.and hn).imp fun h => lt_of_le_of_ne h.1 h.2

theorem strict_ext {as bs : List α} (ha : Strict as) (hb : Strict bs) (h : ∀ x, x ∈ as ↔ x ∈ bs) : as = bs :=
  List.Perm.eq_of_pairwise (fun _ _ _ _ h1 h2 => absurd h2 (lt_asymm h1)) ha hb
    ((List.perm_ext_iff_of_nodup ha.nodup hb.nodup).2 h)

theorem sortBy_incr (l : List α) : Incr (sortBy ltB l) := sortBy_sorted id l

theorem sortBy_strict {l : List α} (h : l.Nodup) : Strict (sortBy ltB l) :=
  (sortBy_incr l).strict ((sortBy_perm _ l).nodup_iff.2 h)

theorem mergeBy_incr {as bs : List α} (ha : Incr as) (hb : Incr bs) : Incr (mergeBy ltB as bs) :=
  mergeBy_sorted id as bs ha hb

theorem mergeBy_strict {as bs : List α} (ha : Strict as) (hb : Strict bs) (h : ∀ x ∈ as, x ∉ bs) :
    Strict (mergeBy ltB as bs) := by
  refine (mergeBy_incr ha.incr hb.incr).strict ((mergeBy_perm _ as bs).nodup_iff.2 ?_)
  rw [List.nodup_append']
  exact ⟨ha.nodup, hb.nodup, fun x h1 h2 => h x h1 h2⟩

theorem mem_unionG (as bs : List α) (x : α) : x ∈ unionG as bs ↔ x ∈ as ∨ x ∈ bs := by
  fun_induction unionG as bs with
  | case1 => simp
  | case2 => simp
  | case3 a as b bs h ih => rw [List.mem_cons, ih]; simp only [List.mem_cons, or_assoc]
  | case4 a as b bs h1 h2 ih =>
    rw [List.mem_cons, ih]; simp only [List.mem_cons]; grind
  | case5 a as b bs h1 h2 ih =>
    have : a = b := le_antisymm (not_lt.1 h2) (not_lt.1 h1)
    subst this
    rw [List.mem_cons, ih]; simp only [List.mem_cons]; grind

theorem unionG_strict {as bs : List α} (ha : Strict as) (hb : Strict bs) : Strict (unionG as bs) := by
  fun_induction unionG as bs with
  | case1 => exact hb
  | case2 => exact ha
  | case3 a as b bs h ih =>
    rw [Strict, List.pairwise_cons] at ha ⊢
    refine ⟨fun x hx => ?_, ih ha.2 hb⟩
    rcases (mem_unionG _ _ _).1 hx with hx | hx
    · exact ha.1 x hx
    · rw [Strict, List.pairwise_cons] at hb
      rcases List.mem_cons.1 hx with rfl | hx
      · exact h
      · exact lt_trans h (hb.1 x hx)
  | case4 a as b bs h1 h2 ih =>
    rw [Strict, List.pairwise_cons] at hb ⊢
    refine ⟨fun x hx => ?_, ih ha hb.2⟩
    rcases (mem_unionG _ _ _).1 hx with hx | hx
    · rw [Strict, List.pairwise_cons] at ha
      rcases List.mem_cons.1 hx with rfl | hx
      · exact h2
      · exact lt_trans h2 (ha.1 x hx)
    · exact hb.1 x hx
  | case5 a as b bs h1 h2 ih =>
    have : a = b := le_antisymm (not_lt.1 h2) (not_lt.1 h1)
    subst this
    rw [Strict, List.pairwise_cons] at ha hb ⊢
    refine ⟨fun x hx => ?_, ih ha.2 hb.2⟩
    rcases (mem_unionG _ _ _).1 hx with hx | hx
    · exact ha.1 x hx
    · exact hb.1 x hx

theorem interG_sublist (as bs : List α) : (interG as bs).Sublist as := by
  fun_induction interG as bs with
  | case1 => exact List.Sublist.refl _
  | case2 => exact List.nil_sublist _
  | case3 a as b bs h ih => exact ih.cons a
  | case4 a as b bs h1 h2 ih => exact ih
  | case5 a as b bs h1 h2 ih => exact ih.cons_cons a

theorem mem_interG {as bs : List α} (ha : Incr as) (hb : Incr bs) (x : α) :
    x ∈ interG as bs ↔ x ∈ as ∧ x ∈ bs := by
  fun_induction interG as bs with
  | case1 => simp
  | case2 => simp
  | case3 a as b bs h ih =>
    rw [Incr, List.pairwise_cons] at ha
    rw [ih ha.2 hb]
    refine ⟨fun h => ⟨List.mem_cons_of_mem _ h.1, h.2⟩, fun ⟨h1, h2⟩ => ⟨?_, h2⟩⟩
    rcases List.mem_cons.1 h1 with rfl | h1
    · rw [Incr, List.pairwise_cons] at hb
      rcases List.mem_cons.1 h2 with rfl | h2
      · exact absurd h (lt_irrefl _)
      · exact absurd (lt_of_lt_of_le h (hb.1 _ h2)) (lt_irrefl _)
    · exact h1
  | case4 a as b bs h1 h2 ih =>
    rw [Incr, List.pairwise_cons] at hb
    rw [ih ha hb.2]
    refine ⟨fun h => ⟨h.1, List.mem_cons_of_mem _ h.2⟩, fun ⟨h3, h4⟩ => ⟨h3, ?_⟩⟩
    rcases List.mem_cons.1 h4 with rfl | h4
    · rw [Incr, List.pairwise_cons] at ha
      rcases List.mem_cons.1 h3 with rfl | h3
      · exact absurd h2 (lt_irrefl _)
      · exact absurd (lt_of_lt_of_le h2 (ha.1 _ h3)) (lt_irrefl _)
    · exact h4
  | case5 a as b bs h1 h2 ih =>
    have : a = b := le_antisymm (not_lt.1 h2) (not_lt.1 h1)
    subst this
    rw [Incr, List.pairwise_cons] at ha hb
    rw [List.mem_cons, ih ha.2 hb.2]
    simp only [List.mem_cons]
    constructor
    · rintro (rfl | ⟨h1, h2⟩)
      · simp
      · exact ⟨.inr h1, .inr h2⟩
    · rintro ⟨h1 | h1, h2⟩
      · exact .inl h1
      · rcases h2 with h2 | h2
        · exact .inl h2
        · exact .inr ⟨h1, h2⟩

theorem diffG_sublist (as bs : List α) : (diffG as bs).Sublist as := by
  fun_induction diffG as bs with
  | case1 => exact List.Sublist.refl _
  | case2 => exact List.Sublist.refl _
  | case3 a as b bs h ih => exact ih.cons_cons a
  | case4 a as b bs h1 h2 ih => exact ih
  | case5 a as b bs h1 h2 ih => exact ih.cons a

theorem mem_diffG {as bs : List α} (ha : Strict as) (hb : Incr bs) (x : α) :
    x ∈ diffG as bs ↔ x ∈ as ∧ x ∉ bs := by
  fun_induction diffG as bs with
  | case1 => simp
  | case2 => simp
  | case3 a as b bs h ih =>
    rw [Strict, List.pairwise_cons] at ha
    rw [List.mem_cons, ih ha.2 hb, List.mem_cons (a := x) (b := a)]
    constructor
    · rintro (rfl | ⟨h1, h2⟩)
      · refine ⟨.inl rfl, fun hm => ?_⟩
        rw [Incr, List.pairwise_cons] at hb
        rcases List.mem_cons.1 hm with rfl | hm
        · exact absurd h (lt_irrefl _)
        · exact absurd (lt_of_lt_of_le h (hb.1 _ hm)) (lt_irrefl _)
      · exact ⟨.inr h1, h2⟩
    · rintro ⟨rfl | h1, h2⟩
      · exact .inl rfl
      · exact .inr ⟨h1, h2⟩
  | case4 a as b bs h1 h2 ih =>
    rw [Incr, List.pairwise_cons] at hb
    rw [ih ha hb.2]
    refine ⟨fun ⟨h3, h4⟩ => ⟨h3, fun hm => ?_⟩, fun ⟨h3, h4⟩ => ⟨h3, fun hm => h4 (List.mem_cons_of_mem _ hm)⟩⟩
    rcases List.mem_cons.1 hm with rfl | hm
    · rw [Strict, List.pairwise_cons] at ha
      rcases List.mem_cons.1 h3 with rfl | h3
      · exact absurd h2 (lt_irrefl _)
      · exact absurd (lt_trans h2 (ha.1 _ h3)) (lt_irrefl _)
    · exact h4 hm
  | case5 a as b bs h1 h2 ih =>
    have : a = b := le_antisymm (not_lt.1 h2) (not_lt.1 h1)
    subst this
    rw [Strict, List.pairwise_cons] at ha
    rw [Incr, List.pairwise_cons] at hb
    rw [ih ha.2 hb.2]
    simp only [List.mem_cons, not_or]
    constructor
    · rintro ⟨h3, h4⟩
      exact ⟨.inr h3, fun he => by subst he; exact lt_irrefl _ (ha.1 _ h3), h4⟩
    · rintro ⟨rfl | h3, h4, h5⟩
      · exact absurd rfl h4
      · exact ⟨h3, h5⟩

theorem includesG_iff {as bs : List α} (ha : Incr as) (hb : Strict bs) :
    includesG as bs = true ↔ ∀ x ∈ bs, x ∈ as := by
  fun_induction includesG as bs with
  | case1 => simp
  | case2 b bs => simp only [Bool.false_eq_true, false_iff]; intro h; exact absurd (h b (by simp)) (by simp)
  | case3 a as b bs h =>
    simp only [Bool.false_eq_true, false_iff]
    intro hall
    rw [Incr, List.pairwise_cons] at ha
    rcases List.mem_cons.1 (hall b (by simp)) with rfl | hm
    · exact lt_irrefl _ h
    · exact lt_irrefl _ (lt_of_lt_of_le h (ha.1 _ hm))
  | case4 a as b bs h1 h2 ih =>
    rw [Incr, List.pairwise_cons] at ha
    rw [ih ha.2 hb]
    refine ⟨fun h x hx => List.mem_cons_of_mem _ (h x hx), fun h x hx => ?_⟩
    rcases List.mem_cons.1 (h x hx) with rfl | hm
    · rw [Strict, List.pairwise_cons] at hb
      rcases List.mem_cons.1 hx with rfl | hx
      · exact absurd h2 (lt_irrefl _)
      · exact absurd (lt_trans h2 (hb.1 _ hx)) (lt_irrefl _)
    · exact hm
  | case5 a as b bs h1 h2 ih =>
    have : a = b := le_antisymm (not_lt.1 h1) (not_lt.1 h2)
    subst this
    rw [Incr, List.pairwise_cons] at ha
    rw [Strict, List.pairwise_cons] at hb
    rw [ih ha.2 hb.2]
    constructor
    · intro h x hx
      rcases List.mem_cons.1 hx with rfl | hx
      · simp
      · exact List.mem_cons_of_mem _ (h x hx)
    · intro h x hx
      rcases List.mem_cons.1 (h x (by simp [hx])) with rfl | hm
      · exact absurd (hb.1 _ hx) (lt_irrefl _)
      · exact hm

theorem uniqueBy_sublist (eq : α → α → Bool) (l : List α) : (uniqueBy eq l).Sublist l := by
  fun_induction uniqueBy eq l with
  | case1 => exact List.Sublist.refl _
  | case2 => exact List.Sublist.refl _
  | case3 a b l h ih => exact ih.trans ((List.sublist_cons_self b l).cons_cons a)
  | case4 a b l h ih => exact ih.cons_cons a

theorem uniqueBy_spec {l : List α} (h : Incr l) :
    Strict (uniqueBy (fun a b => decide (a = b)) l) ∧
    ∀ x, x ∈ uniqueBy (fun a b => decide (a = b)) l ↔ x ∈ l := by
  fun_induction uniqueBy (fun a b => decide (a = b)) l with
  | case1 => simp
  | case2 => simp
  | case3 a b l he ih =>
    have : a = b := by simpa using he
    subst this
    rw [Incr, List.pairwise_cons] at h
    obtain ⟨h1, h2⟩ := ih h.2
    refine ⟨h1, fun x => ?_⟩
    rw [h2]; simp
  | case4 a b l he ih =>
    have hne : a ≠ b := by simpa using he
    rw [Incr, List.pairwise_cons] at h
    obtain ⟨h1, h2⟩ := ih h.2
    refine ⟨?_, fun x => by rw [List.mem_cons, h2, List.mem_cons (a := x) (b := a)]⟩
    rw [Strict, List.pairwise_cons]
    refine ⟨fun x hx => ?_, h1⟩
    have hx := (h2 x).1 hx
    have hab : a < b := lt_of_le_of_ne (h.1 b (by simp)) hne
    rcases List.mem_cons.1 hx with rfl | hx
    · exact hab
    · have h3 := h.2
      rw [List.pairwise_cons] at h3
      exact lt_of_lt_of_le hab (h3.1 x hx)

end

end Verif
