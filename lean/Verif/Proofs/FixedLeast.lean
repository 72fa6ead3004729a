import Verif.Spec.Weighted
import Mathlib.Order.Basic
import Mathlib.Order.Defs.LinearOrder

/-! # Finitely many paths read a word, so there is a best one -/

namespace Verif

variable {T : Type}

/-- A nonempty set contained in a list has a least element. -/
theorem exists_isLeast_of_list [LinearOrder T] (S : Set T) (l : List T) (hl : ∀ x ∈ S, x ∈ l) (hne : ∃ x, x ∈ S) :
    ∃ m, IsLeast S m := by
  induction l generalizing S with
  | nil =>
    obtain ⟨x, hx⟩ := hne
    have := hl x hx
    simp at this
  | cons a l ih =>
    by_cases hrest : ∃ x, x ∈ S ∧ x ≠ a
    · obtain ⟨m, hm1, hm2⟩ := ih { x | x ∈ S ∧ x ≠ a } (by
        rintro x ⟨h1, h2⟩
        rcases List.mem_cons.1 (hl x h1) with rfl | h
        · exact absurd rfl h2
        · exact h) hrest
      by_cases ha : a ∈ S
      · rcases le_total a m with h | h
        · refine ⟨a, ha, fun x hx => ?_⟩
          by_cases hxa : x = a
          · exact hxa ▸ le_refl a
          · exact le_trans h (hm2 ⟨hx, hxa⟩)
        · refine ⟨m, hm1.1, fun x hx => ?_⟩
          by_cases hxa : x = a
          · exact hxa ▸ h
          · exact hm2 ⟨hx, hxa⟩
      · exact ⟨m, hm1.1, fun x hx => hm2 ⟨hx, fun h => ha (h ▸ hx)⟩⟩
    · have hall : ∀ x ∈ S, x = a := fun x hx => by
        by_contra h
        exact hrest ⟨x, hx, h⟩
      obtain ⟨x, hx⟩ := hne
      exact ⟨a, hall x hx ▸ hx, fun y hy => hall y hy ▸ le_refl _⟩

variable [AddCommMonoid T]

/-- The weights of the paths that read a word are contained in a list. -/
theorem costPath_list {E : Tr → T → Prop} (Ed : List (Tr × T)) (hE : ∀ t x, E t x → (t, x) ∈ Ed) (w : List Nat) :
    ∀ q, ∃ l : List T, ∀ x f, CostPath E q w x f → x ∈ l := by
  induction w with
  | nil =>
    intro q
    refine ⟨[0], fun x f h => ?_⟩
    cases h
    exact List.mem_singleton.2 rfl
  | cons g w ih =>
    intro q
    refine ⟨Ed.flatMap fun e => ((ih e.1.dst).choose).map (e.2 + ·), fun x f h => ?_⟩
    cases h with
    | @cons _ _ q' _ _ x y he hp =>
      rw [List.mem_flatMap]
      refine ⟨_, hE _ _ he, ?_⟩
      rw [List.mem_map]
      exact ⟨y, (ih q').choose_spec y f hp, rfl⟩

/-- The same with epsilon transitions, which must not follow one another. -/
theorem costEPath_list {E : Tr → T → Prop} (Ed : List (Tr × T)) (hE : ∀ t x, E t x → (t, x) ∈ Ed)
    (heps : ∀ f m q x y, E ⟨f, epsilon, m⟩ x → ¬ E ⟨m, epsilon, q⟩ y) (w : List Nat) :
    ∀ q, ∃ l : List T, ∀ x f, CostEPath E q w x f → x ∈ l := by
  have drop : ∀ w, (∀ q, ∃ l : List T, ∀ x f, CostEPath E q w x f → (∀ m y, ¬ E ⟨q, epsilon, m⟩ y) → x ∈ l) →
      ∀ q, ∃ l : List T, ∀ x f, (∃ m y z, E ⟨q, epsilon, m⟩ y ∧ CostEPath E m w z f ∧ x = y + z) → x ∈ l := by
    intro w h q
    refine ⟨Ed.flatMap fun e => ((h e.1.dst).choose).map (e.2 + ·), ?_⟩
    rintro x f ⟨m, y, z, he, hp, rfl⟩
    rw [List.mem_flatMap]
    refine ⟨_, hE _ _ he, ?_⟩
    rw [List.mem_map]
    exact ⟨z, (h m).choose_spec z f hp (fun m' y' hc => heps _ _ _ _ _ he hc), rfl⟩
  have both : ∀ w, (∀ q, ∃ l : List T, ∀ x f, CostEPath E q w x f → (∀ m y, ¬ E ⟨q, epsilon, m⟩ y) → x ∈ l) →
      (∀ q, ∃ l : List T, ∀ x f, (∃ g v m y z, w = g :: v ∧ E ⟨q, g, m⟩ y ∧ CostEPath E m v z f ∧ x = y + z) → x ∈ l) →
      ∀ q, ∃ l : List T, ∀ x f, CostEPath E q w x f → x ∈ l := by
    intro w h1 h2 q
    obtain ⟨l1, hl1⟩ := drop w h1 q
    obtain ⟨l2, hl2⟩ := h2 q
    refine ⟨0 :: (l1 ++ l2), fun x f h => ?_⟩
    cases h with
    | nil => exact List.mem_cons_self ..
    | @cons _ g m _ v y z hne he hp =>
      exact List.mem_cons_of_mem _ (List.mem_append_right _ (hl2 _ f ⟨g, v, m, y, z, rfl, he, hp, rfl⟩))
    | @eps _ m _ _ y z he hp =>
      exact List.mem_cons_of_mem _ (List.mem_append_left _ (hl1 _ f ⟨m, y, z, he, hp, rfl⟩))
  induction w with
  | nil =>
    apply both
    · intro q
      refine ⟨[0], fun x f h hn => ?_⟩
      cases h with
      | nil => exact List.mem_singleton.2 rfl
      | eps he _ => exact absurd he (hn _ _)
    · intro q
      refine ⟨[], ?_⟩
      rintro x f ⟨g, v, m, y, z, h, _⟩
      cases h
  | cons g w ih =>
    have hcons : ∀ q, ∃ l : List T, ∀ x f, (∃ g' v m y z, g :: w = g' :: v ∧ E ⟨q, g', m⟩ y ∧ CostEPath E m v z f ∧
        x = y + z) → x ∈ l := by
      intro q
      refine ⟨Ed.flatMap fun e => ((ih e.1.dst).choose).map (e.2 + ·), ?_⟩
      rintro x f ⟨g', v, m, y, z, h, he, hp, rfl⟩
      cases h
      rw [List.mem_flatMap]
      refine ⟨_, hE _ _ he, ?_⟩
      rw [List.mem_map]
      exact ⟨z, (ih m).choose_spec z f hp, rfl⟩
    apply both
    · intro q
      obtain ⟨l, hl⟩ := hcons q
      refine ⟨l, fun x f h hn => ?_⟩
      cases h with
      | @cons _ _ m _ _ y z hne he hp => exact hl _ f ⟨g, w, m, y, z, rfl, he, hp, rfl⟩
      | eps he _ => exact absurd he (hn _ _)
    · exact hcons

end Verif
