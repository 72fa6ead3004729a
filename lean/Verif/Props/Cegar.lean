import Verif.Proofs.Combine
import Verif.Proofs.PairRefinement
import Verif.Proofs.Mapping

/-!
# C41-C44: refinements and abstraction mappings
-/

namespace Verif.Props

/-! ## C41 -/

section
variable {A B : Type} [LinearOrder A] [LinearOrder B]

/-- `ps` is a partition of the values with `S`: every value is in exactly one part, and no part is empty. -/
structure IsPartition {T : Type} (ps : List (List T)) (S : T → Prop) : Prop where
  once : ps.flatten.Nodup
  all : ∀ x, (∃ p ∈ ps, x ∈ p) ↔ S x
  ne : ∀ p ∈ ps, p ≠ []

/-- `x` and `y` are in different parts. -/
def Apart {T : Type} (ps : List (List T)) (x y : T) : Prop :=
  ∃ (i j : Nat) (p q : List T), ps[i]? = some p ∧ ps[j]? = some q ∧ i ≠ j ∧ x ∈ p ∧ y ∈ q

theorem IsPartition.apart {T : Type} {ps : List (List T)} {S : T → Prop} (h : IsPartition ps S) {x y : T}
    (hx : S x) (hy : S y) (hn : ∀ p ∈ ps, ¬ (x ∈ p ∧ y ∈ p)) : Apart ps x y := by
  obtain ⟨p, hp, hxp⟩ := (h.all x).2 hx
  obtain ⟨q, hq, hyq⟩ := (h.all y).2 hy
  obtain ⟨i, hi⟩ := List.mem_iff_getElem?.1 hp
  obtain ⟨j, hj⟩ := List.mem_iff_getElem?.1 hq
  refine ⟨i, j, p, q, hi, hj, ?_, hxp, hyq⟩
  rintro rfl
  rw [hi] at hj; cases hj
  exact hn p hp ⟨hxp, hyq⟩

theorem Apart.two {T : Type} {ps : List (List T)} {x y : T} (h : Apart ps x y) : 2 ≤ ps.length := by
  obtain ⟨i, j, p, q, h1, h2, h3, _⟩ := h
  have := (List.getElem?_eq_some_iff.1 h1).1
  have := (List.getElem?_eq_some_iff.1 h2).1
  omega

/-- C41: `make_pair_refinement`, for disjoint `X`, `Y` and wildcards that occur in neither, returns a
partition of the first components (with the wildcards) and a partition of the second components such that
every pair of `X` is told apart from every pair of `Y` in one of them, and from every wildcard in the first;
one of the partitions has at least two parts. `Bs` is the content of the hash set `Bs` in any order. -/
theorem c41_pair_refinement (X Y : List (A × B)) (wild : List A) (Bs : List B)
    (hX : X ≠ []) (hY : Y ≠ [] ∨ wild ≠ []) (hd : ∀ x ∈ X, x ∉ Y)
    (hw : wild.Nodup) (hwX : ∀ a b, (a, b) ∈ X → a ∉ wild) (hwY : ∀ a b, (a, b) ∈ Y → a ∉ wild)
    (hBn : Bs.Nodup) (hB : ∀ b, b ∈ Bs ↔ ∃ a, (a, b) ∈ X ∨ (a, b) ∈ Y) :
    ∃ pas pbs, makePairRefinement X Y wild Bs = some (pas, pbs) ∧
      IsPartition pas (fun a => (∃ b, (a, b) ∈ X ∨ (a, b) ∈ Y) ∨ a ∈ wild) ∧
      IsPartition pbs (fun b => ∃ a, (a, b) ∈ X ∨ (a, b) ∈ Y) ∧
      (∀ a b a' b', (a, b) ∈ X → (a', b') ∈ Y → Apart pas a a' ∨ Apart pbs b b') ∧
      (∀ a b a', (a, b) ∈ X → a' ∈ wild → Apart pas a a') ∧
      (2 ≤ pas.length ∨ 2 ≤ pbs.length) := by
  have hBm : ∀ b, b ∈ Bs ↔ (∃ a, (a, b) ∈ X) ∨ ∃ a, (a, b) ∈ Y := by
    intro b; rw [hB, exists_or]
  obtain ⟨pas, pbs, h1, ⟨h2, h3⟩, h4, h5, h6, h7⟩ := makePair_spec (wild := wild) hd hBn hBm hX
  have hPA : IsPartition (pas ++ (if wild.isEmpty then [] else [wild]))
      (fun a => (∃ b, (a, b) ∈ X ∨ (a, b) ∈ Y) ∨ a ∈ wild) := by
    have hwf : (if wild.isEmpty then [] else [wild] : List (List A)).flatten = wild := by
      cases wild with
      | nil => rfl
      | cons w ws => simp
    refine ⟨?_, fun a => ?_, fun p hp => ?_⟩
    · rw [List.flatten_append, hwf, List.nodup_append]
      refine ⟨h2, hw, ?_⟩
      rintro a ha a' ha' rfl
      rcases (h3 a).1 ha with ⟨b, hb⟩ | ⟨b, hb⟩
      · exact hwX a b hb ha'
      · exact hwY a b hb ha'
    · rw [← List.mem_flatten, List.flatten_append, hwf, List.mem_append, h3, exists_or]
    · rcases List.mem_append.1 hp with hp | hp
      · exact h5 p hp
      · split at hp
        · cases hp
        · next hw => rw [List.mem_singleton] at hp; subst hp; simpa using hw
  have hPB : IsPartition pbs (fun b => ∃ a, (a, b) ∈ X ∨ (a, b) ∈ Y) := by
    refine ⟨h4.nodup_iff.2 hBn, fun b => ?_, h6⟩
    rw [← List.mem_flatten, h4.mem_iff, hB]
  have hsep : ∀ a b a' b', (a, b) ∈ X → (a', b') ∈ Y →
      Apart (pas ++ (if wild.isEmpty then [] else [wild])) a a' ∨ Apart pbs b b' := by
    intro a b a' b' hx hy
    by_cases hc : ∃ q ∈ pbs, b ∈ q ∧ b' ∈ q
    · obtain ⟨q, hq, hbq, hbq'⟩ := hc
      left
      refine hPA.apart (.inl ⟨b, .inl hx⟩) (.inl ⟨b', .inr hy⟩) fun p hp hh => ?_
      rcases List.mem_append.1 hp with hp | hp
      · exact h7 p hp q hq a b a' b' hx hy hh.1 hbq hh.2 hbq'
      · split at hp
        · cases hp
        · rw [List.mem_singleton] at hp; subst hp; exact hwX a b hx hh.1
    · right
      exact hPB.apart ⟨a, .inl hx⟩ ⟨a', .inr hy⟩ fun q hq hh => hc ⟨q, hq, hh⟩
  have hwsep : ∀ a b a', (a, b) ∈ X → a' ∈ wild →
      Apart (pas ++ (if wild.isEmpty then [] else [wild])) a a' := by
    intro a b a' hx ha'
    refine hPA.apart (.inl ⟨b, .inl hx⟩) (.inr ha') fun p hp hh => ?_
    rcases List.mem_append.1 hp with hp | hp
    · have : a' ∈ pas.flatten := List.mem_flatten.2 ⟨p, hp, hh.2⟩
      rcases (h3 a').1 this with ⟨b', hb'⟩ | ⟨b', hb'⟩
      · exact hwX a' b' hb' ha'
      · exact hwY a' b' hb' ha'
    · split at hp
      · cases hp
      · rw [List.mem_singleton] at hp; subst hp; exact hwX a b hx hh.1
  refine ⟨_, _, h1, hPA, hPB, hsep, hwsep, ?_⟩
  obtain ⟨⟨a, b⟩, hx⟩ := List.exists_mem_of_ne_nil _ hX
  rcases hY with hY | hY
  · obtain ⟨⟨a', b'⟩, hy⟩ := List.exists_mem_of_ne_nil _ hY
    exact (hsep a b a' b' hx hy).imp Apart.two Apart.two
  · obtain ⟨a', ha'⟩ := List.exists_mem_of_ne_nil _ hY
    exact .inl (hwsep a b a' hx ha').two

/-- The hypotheses of `c41_pair_refinement` hold for a case where both components have to be split. -/
example : ∃ pas pbs, makePairRefinement [(1, 1), (2, 2)] [(1, 2), (2, 1)] [7] [2, 1] = some (pas, pbs) ∧
    (2 ≤ pas.length ∨ 2 ≤ pbs.length) := by
  obtain ⟨pas, pbs, h, _, _, _, _, h2⟩ := c41_pair_refinement [((1 : Nat), (1 : Nat)), (2, 2)] [(1, 2), (2, 1)] [7] [2, 1]
    (by simp) (by simp) (by decide) (by decide) (by simp; omega) (by simp; omega) (by decide) (by
      intro b
      simp only [List.mem_cons, List.not_mem_nil, or_false, Prod.mk.injEq]
      constructor
      · rintro (rfl | rfl)
        · exact ⟨2, by simp⟩
        · exact ⟨1, by simp⟩
      · rintro ⟨a, h⟩; omega)
  exact ⟨pas, pbs, h, h2⟩

/-- C41: `make_simple_pair_refinement` tells the first pair of `X` apart from the first of the wildcards or,
if there are none, from the first pair of `Y`. -/
theorem c41_simple_pair_refinement (a : A) (b : B) (X Y : List (A × B)) (wild : List A)
    (hwX : ∀ a' b', (a', b') ∈ (a, b) :: X → a' ∉ wild) (hd : ∀ x ∈ (a, b) :: X, x ∉ Y) (hY : Y ≠ [] ∨ wild ≠ []) :
    ∃ pas pbs, makeSimplePairRefinement ((a, b) :: X) Y wild = some (pas, pbs) ∧
      pas.flatten.Nodup ∧ pbs.flatten.Nodup ∧
      (∀ p ∈ pas, p ≠ []) ∧ (∀ p ∈ pbs, p ≠ []) ∧
      (∀ a', wild.head? = some a' → Apart pas a a') ∧
      (wild = [] → ∀ a' b', Y.head? = some (a', b') → Apart pas a a' ∨ Apart pbs b b') := by
  cases wild with
  | cons w ws =>
    have hne : a ≠ w := by
      intro h
      exact hwX a b (by simp) (by simp [h])
    refine ⟨_, _, rfl, by simpa using hne, by simp, by simp, by simp, ?_, by simp⟩
    intro a' ha'
    simp only [List.head?_cons, Option.some.injEq] at ha'
    subst ha'
    exact ⟨0, 1, [a], [w], rfl, rfl, by omega, by simp, by simp⟩
  | nil =>
    cases Y with
    | nil => simp at hY
    | cons y ys =>
      refine ⟨_, _, rfl, ?_, ?_, ?_, ?_, by simp, ?_⟩
      · by_cases h : a = y.1
        · simp [h]
        · simp [h]
      · by_cases h : b = y.2
        · simp [h]
        · simp [h]
      · by_cases h : a = y.1
        · simp [h]
        · simp [h]
      · by_cases h : b = y.2
        · simp [h]
        · simp [h]
      · intro _ a' b' hy
        simp only [List.head?_cons, Option.some.injEq] at hy
        subst hy
        by_cases h : a = a'
        · right
          have hb : b ≠ b' := by
            rintro rfl
            exact hd (a, b) (by simp) (by simp [h])
          simp only [ne_eq, hb, not_false_eq_true, if_true]
          exact ⟨0, 1, [b], [b'], rfl, rfl, by omega, by simp, by simp⟩
        · left
          simp only [ne_eq, h, not_false_eq_true, if_true]
          exact ⟨0, 1, [a], [a'], rfl, rfl, by omega, by simp, by simp⟩

example : ∃ pas pbs, makeSimplePairRefinement [(1, 1)] [(1, 2), (2, 1)] ([] : List Nat) = some (pas, pbs) ∧
    (Apart pas 1 1 ∨ Apart pbs 1 2) := by
  obtain ⟨pas, pbs, h, _, _, _, _, _, h2⟩ := c41_simple_pair_refinement (1 : Nat) (1 : Nat) [] [(1, 2), (2, 1)] []
    (by simp) (by simp) (by simp)
  exact ⟨pas, pbs, h, h2 rfl 1 2 rfl⟩

end

/-! ## C42 -/

section
variable {α : Type} [LinearOrder α]

theorem valid_nodup {ps : List (List α)} (h : Refinement.Valid ps) : ps.flatten.Nodup := by
  rw [List.nodup_flatten]
  refine ⟨fun p hp => Strict.nodup (h.strict p hp), ?_⟩
  rw [List.pairwise_iff_getElem]
  intro i j hi hj hij x hx hy
  exact h.disj i j _ _ (List.getElem?_eq_getElem hi) (List.getElem?_eq_getElem hj) (by omega) x hx hy

/-- A split: two sorted, nonempty, disjoint lists, as the constructor from two vectors makes them. -/
structure IsSplit (o0 o1 : List α) : Prop where
  s0 : o0.Pairwise (· < ·)
  s1 : o1.Pairwise (· < ·)
  ne0 : o0 ≠ []
  ne1 : o1 ≠ []
  disj : ∀ x ∈ o0, x ∉ o1

/-- The refinements the library builds by `combine`: parts are sorted, not empty and disjoint. -/
structure Proper (r : Refinement α) : Prop where
  sorted : ∀ p ∈ r.parts, p.Pairwise (· < ·)
  ne : ∀ p ∈ r.parts, p ≠ []
  once : r.parts.flatten.Nodup

theorem proper_valid {r : Refinement α} (h : Proper r) : Refinement.Valid r.parts := by
  refine ⟨h.sorted, h.ne, ?_⟩
  have := (List.nodup_flatten.1 h.once).2
  rw [List.pairwise_iff_getElem] at this
  intro i j p q hp hq hij x hx hy
  obtain ⟨hi, rfl⟩ := List.getElem?_eq_some_iff.1 hp
  obtain ⟨hj, rfl⟩ := List.getElem?_eq_some_iff.1 hq
  rcases Nat.lt_or_ge i j with hlt | hge
  · exact this i j hi hj hlt hx hy
  · exact this j i hj hi (by omega) hy hx

theorem valid_proper {r : Refinement α} (h : Refinement.Valid r.parts) : Proper r :=
  ⟨h.strict, h.ne, valid_nodup h⟩

theorem sep_apart {ps : List (List α)} {x y : α} (h : Refinement.Sep ps x y) : Apart ps x y := by
  obtain ⟨⟨p, hp, hx⟩, ⟨q, hq, hy⟩, hn⟩ := h
  obtain ⟨i, hi⟩ := List.mem_iff_getElem?.1 hp
  obtain ⟨j, hj⟩ := List.mem_iff_getElem?.1 hq
  refine ⟨i, j, p, q, hi, hj, ?_, hx, hy⟩
  rintro rfl
  rw [hi] at hj; cases hj
  exact hn p hp ⟨hx, hy⟩

theorem apart_sep {ps : List (List α)} (hv : Refinement.Valid ps) {x y : α} (h : Apart ps x y) :
    Refinement.Sep ps x y := by
  obtain ⟨i, j, p, q, hp, hq, hij, hx, hy⟩ := h
  refine ⟨⟨p, List.mem_of_getElem? hp, hx⟩, ⟨q, List.mem_of_getElem? hq, hy⟩, fun s hs hh => ?_⟩
  obtain ⟨k, hk⟩ := List.mem_iff_getElem?.1 hs
  have hki : k = i := by
    by_cases h : k = i
    · exact h
    · exact absurd hx (hv.disj k i s p hk hp h x hh.1)
  have hkj : k = j := by
    by_cases h : k = j
    · exact h
    · exact absurd hy (hv.disj k j s q hk hq h y hh.2)
  exact hij (hki.symm.trans hkj)

/-- The constructor from two vectors makes a proper refinement that separates the two vectors. -/
theorem c42_of_pair (o0 o1 : List α) (id : Nat) (h0 : o0.Nodup) (h1 : o1.Nodup) (n0 : o0 ≠ []) (n1 : o1 ≠ [])
    (hd : ∀ x ∈ o0, x ∉ o1) :
    Proper (Refinement.ofPair o0 o1 id) ∧ (Refinement.ofPair o0 o1 id).id = id ∧
    (∀ x, (∃ p ∈ (Refinement.ofPair o0 o1 id).parts, x ∈ p) ↔ x ∈ o0 ∨ x ∈ o1) ∧
    (∀ x y, x ∈ o0 → y ∈ o1 → Apart (Refinement.ofPair o0 o1 id).parts x y) ∧
    ∃ p q, (Refinement.ofPair o0 o1 id).parts = [p, q] ∧ IsSplit p q := by
  have hne : ∀ l : List α, l ≠ [] → sortBy ltB l ≠ [] := by
    intro l hl hh
    have := (sortBy_perm ltB l).length_eq
    rw [hh] at this
    cases l with
    | nil => exact hl rfl
    | cons => simp at this
  have hs : IsSplit (sortBy ltB o0) (sortBy ltB o1) :=
    ⟨sortBy_strict h0, sortBy_strict h1, hne _ n0, hne _ n1, fun x => by rw [mem_sortBy, mem_sortBy]; exact hd x⟩
  refine ⟨⟨?_, ?_, ?_⟩, rfl, fun x => ?_, fun x y hx hy => ?_, ⟨_, _, rfl, hs⟩⟩
  · simp only [Refinement.ofPair, List.mem_cons, List.not_mem_nil, or_false]
    rintro p (rfl | rfl)
    · exact hs.s0
    · exact hs.s1
  · simp only [Refinement.ofPair, List.mem_cons, List.not_mem_nil, or_false]
    rintro p (rfl | rfl)
    · exact hs.ne0
    · exact hs.ne1
  · simp only [Refinement.ofPair, List.flatten_cons, List.flatten_nil, List.append_nil]
    rw [List.nodup_append]
    exact ⟨Strict.nodup hs.s0, Strict.nodup hs.s1, fun a ha b hb he => hs.disj a ha (he ▸ hb)⟩
  · simp [Refinement.ofPair, mem_sortBy]
  · exact ⟨0, 1, _, _, rfl, rfl, by omega, (mem_sortBy _ _ _).2 hx, (mem_sortBy _ _ _).2 hy⟩

/-- C42: `combine` keeps a refinement proper, covers exactly the values of both refinements, and
separates whatever either of them separated. -/
theorem c42_combine (r : Refinement α) (o0 o1 : List α) (hr : Proper r) (ho : IsSplit o0 o1) :
    Proper (r.combine o0 o1) ∧ (r.combine o0 o1).id = r.id ∧
    (∀ x, (∃ p ∈ (r.combine o0 o1).parts, x ∈ p) ↔ (∃ p ∈ r.parts, x ∈ p) ∨ x ∈ o0 ∨ x ∈ o1) ∧
    (∀ x y, Apart r.parts x y → Apart (r.combine o0 o1).parts x y) ∧
    (∀ x y, x ∈ o0 → y ∈ o1 → Apart (r.combine o0 o1).parts x y) := by
  by_cases hp : r.parts = []
  · have he : r.combine o0 o1 = { r with parts := [o0, o1] } := by
      unfold Refinement.combine; simp [hp]
    rw [he]
    refine ⟨⟨?_, ?_, ?_⟩, rfl, ?_, ?_, ?_⟩
    · simp only [List.mem_cons, List.not_mem_nil, or_false]
      rintro p (rfl | rfl)
      · exact ho.s0
      · exact ho.s1
    · simp only [List.mem_cons, List.not_mem_nil, or_false]
      rintro p (rfl | rfl)
      · exact ho.ne0
      · exact ho.ne1
    · simp only [List.flatten_cons, List.flatten_nil, List.append_nil]
      rw [List.nodup_append]
      exact ⟨Strict.nodup ho.s0, Strict.nodup ho.s1, fun a ha b hb he => ho.disj a ha (he ▸ hb)⟩
    · intro x; simp [hp]
    · rintro x y ⟨i, j, p, q, h1, _⟩
      rw [hp] at h1; simp at h1
    · intro x y hx hy
      exact ⟨0, 1, o0, o1, rfl, rfl, by omega, hx, hy⟩
  · obtain ⟨h1, _, h3, h4, h5⟩ := Refinement.combine_spec hp (proper_valid hr) ho.s0 ho.s1 ho.disj
    refine ⟨valid_proper h1, ?_, h3, fun x y h => sep_apart (h4 x y (apart_sep (proper_valid hr) h)),
      fun x y hx hy => sep_apart (h5 x y hx hy)⟩
    unfold Refinement.combine
    split <;> rfl

/-- One piece of refinement information: the abstract label and the two sets to tell apart. -/
abbrev Piece (α : Type) := Nat × List α × List α

/-- All pieces, combined into one `HeaderRefinement`. -/
def collect (ps : List (Piece α)) : HeaderRefinement α :=
  ps.foldl (fun h p => HeaderRefinement.combine p.1 p.2.1 p.2.2 h) []

theorem header_combine (id : Nat) (o0 o1 : List α) (ho : IsSplit o0 o1) (h : HeaderRefinement α)
    (hp : ∀ r ∈ h, Proper r) (hn : (h.map Refinement.id).Nodup) :
    (∀ r ∈ HeaderRefinement.combine id o0 o1 h, Proper r) ∧
    ((HeaderRefinement.combine id o0 o1 h).map Refinement.id).Nodup ∧
    (∀ i, i ∈ (HeaderRefinement.combine id o0 o1 h).map Refinement.id ↔ i ∈ h.map Refinement.id ∨ i = id) ∧
    (∀ i x, (∃ r ∈ HeaderRefinement.combine id o0 o1 h, r.id = i ∧ ∃ p ∈ r.parts, x ∈ p) ↔
      (∃ r ∈ h, r.id = i ∧ ∃ p ∈ r.parts, x ∈ p) ∨ (i = id ∧ (x ∈ o0 ∨ x ∈ o1))) ∧
    (∀ r ∈ h, ∃ r' ∈ HeaderRefinement.combine id o0 o1 h, r'.id = r.id ∧
      ∀ x y, Apart r.parts x y → Apart r'.parts x y) ∧
    (∃ r ∈ HeaderRefinement.combine id o0 o1 h, r.id = id ∧ ∀ x y, x ∈ o0 → y ∈ o1 → Apart r.parts x y) := by
  induction h with
  | nil =>
    have := c42_combine { id, parts := [] } o0 o1 ⟨by simp, by simp, by simp⟩ ho
    have he : Refinement.combine { id, parts := [] } o0 o1 = { id, parts := [o0, o1] } := rfl
    rw [he] at this
    refine ⟨?_, by simp [HeaderRefinement.combine], by simp [HeaderRefinement.combine], ?_, by simp, ?_⟩
    · simp only [HeaderRefinement.combine, List.mem_singleton]
      rintro r rfl; exact this.1
    · intro i x
      simp [HeaderRefinement.combine, eq_comm]
    · exact ⟨_, List.mem_singleton.2 rfl, rfl, this.2.2.2.2⟩
  | cons r h ih =>
    rw [List.map_cons, List.nodup_cons] at hn
    unfold HeaderRefinement.combine
    by_cases he : r.id = id
    · rw [if_pos he]
      obtain ⟨c1, c2, c3, c4, c5⟩ := c42_combine r o0 o1 (hp r (by simp)) ho
      refine ⟨?_, ?_, ?_, ?_, ?_, ?_⟩
      · intro r' hr'
        rcases List.mem_cons.1 hr' with rfl | hr'
        · exact c1
        · exact hp r' (by simp [hr'])
      · rw [List.map_cons, List.nodup_cons, c2]; exact hn
      · intro i
        rw [List.map_cons, List.map_cons, c2, List.mem_cons]
        constructor
        · exact .inl
        · rintro (h | rfl)
          · exact h
          · exact .inl he.symm
      · intro i x
        simp only [List.mem_cons, exists_eq_or_imp, c2, c3]
        subst he
        constructor
        · rintro (⟨h1, h2⟩ | h)
          · rcases h2 with h2 | h2
            · exact .inl (.inl ⟨h1, h2⟩)
            · exact .inr ⟨h1.symm, h2⟩
          · exact .inl (.inr h)
        · rintro ((⟨h1, h2⟩ | h) | ⟨h1, h2⟩)
          · exact .inl ⟨h1, .inl h2⟩
          · exact .inr h
          · exact .inl ⟨h1.symm, .inr h2⟩
      · intro r' hr'
        rcases List.mem_cons.1 hr' with rfl | hr'
        · exact ⟨_, List.mem_cons_self, c2, c4⟩
        · exact ⟨r', by simp [hr'], rfl, fun _ _ h => h⟩
      · exact ⟨_, List.mem_cons_self, c2.trans he, c5⟩
    · rw [if_neg he]
      obtain ⟨c1, c2, c3, c4, c5, c6⟩ := ih (fun r' hr' => hp r' (by simp [hr'])) hn.2
      refine ⟨?_, ?_, ?_, ?_, ?_, ?_⟩
      · intro r' hr'
        rcases List.mem_cons.1 hr' with rfl | hr'
        · exact hp r' (by simp)
        · exact c1 r' hr'
      · rw [List.map_cons, List.nodup_cons, c3]
        exact ⟨fun hh => hh.elim hn.1 he, c2⟩
      · intro i
        simp only [List.map_cons, List.mem_cons, c3, or_assoc]
      · intro i x
        simp only [List.mem_cons, exists_eq_or_imp, c4]
        rw [or_assoc]
      · intro r' hr'
        rcases List.mem_cons.1 hr' with rfl | hr'
        · exact ⟨r', by simp, rfl, fun _ _ h => h⟩
        · obtain ⟨r'', h1, h2⟩ := c5 r' hr'
          exact ⟨r'', by simp [h1], h2⟩
      · obtain ⟨r'', h1, h2⟩ := c6
        exact ⟨r'', by simp [h1], h2⟩

/-- C42: however many pieces are combined into a `HeaderRefinement`, it has one proper refinement for each
abstract label, covers exactly the values of the pieces, and separates what any piece separated. -/
theorem c42_header (ps : List (Piece α)) (hs : ∀ p ∈ ps, IsSplit p.2.1 p.2.2) :
    (∀ r ∈ collect ps, Proper r) ∧ ((collect ps).map Refinement.id).Nodup ∧
    (∀ i, i ∈ (collect ps).map Refinement.id ↔ ∃ o0 o1, (i, o0, o1) ∈ ps) ∧
    (∀ i x, (∃ r ∈ collect ps, r.id = i ∧ ∃ p ∈ r.parts, x ∈ p) ↔
      ∃ o0 o1, (i, o0, o1) ∈ ps ∧ (x ∈ o0 ∨ x ∈ o1)) ∧
    (∀ i o0 o1, (i, o0, o1) ∈ ps → ∃ r ∈ collect ps, r.id = i ∧
      ∀ x y, x ∈ o0 → y ∈ o1 → Apart r.parts x y) := by
  unfold collect
  suffices h : ∀ (ps qs : List (Piece α)) (hd : HeaderRefinement α), (∀ p ∈ qs, IsSplit p.2.1 p.2.2) →
      ((∀ r ∈ hd, Proper r) ∧ (hd.map Refinement.id).Nodup ∧
        (∀ i, i ∈ hd.map Refinement.id ↔ ∃ o0 o1, (i, o0, o1) ∈ ps) ∧
        (∀ i x, (∃ r ∈ hd, r.id = i ∧ ∃ p ∈ r.parts, x ∈ p) ↔ ∃ o0 o1, (i, o0, o1) ∈ ps ∧ (x ∈ o0 ∨ x ∈ o1)) ∧
        (∀ i o0 o1, (i, o0, o1) ∈ ps → ∃ r ∈ hd, r.id = i ∧ ∀ x y, x ∈ o0 → y ∈ o1 → Apart r.parts x y)) →
      let H := qs.foldl (fun h p => HeaderRefinement.combine p.1 p.2.1 p.2.2 h) hd
      ((∀ r ∈ H, Proper r) ∧ (H.map Refinement.id).Nodup ∧
        (∀ i, i ∈ H.map Refinement.id ↔ ∃ o0 o1, (i, o0, o1) ∈ ps ++ qs) ∧
        (∀ i x, (∃ r ∈ H, r.id = i ∧ ∃ p ∈ r.parts, x ∈ p) ↔
          ∃ o0 o1, (i, o0, o1) ∈ ps ++ qs ∧ (x ∈ o0 ∨ x ∈ o1)) ∧
        (∀ i o0 o1, (i, o0, o1) ∈ ps ++ qs → ∃ r ∈ H, r.id = i ∧ ∀ x y, x ∈ o0 → y ∈ o1 → Apart r.parts x y)) by
    have := h [] ps [] hs ⟨by simp, by simp, by simp, by simp, by simp⟩
    simpa using this
  intro ps qs
  induction qs generalizing ps with
  | nil => intro hd _ h; simpa using h
  | cons q qs ih =>
    rintro hd hs ⟨a1, a2, a0, a3, a4⟩
    obtain ⟨i, o0, o1⟩ := q
    obtain ⟨b1, b2, b3, b4, b5, b6⟩ := header_combine i o0 o1 (hs (i, o0, o1) (by simp)) hd a1 a2
    have := ih (ps ++ [(i, o0, o1)]) (HeaderRefinement.combine i o0 o1 hd) (fun p hp => hs p (by simp [hp]))
      ⟨b1, b2, fun j => by
        rw [b3, a0]
        constructor
        · rintro (⟨p0, p1, hp⟩ | rfl)
          · exact ⟨p0, p1, by simp [hp]⟩
          · exact ⟨o0, o1, by simp⟩
        · rintro ⟨p0, p1, hp⟩
          rcases List.mem_append.1 hp with hp | hp
          · exact .inl ⟨p0, p1, hp⟩
          · rw [List.mem_singleton, Prod.mk.injEq] at hp
            exact .inr hp.1, fun j x => by
        rw [b4, a3]
        constructor
        · rintro (⟨p0, p1, hp, hx⟩ | ⟨rfl, hx⟩)
          · exact ⟨p0, p1, by simp [hp], hx⟩
          · exact ⟨o0, o1, by simp, hx⟩
        · rintro ⟨p0, p1, hp, hx⟩
          rcases List.mem_append.1 hp with hp | hp
          · exact .inl ⟨p0, p1, hp, hx⟩
          · rw [List.mem_singleton, Prod.mk.injEq, Prod.mk.injEq] at hp
            obtain ⟨rfl, rfl, rfl⟩ := hp
            exact .inr ⟨rfl, hx⟩, fun j p0 p1 hp => by
        rcases List.mem_append.1 hp with hp | hp
        · obtain ⟨r, hr, hi, hx⟩ := a4 j p0 p1 hp
          obtain ⟨r', hr', hi', hx'⟩ := b5 r hr
          exact ⟨r', hr', hi'.trans hi, fun x y h1 h2 => hx' x y (hx x y h1 h2)⟩
        · rw [List.mem_singleton, Prod.mk.injEq, Prod.mk.injEq] at hp
          obtain ⟨rfl, rfl, rfl⟩ := hp
          exact b6⟩
    simpa using this

/-- Three pieces, two of them for the same abstract label and with overlapping values. -/
example : ∃ r ∈ collect [(0, [1, 2], [3, 4]), (5, [9], [8]), (0, [1, 3], [2, 5])], r.id = 0 ∧
    Apart r.parts 1 2 := by
  obtain ⟨_, _, _, _, h⟩ := c42_header [(0, [1, 2], [3, 4]), (5, [9], [8]), (0, [1, 3], [(2 : Nat), 5])] (by
    intro p hp
    simp only [List.mem_cons, List.not_mem_nil, or_false] at hp
    rcases hp with rfl | rfl | rfl <;> exact ⟨by simp, by simp, by simp, by simp, by simp⟩)
  obtain ⟨r, hr, hi, hx⟩ := h 0 [1, 3] [2, 5] (by simp)
  exact ⟨r, hr, hi, hx 1 2 (by simp) (by simp)⟩

end

/-! ## C43 -/

section
variable {α β : Type} [DecidableEq α] [DecidableEq β]

/-- A mutating call on an `AbstractionMapping`. -/
inductive MapCall (α β : Type)
  | insert (x : α) (ignoreConcrete : Bool)
  | insertAbstract (v : β)

/-- The model of the call. -/
def runMapping (fn : α → β) (m : AMap α β) : MapCall α β → AMap α β × (Bool × Nat)
  | .insert x ig => AMap.insert fn m x ig
  | .insertAbstract v => AMap.insertAbstract m v

/-- The mapping after the calls. -/
def mapAfter (fn : α → β) (cs : List (MapCall α β)) : AMap α β := cs.foldl (fun m c => (runMapping fn m c).1) {}

/-- Specification: the abstract values mentioned by a call. -/
def MapCall.value (fn : α → β) : MapCall α β → β
  | .insert x _ => fn x
  | .insertAbstract v => v

theorem mapAfter_spec (fn : α → β) (cs : List (MapCall α β)) :
    AMap.Inv fn (mapAfter fn cs) ∧
    (∀ x, x ∈ (mapAfter fn cs).map.keys ↔ MapCall.insert x false ∈ cs) ∧
    (∀ v, v ∈ (mapAfter fn cs).abs ↔ ∃ c ∈ cs, c.value fn = v) := by
  unfold mapAfter
  suffices h : ∀ (cs ds : List (MapCall α β)) (m : AMap α β),
      (AMap.Inv fn m ∧ (∀ x, x ∈ m.map.keys ↔ MapCall.insert x false ∈ cs) ∧
        (∀ v, v ∈ m.abs ↔ ∃ c ∈ cs, c.value fn = v)) →
      let M := ds.foldl (fun m c => (runMapping fn m c).1) m
      (AMap.Inv fn M ∧ (∀ x, x ∈ M.map.keys ↔ MapCall.insert x false ∈ cs ++ ds) ∧
        (∀ v, v ∈ M.abs ↔ ∃ c ∈ cs ++ ds, c.value fn = v)) by
    have := h [] cs {} ⟨AMap.inv_empty fn, by simp, by simp⟩
    simpa using this
  intro cs ds
  induction ds generalizing cs with
  | nil => intro m h; simpa using h
  | cons d ds ih =>
    rintro m ⟨h1, h2, h3⟩
    have := ih (cs ++ [d]) (runMapping fn m d).1 (by
      cases d with
      | insert x ig =>
        obtain ⟨a1, a2, _, a4, _⟩ := AMap.insert_spec h1 x ig
        refine ⟨a1, fun y => ?_, fun v => ?_⟩
        · show y ∈ (AMap.insert fn m x ig).1.map.keys ↔ _
          rw [a2, h2, List.mem_append, List.mem_singleton, MapCall.insert.injEq]
          constructor
          · rintro (h | ⟨rfl, rfl⟩)
            · exact .inl h
            · exact .inr ⟨rfl, rfl⟩
          · rintro (h | ⟨rfl, rfl⟩)
            · exact .inl h
            · exact .inr ⟨rfl, rfl⟩
        · show v ∈ (AMap.insert fn m x ig).1.abs ↔ _
          rw [a4, h3]
          constructor
          · rintro (⟨c, hc, hv⟩ | rfl)
            · exact ⟨c, by simp [hc], hv⟩
            · exact ⟨_, List.mem_append_right _ (List.mem_singleton.2 rfl), rfl⟩
          · rintro ⟨c, hc, rfl⟩
            rcases List.mem_append.1 hc with hc | hc
            · exact .inl ⟨c, hc, rfl⟩
            · rw [List.mem_singleton] at hc; subst hc; exact .inr rfl
      | insertAbstract w =>
        obtain ⟨a1, a2, _, a4, _⟩ := AMap.insertAbstract_spec h1 w
        refine ⟨a1, fun y => ?_, fun v => ?_⟩
        · show y ∈ (AMap.insertAbstract m w).1.map.keys ↔ _
          rw [a2, h2]; simp
        · show v ∈ (AMap.insertAbstract m w).1.abs ↔ _
          rw [a4, h3]
          constructor
          · rintro (⟨c, hc, hv⟩ | rfl)
            · exact ⟨c, by simp [hc], hv⟩
            · exact ⟨_, List.mem_append_right _ (List.mem_singleton.2 rfl), rfl⟩
          · rintro ⟨c, hc, rfl⟩
            rcases List.mem_append.1 hc with hc | hc
            · exact .inl ⟨c, hc, rfl⟩
            · rw [List.mem_singleton] at hc; subst hc; exact .inr rfl)
    simpa using this

theorem abs_idx {fn : α → β} {m : AMap α β} (h : AMap.Inv fn m) {c : Nat} {v : β} (hc : m.abs[c]? = some v) :
    m.abs.idxOf v = c := RMap.idxOf_of_getElem? h.abs hc

/-- C43: after any calls on an `AbstractionMapping`,
* `exists` finds exactly the inserted concrete values (with `ignore_concrete`: those whose abstract value
  has been mentioned) and gives the id of their abstract value;
* `get_concrete_values(v)` lists exactly the inserted values mapped to `v`, once each;
* the next call says whether its abstract value is new, and returns the id of it;
* `size()` is the number of different abstract values. -/
theorem c43_abstraction_mapping (fn : α → β) (cs : List (MapCall α β)) :
    let m := mapAfter fn cs
    (∀ x c, m.find fn x false = some c ↔ MapCall.insert x false ∈ cs ∧ m.abstractValue c = some (fn x)) ∧
    (∀ x c, m.find fn x true = some c ↔ m.abstractValue c = some (fn x)) ∧
    (∀ x, MapCall.insert x false ∈ cs → m.map.find x = m.find fn x false) ∧
    (∀ v x, x ∈ m.concrete v ↔ MapCall.insert x false ∈ cs ∧ fn x = v) ∧
    (∀ v, (m.concrete v).Nodup) ∧
    (∀ d, (runMapping fn m d).2.1 = true ↔ ∀ c ∈ cs, c.value fn ≠ d.value fn) ∧
    (∀ d, (runMapping fn m d).1.abstractValue (runMapping fn m d).2.2 = some (d.value fn)) ∧
    (∀ d c v, m.abstractValue c = some v → (runMapping fn m d).1.abstractValue c = some v) ∧
    (∃ vs : List β, vs.Nodup ∧ (∀ v, v ∈ vs ↔ ∃ c ∈ cs, c.value fn = v) ∧ m.map.size = vs.length) := by
  intro m
  obtain ⟨h1, h2, h3⟩ := mapAfter_spec fn cs
  have hfind : ∀ x c, m.find fn x true = some c ↔ m.abstractValue c = some (fn x) := by
    intro x c
    unfold AMap.find AMap.abstractValue
    simp only [Bool.not_true, Bool.false_and, Bool.false_eq_true, if_false]
    constructor
    · intro h
      split at h
      · next hx => cases h; exact RMap.getElem?_idxOf' hx
      · cases h
    · intro h
      rw [if_pos (List.mem_of_getElem? h), abs_idx h1 h]
  have hfind' : ∀ x c, m.find fn x false = some c ↔ MapCall.insert x false ∈ cs ∧ m.abstractValue c = some (fn x) := by
    intro x c
    rw [← h2, ← hfind]
    unfold AMap.find
    by_cases hx : x ∈ m.map.keys
    · simp only [m] at hx; simp [m, hx]
    · simp only [m] at hx; simp [m, hx]
  refine ⟨hfind', hfind, ?_, ?_, ?_, ?_, ?_, ?_, ⟨m.abs, h1.abs, h3, h1.len⟩⟩
  · intro x hx
    obtain ⟨c, hc⟩ := RMap.find_isSome ((h2 x).2 hx)
    show (mapAfter fn cs).map.find x = _
    rw [hc]
    exact ((hfind' x c).2 ⟨hx, h1.fn x c hc⟩).symm
  · intro v x
    show x ∈ (mapAfter fn cs).map.concrete _ ↔ _
    rw [RMap.mem_concrete h1.map]
    constructor
    · intro h
      have hx : x ∈ (mapAfter fn cs).map.keys := by
        by_cases hx : x ∈ (mapAfter fn cs).map.keys
        · exact hx
        · rw [(RMap.find_none x).2 hx] at h; cases h
      refine ⟨(h2 x).1 hx, ?_⟩
      have hv := h1.fn x _ h
      split at hv
      · next hm =>
        rw [RMap.getElem?_idxOf' hm] at hv; injection hv with hv; exact hv.symm
      · rw [List.getElem?_eq_none (by rw [h1.len])] at hv; cases hv
    · rintro ⟨hx, rfl⟩
      obtain ⟨c, hc⟩ := RMap.find_isSome ((h2 x).2 hx)
      have hv := h1.fn x c hc
      rw [hc, if_pos (List.mem_of_getElem? hv), abs_idx h1 hv]
  · intro v
    exact RMap.nodup_concrete h1.map _
  · intro d
    cases d with
    | insert x ig =>
      obtain ⟨_, _, _, _, a5, _⟩ := AMap.insert_spec h1 x ig
      show (AMap.insert fn (mapAfter fn cs) x ig).2.1 = true ↔ _
      rw [a5, h3]
      simp [MapCall.value]
    | insertAbstract w =>
      obtain ⟨_, _, _, _, a5, _⟩ := AMap.insertAbstract_spec h1 w
      show (AMap.insertAbstract (mapAfter fn cs) w).2.1 = true ↔ _
      rw [a5, h3]
      simp [MapCall.value]
  · intro d
    cases d with
    | insert x ig => exact (AMap.insert_spec h1 x ig).2.2.2.2.2
    | insertAbstract w => exact (AMap.insertAbstract_spec h1 w).2.2.2.2.2
  · intro d c v hc
    obtain ⟨t, ht⟩ : ∃ t, (runMapping fn m d).1.abs = m.abs ++ t := by
      cases d with
      | insert x ig => exact (AMap.insert_spec h1 x ig).2.2.1
      | insertAbstract w => exact (AMap.insertAbstract_spec h1 w).2.2.1
    unfold AMap.abstractValue at hc ⊢
    rw [ht]
    exact AMap.getElem?_append_of_some hc

/-- Numbers mapped to their remainder modulo 3. -/
example : (mapAfter (· % 3) [.insert 4 false, .insert 2 false, .insert 4 false, .insert 7 false, .insert 5 true,
    .insertAbstract 0]).concrete 1 = [4, 7] := by decide

/-- A map with both directions, and the operations that refine it: `refine(Refinement)` or
`refine(HeaderRefinement)`. -/
def runRefines (m : RMap α) (hs : List (HeaderRefinement α)) : Option (RMap α) := hs.foldlM RMap.refineHeader m

/-- The two directions of the mapping are inverse to each other: `get_concrete_values(c)` lists exactly the
values that `exists` maps to `c`, once each, and the ids are below `size()`. -/
structure Inverse (m : RMap α) : Prop where
  mem : ∀ x c, x ∈ m.concrete c ↔ m.find x = some c
  once : ∀ c, (m.concrete c).Nodup
  lt : ∀ x c, m.find x = some c → c < m.size

/-- The headers fit: each has one refinement per abstract id, with nonempty disjoint parts of values that
have this id when the header is applied. -/
def FitAll : RMap α → List (HeaderRefinement α) → Prop
  | _, [] => True
  | m, h :: hs => ((h.map Refinement.id).Nodup ∧
      ∀ r ∈ h, (∀ p ∈ r.parts, p ≠ [] ∧ ∀ x ∈ p, m.find x = some r.id) ∧ r.parts.flatten.Nodup) ∧
    ∀ m', m.refineHeader h = some m' → FitAll m' hs

/-- C43: starting from any `AbstractionMapping`, any refinements that fit keep the two directions inverse,
keep the set of concrete values, only split classes, and leave no class empty if none was empty. -/
theorem c43_refine_splits (fn : α → β) (cs : List (MapCall α β)) (hs : List (HeaderRefinement α))
    (hf : FitAll (mapAfter fn cs).map hs) :
    ∃ m', runRefines (mapAfter fn cs).map hs = some m' ∧ Inverse m' ∧
      (∀ x, (m'.find x).isSome ↔ MapCall.insert x false ∈ cs) ∧
      (∀ x y, MapCall.insert x false ∈ cs → MapCall.insert y false ∈ cs → m'.find x = m'.find y → fn x = fn y) ∧
      ((∀ c ∈ cs, ∃ x, MapCall.insert x false ∈ cs ∧ fn x = c.value fn) →
        ∀ c < m'.size, m'.concrete c ≠ []) := by
  obtain ⟨h1, h2, h3⟩ := mapAfter_spec fn cs
  have key : ∀ (hs : List (HeaderRefinement α)) (m : RMap α), RMap.Inv m → FitAll m hs →
      ∃ m', runRefines m hs = some m' ∧ RMap.Inv m' ∧ RMap.Splits m m' := by
    intro hs
    induction hs with
    | nil => intro m hm _; exact ⟨m, rfl, hm, RMap.Splits.refl m⟩
    | cons h hs ih =>
      intro m hm hfit
      rw [FitAll] at hfit
      obtain ⟨m1, a1, a2, a3, _⟩ := RMap.refineHeader_splits hm
        (fun r hr => ⟨fun p hp => ((hfit.1.2 r hr).1 p hp).2, fun p hp => ((hfit.1.2 r hr).1 p hp).1, (hfit.1.2 r hr).2⟩)
        hfit.1.1
      obtain ⟨m', b1, b2, b3⟩ := ih m1 a2 (hfit.2 m1 a1)
      refine ⟨m', ?_, b2, a3.trans b3⟩
      unfold runRefines at b1 ⊢
      rw [List.foldlM_cons, a1]; exact b1
  obtain ⟨m', b1, b2, b3⟩ := key hs _ h1.map hf
  refine ⟨m', b1, ⟨RMap.mem_concrete b2, RMap.nodup_concrete b2, fun x c => RMap.find_lt b2⟩, fun x => ?_, ?_, ?_⟩
  · rw [← h2, ← b3.keys]
    constructor
    · intro h
      by_cases hx : x ∈ m'.keys
      · exact hx
      · rw [(RMap.find_none x).2 hx] at h; cases h
    · intro h
      obtain ⟨c, hc⟩ := RMap.find_isSome h
      rw [hc]; rfl
  · intro x y hx hy he
    have hx' := (h2 x).2 hx
    have hy' := (h2 y).2 hy
    have := b3.same x y hx' hy' he
    obtain ⟨c, hc⟩ := RMap.find_isSome hx'
    have hc' := hc
    rw [this] at hc'
    have e1 := h1.fn x c hc
    have e2 := h1.fn y c hc'
    rw [e1] at e2; injection e2
  · intro hall c hc
    obtain ⟨x, hx⟩ := b3.full (fun c hc => by
      have hc' : c < (mapAfter fn cs).abs.length := by rw [← h1.len]; exact hc
      have hm := List.getElem?_eq_getElem hc'
      obtain ⟨d, hd, hdv⟩ := (h3 _).1 (List.mem_of_getElem? hm)
      obtain ⟨x, hx, hxv⟩ := hall d hd
      refine ⟨x, ?_⟩
      obtain ⟨c', hcx⟩ := RMap.find_isSome ((h2 x).2 hx)
      have := h1.fn x c' hcx
      rw [hxv, hdv] at this
      have e1 := abs_idx h1 hm
      have e2 := abs_idx h1 this
      rw [hcx, ← e2, e1]) c hc
    intro he
    have := (RMap.mem_concrete b2 x c).2 hx
    rw [he] at this; cases this

/-- C43: one `refine` gives different ids to values in different parts, and changes no id outside the
refined class. -/
theorem c43_refine_separates (fn : α → β) (cs : List (MapCall α β)) (hs : List (HeaderRefinement α))
    (hf : FitAll (mapAfter fn cs).map hs) (m : RMap α) (hm : runRefines (mapAfter fn cs).map hs = some m)
    (r : Refinement α) (hr : ∀ p ∈ r.parts, p ≠ [] ∧ ∀ x ∈ p, m.find x = some r.id) (hn : r.parts.flatten.Nodup) :
    ∃ m', m.refine r = some m' ∧
      (∀ x y, Apart r.parts x y → m'.find x ≠ m'.find y) ∧
      (∀ x, m.find x ≠ some r.id → m'.find x = m.find x) ∧
      (∀ x c, m'.find x = some c → m.find x = some c ∨ (m.find x = some r.id ∧ m.size ≤ c)) ∧
      (1 ≤ r.parts.length → m'.size + 1 = m.size + r.parts.length) := by
  have key : ∀ (hs : List (HeaderRefinement α)) (m0 : RMap α), RMap.Inv m0 → FitAll m0 hs →
      runRefines m0 hs = some m → RMap.Inv m := by
    intro hs
    induction hs with
    | nil => intro m0 hm0 _ h; cases h; exact hm0
    | cons h hs ih =>
      intro m0 hm0 hfit hrun
      rw [FitAll] at hfit
      obtain ⟨m1, a1, a2, _, _⟩ := RMap.refineHeader_splits hm0
        (fun r hr => ⟨fun p hp => ((hfit.1.2 r hr).1 p hp).2, fun p hp => ((hfit.1.2 r hr).1 p hp).1, (hfit.1.2 r hr).2⟩)
        hfit.1.1
      unfold runRefines at hrun
      rw [List.foldlM_cons, a1] at hrun
      exact ih m1 a2 (hfit.2 m1 a1) hrun
  have hi := key hs _ (mapAfter_spec fn cs).1.map hf hm
  obtain ⟨m', h1, h2, h3, h4, h5⟩ := RMap.refine_splits hi (r := r)
    ⟨fun p hp => (hr p hp).2, fun p hp => (hr p hp).1, hn⟩
  refine ⟨m', h1, ?_, h4, ?_, ?_⟩
  · rintro x y ⟨i, j, p, q, hp, hq, hij, hx, hy⟩
    exact h5 i j p q x y hp hq hij hx hy
  · intro x c hc
    by_cases hl : 2 ≤ r.parts.length
    · obtain ⟨m2, k1, _, _, k4, k5, k6⟩ := RMap.refine_spec hi hl (fun p hp => (hr p hp).2) (fun p hp => (hr p hp).1) hn
      rw [h1] at k1; cases k1
      by_cases hx : x ∈ r.parts.flatten
      · obtain ⟨p, hp, hxp⟩ := List.mem_flatten.1 hx
        obtain ⟨i, hi'⟩ := List.mem_iff_getElem?.1 hp
        have hold := (hr p hp).2 x hxp
        rw [k5 i p x hi' hxp] at hc
        injection hc with hc
        rw [hold]
        by_cases e1 : i = RMap.maxIdx r.parts
        · rw [if_pos e1] at hc
          exact .inl (by rw [hc])
        · rw [if_neg e1] at hc
          refine .inr ⟨rfl, ?_⟩
          split at hc <;> omega
      · rw [k6 x hx] at hc; exact .inl hc
    · have : m.refine r = some m := by unfold RMap.refine; rw [if_pos (by omega)]
      rw [h1] at this; cases this
      exact .inl hc
  · intro hl
    by_cases hl : 2 ≤ r.parts.length
    · obtain ⟨m2, k1, _, _, k4, _⟩ := RMap.refine_spec hi hl (fun p hp => (hr p hp).2) (fun p hp => (hr p hp).1) hn
      rw [h1] at k1; cases k1
      exact k4
    · have : m.refine r = some m := by unfold RMap.refine; rw [if_pos (by omega)]
      rw [h1] at this; cases this
      omega

/-- Numbers modulo 3, the class of 1 split into three parts and one part left over. -/
def exampleMap : RMap Nat := (mapAfter (· % 3) [.insert 4 false, .insert 2 false, .insert 7 false, .insert 10 false,
  .insert 1 false]).map

example : FitAll exampleMap [[{ id := 0, parts := [[4], [7, 10]] }]] ∧
    (runRefines exampleMap [[{ id := 0, parts := [[4], [7, 10]] }]]).map (fun m => (m.concrete 0, m.concrete 2)) =
      some ([7, 10, 1], [4]) := by
  refine ⟨⟨⟨by decide, ?_⟩, fun _ _ => trivial⟩, ?_⟩
  · intro r hr
    rw [List.mem_singleton] at hr; subst hr
    exact ⟨by decide, by decide⟩
  · decide +kernel

end

/-- C41-C43 together: refining two mappings with the result of `make_pair_refinement` gives every pair of `X`
other ids than any pair of `Y`, and first components of `X` other ids than the wildcards. -/
theorem c43_pair_refined {A B : Type} [LinearOrder A] [LinearOrder B] (X Y : List (A × B)) (wild : List A) (Bs : List B)
    (hX : X ≠ []) (hY : Y ≠ [] ∨ wild ≠ []) (hd : ∀ x ∈ X, x ∉ Y)
    (hw : wild.Nodup) (hwX : ∀ a b, (a, b) ∈ X → a ∉ wild) (hwY : ∀ a b, (a, b) ∈ Y → a ∉ wild)
    (hBn : Bs.Nodup) (hB : ∀ b, b ∈ Bs ↔ ∃ a, (a, b) ∈ X ∨ (a, b) ∈ Y)
    {C D : Type} [DecidableEq C] [DecidableEq D] (fa : A → C) (ca : List (MapCall A C)) (fb : B → D)
    (cb : List (MapCall B D)) (ia ib : Nat)
    (hXi : ∀ a b, (a, b) ∈ X ∨ (a, b) ∈ Y → (mapAfter fa ca).map.find a = some ia ∧ (mapAfter fb cb).map.find b = some ib)
    (hWi : ∀ a ∈ wild, (mapAfter fa ca).map.find a = some ia) :
    ∃ pas pbs ma mb, makePairRefinement X Y wild Bs = some (pas, pbs) ∧
      (mapAfter fa ca).map.refine { id := ia, parts := pas } = some ma ∧
      (mapAfter fb cb).map.refine { id := ib, parts := pbs } = some mb ∧
      (∀ a b a' b', (a, b) ∈ X → (a', b') ∈ Y → ma.find a ≠ ma.find a' ∨ mb.find b ≠ mb.find b') ∧
      (∀ a b a', (a, b) ∈ X → a' ∈ wild → ma.find a ≠ ma.find a') ∧
      ((mapAfter fa ca).map.size < ma.size ∨ (mapAfter fb cb).map.size < mb.size) := by
  obtain ⟨pas, pbs, h1, h2, h3, h4, h5, h6⟩ := c41_pair_refinement X Y wild Bs hX hY hd hw hwX hwY hBn hB
  obtain ⟨ma, a1, a2, _, _, a5⟩ := c43_refine_separates fa ca [] trivial _ rfl { id := ia, parts := pas }
    (fun p hp => ⟨h2.ne p hp, fun x hx => by
      rcases (h2.all x).1 ⟨p, hp, hx⟩ with ⟨b, hb⟩ | hb
      · exact (hXi x b hb).1
      · exact hWi x hb⟩) h2.once
  obtain ⟨mb, b1, b2, _, _, b5⟩ := c43_refine_separates fb cb [] trivial _ rfl { id := ib, parts := pbs }
    (fun p hp => ⟨h3.ne p hp, fun x hx => by
      obtain ⟨a, ha⟩ := (h3.all x).1 ⟨p, hp, hx⟩
      exact (hXi a x ha).2⟩) h3.once
  refine ⟨pas, pbs, ma, mb, h1, a1, b1, fun a b a' b' hx hy => ?_, fun a b a' hx ha' => a2 a a' (h5 a b a' hx ha'), ?_⟩
  · exact (h4 a b a' b' hx hy).imp (a2 a a') (b2 b b')
  · rcases h6 with h6 | h6
    · left
      have := a5 (by simp only; omega)
      simp only at this; omega
    · right
      have := b5 (by simp only; omega)
      simp only at this; omega

/-- C42 and C43 together: applying a `HeaderRefinement` combined from any pieces gives different ids to
whatever any piece separates. -/
theorem c43_header_refined {α β : Type} [LinearOrder α] [DecidableEq β] (fn : α → β) (cs : List (MapCall α β))
    (ps : List (Piece α)) (hs : ∀ p ∈ ps, IsSplit p.2.1 p.2.2)
    (hid : ∀ i o0 o1, (i, o0, o1) ∈ ps → ∀ x, x ∈ o0 ∨ x ∈ o1 → (mapAfter fn cs).map.find x = some i) :
    ∃ m', (mapAfter fn cs).map.refineHeader (collect ps) = some m' ∧ Inverse m' ∧
      (∀ i o0 o1, (i, o0, o1) ∈ ps → ∀ x y, x ∈ o0 → y ∈ o1 → m'.find x ≠ m'.find y) ∧
      (∀ x, (∀ i o0 o1, (i, o0, o1) ∈ ps → (mapAfter fn cs).map.find x ≠ some i) →
        m'.find x = (mapAfter fn cs).map.find x) := by
  obtain ⟨h1, h2, h0, h3, h4⟩ := c42_header ps hs
  obtain ⟨m', a1, a2, _, a4, a5⟩ := RMap.refineHeader_splits (mapAfter_spec fn cs).1.map (hd := collect ps)
    (fun r hr => ⟨fun p hp x hx => by
      obtain ⟨o0, o1, hm, hx'⟩ := (h3 r.id x).1 ⟨r, hr, rfl, p, hp, hx⟩
      exact hid r.id o0 o1 hm x hx', (h1 r hr).ne, (h1 r hr).once⟩) h2
  refine ⟨m', a1, ⟨RMap.mem_concrete a2, RMap.nodup_concrete a2, fun x c => RMap.find_lt a2⟩, ?_, ?_⟩
  · intro i o0 o1 hm x y hx hy
    obtain ⟨r, hr, _, hsep⟩ := h4 i o0 o1 hm
    obtain ⟨j, k, p, q, hp, hq, hjk, hxp, hyq⟩ := hsep x y hx hy
    exact a5 r hr j k p q x y hp hq hjk hxp hyq
  · intro x hx
    refine a4 x fun r hr he => ?_
    obtain ⟨o0, o1, hm⟩ := (h0 r.id).1 (List.mem_map_of_mem hr)
    exact hx r.id o0 o1 hm he

/-- The calls that insert 0, ..., 7. -/
def exampleInserts : List (MapCall Nat Nat) := (List.range 8).map fun x => .insert x false

/-- Remainders modulo 2; both pieces split the class of the even numbers. -/
example : ∃ m', (mapAfter (· % 2) exampleInserts).map.refineHeader (collect [(0, [0], [2, 4]), (0, [0, 2], [6])]) = some m' ∧
    m'.find 2 ≠ m'.find 6 := by
  obtain ⟨m', h, _, hx, _⟩ := c43_header_refined (· % 2) exampleInserts [(0, [0], [2, 4]), (0, [0, 2], [6])] (by
    intro p hp
    simp only [List.mem_cons, List.not_mem_nil, or_false] at hp
    rcases hp with rfl | rfl <;> exact ⟨by simp, by simp, by simp, by simp, by simp⟩) (by
    intro i o0 o1 hp x hx
    simp only [List.mem_cons, List.not_mem_nil, or_false, Prod.mk.injEq] at hp
    rcases hp with ⟨rfl, rfl, rfl⟩ | ⟨rfl, rfl, rfl⟩ <;>
      · simp only [List.mem_cons, List.not_mem_nil, or_false] at hx
        have hall : ∀ x ∈ [0, 2, 4, 6], (mapAfter (· % 2) exampleInserts).map.find x = some 0 := by decide
        refine hall x ?_
        simp only [List.mem_cons, List.not_mem_nil, or_false]
        omega)
  exact ⟨m', h, hx 0 [0, 2] [6] (by simp) 2 6 (by simp) (by simp)⟩

/-- Two pairs to be kept apart from two others, all of them in the same pair of classes. -/
example : ∃ ma mb pas pbs, (mapAfter (· % 2) exampleInserts).map.refine { id := 0, parts := pas } = some ma ∧
    (mapAfter (· % 2) exampleInserts).map.refine { id := 1, parts := pbs } = some mb ∧
    (ma.find 2 ≠ ma.find 2 ∨ mb.find 1 ≠ mb.find 3) := by
  obtain ⟨pas, pbs, ma, mb, _, h1, h2, h3, _⟩ := c43_pair_refined [((2 : Nat), (1 : Nat)), (4, 3)] [(2, 3), (4, 1)] [6] [3, 1]
    (by simp) (by simp) (by decide) (by decide) (by simp; omega) (by simp; omega) (by decide) (by
      intro b
      simp only [List.mem_cons, List.not_mem_nil, or_false, Prod.mk.injEq]
      constructor
      · rintro (rfl | rfl)
        · exact ⟨2, by simp⟩
        · exact ⟨2, by simp⟩
      · rintro ⟨a, h⟩; omega) (· % 2) exampleInserts (· % 2) exampleInserts 0 1
    (by
      intro a b h
      simp only [List.mem_cons, List.not_mem_nil, or_false, Prod.mk.injEq] at h
      rcases h with (⟨rfl, rfl⟩ | ⟨rfl, rfl⟩) | (⟨rfl, rfl⟩ | ⟨rfl, rfl⟩) <;> decide) (by decide)
  exact ⟨ma, mb, pas, pbs, h1, h2, h3 2 1 2 3 (by simp) (by simp)⟩

/-! ## C44 -/

section
variable {L β : Type} [LinearOrder L] [DecidableEq β]

/-- The concrete labels matched by an edge. -/
def edgeMatches {T : Type} (labels : List T) (negated : Bool) (x : T) : Prop := if negated then x ∉ labels else x ∈ labels

/-- C44 for edges that are not negated: the encoding always over-approximates, and it is exact: an abstract
label is matched if and only if one of its concrete labels is. -/
theorem c44_positive_partial (fn : L → β) (cs : List (MapCall L β)) (hs : List (HeaderRefinement L))
    (hf : FitAll (mapAfter fn cs).map hs) (labels : List L) (hsort : labels.Pairwise (· ≤ ·))
    (hin : ∀ x ∈ labels, MapCall.insert x false ∈ cs) (m : RMap L)
    (hm : runRefines (mapAfter fn cs).map hs = some m) :
    ∃ ids, m.encodeLabels labels false = some ids ∧ ids.Pairwise (· < ·) ∧
      ∀ c, edgeMatches ids false c ↔ ∃ x, edgeMatches labels false x ∧ m.find x = some c := by
  obtain ⟨m', h1, h2, h3, _⟩ := c43_refine_splits fn cs hs hf
  rw [hm] at h1; cases h1
  obtain ⟨ids, k1, k2, k3⟩ := RMap.encodeMany_spec (m := m) labels (fun x hx => by
    by_cases hk : x ∈ m.keys
    · exact hk
    · have := (h3 x).2 (hin x hx)
      rw [(RMap.find_none x).2 hk] at this; cases this)
  exact ⟨ids, by simp [RMap.encodeLabels, k1], k2, fun c => by simp [edgeMatches, k3]⟩

/-- C44, what a negated edge really matches: every abstract label except those with a concrete label in
`labels` and another one not in `labels`. So it matches every concrete label outside `labels` (the
over-approximation) if and only if no abstract label mixes labels inside and outside `labels`. -/
theorem c44_negated_exact (fn : L → β) (cs : List (MapCall L β)) (hs : List (HeaderRefinement L))
    (hf : FitAll (mapAfter fn cs).map hs) (labels : List L) (hsort : labels.Pairwise (· ≤ ·))
    (hin : ∀ x ∈ labels, MapCall.insert x false ∈ cs) (m : RMap L)
    (hm : runRefines (mapAfter fn cs).map hs = some m) :
    ∃ ids, m.encodeLabels labels true = some ids ∧ ids.Pairwise (· < ·) ∧
      (∀ c, edgeMatches ids true c ↔
        ¬ ((∃ x ∈ labels, m.find x = some c) ∧ ∃ x, m.find x = some c ∧ x ∉ labels)) ∧
      ((∀ x c, edgeMatches labels true x → m.find x = some c → edgeMatches ids true c) ↔
        ∀ x y, x ∉ labels → y ∈ labels → (m.find x).isSome → m.find x ≠ m.find y) := by
  have key : ∀ (hs : List (HeaderRefinement L)) (m0 : RMap L), RMap.Inv m0 → FitAll m0 hs →
      runRefines m0 hs = some m → RMap.Inv m := by
    intro hs
    induction hs with
    | nil => intro m0 hm0 _ h; cases h; exact hm0
    | cons h hs ih =>
      intro m0 hm0 hfit hrun
      rw [FitAll] at hfit
      obtain ⟨m1, a1, a2, _, _⟩ := RMap.refineHeader_splits hm0
        (fun r hr => ⟨fun p hp => ((hfit.1.2 r hr).1 p hp).2, fun p hp => ((hfit.1.2 r hr).1 p hp).1, (hfit.1.2 r hr).2⟩)
        hfit.1.1
      unfold runRefines at hrun
      rw [List.foldlM_cons, a1] at hrun
      exact ih m1 a2 (hfit.2 m1 a1) hrun
  have hi := key hs _ (mapAfter_spec fn cs).1.map hf hm
  obtain ⟨m', h1, h2, h3, _⟩ := c43_refine_splits fn cs hs hf
  rw [hm] at h1; cases h1
  have hkey : ∀ x ∈ labels, x ∈ m.keys := fun x hx => by
    by_cases hk : x ∈ m.keys
    · exact hk
    · have := (h3 x).2 (hin x hx)
      rw [(RMap.find_none x).2 hk] at this; cases this
  obtain ⟨ids, k1, k2, k3⟩ := RMap.encodeLabels_spec hi labels hsort hkey true
  have hex : ∀ c, edgeMatches ids true c ↔
      ¬ ((∃ x ∈ labels, m.find x = some c) ∧ ∃ x, m.find x = some c ∧ x ∉ labels) := by
    intro c
    simp only [edgeMatches, if_true, k3, forall_const]
  refine ⟨ids, k1, k2, hex, ?_⟩
  constructor
  · intro h x y hx hy hsome he
    obtain ⟨c, hc⟩ := Option.isSome_iff_exists.1 hsome
    have := h x c (by simpa [edgeMatches] using hx) hc
    rw [hex] at this
    exact this ⟨⟨y, hy, by rw [← he]; exact hc⟩, x, hc, hx⟩
  · intro h x c hx hc
    rw [hex]
    rintro ⟨⟨y, hy, hyc⟩, _⟩
    exact h x y (by simpa [edgeMatches] using hx) hy (by rw [hc]; rfl) (by rw [hc, hyc])

/-- A negated edge whose labels are exactly one class, where the encoding is right. -/
example : ∃ ids, (mapAfter (· % 2) exampleInserts).map.encodeLabels [1, 3, 5, 7] true = some ids ∧
    ∀ x c, edgeMatches [1, 3, 5, 7] true x → (mapAfter (· % 2) exampleInserts).map.find x = some c →
      edgeMatches ids true c := by
  obtain ⟨ids, h1, _, _, h2⟩ := c44_negated_exact (· % 2) exampleInserts [] trivial [1, 3, 5, 7] (by decide) (by
    intro x hx
    simp only [List.mem_cons, List.not_mem_nil, or_false] at hx
    simp only [exampleInserts, List.mem_map, List.mem_range]
    exact ⟨x, by omega, rfl⟩) _ rfl
  refine ⟨ids, h1, h2.2 ?_⟩
  intro x y hx hy hsome
  have hm : MapCall.insert x false ∈ exampleInserts := by
    have := (mapAfter_spec (fun x : Nat => x % 2) exampleInserts).2.1 x
    rw [← this]
    by_cases hk : x ∈ (mapAfter (fun x : Nat => x % 2) exampleInserts).map.keys
    · exact hk
    · rw [(RMap.find_none x).2 hk] at hsome; cases hsome
  simp only [exampleInserts, List.mem_map, List.mem_range, MapCall.insert.injEq, and_true, exists_eq_right] at hm
  have hall : ∀ x ∈ List.range 8, x ∉ [1, 3, 5, 7] → ∀ y ∈ [1, 3, 5, 7],
      (mapAfter (· % 2) exampleInserts).map.find x ≠ (mapAfter (· % 2) exampleInserts).map.find y := by decide +kernel
  exact hall x (List.mem_range.2 hm) hx y hy

/-- C44, the defect: numbers modulo 2, and the edge that matches every label but 1. The concrete label 3 is
matched, its abstract label is not; and the abstract label of the labels 0 and 2 that are matched is. With
both 1 and 3 in the list, nothing odd is matched by the concrete edge but the abstract edge matches it. -/
theorem c44_negated_wrong :
    let m : RMap Nat := (mapAfter (· % 2) [.insert 0 false, .insert 1 false, .insert 2 false, .insert 3 false]).map
    m.encodeLabels [1] true = some [1] ∧ edgeMatches [1] true 3 ∧ m.find 3 = some 1 ∧ ¬ edgeMatches [1] true 1 ∧
    m.encodeLabels [1, 3] true = some [] ∧ edgeMatches ([] : List Nat) true 1 ∧
      (∀ x, m.find x = some 1 → ¬ edgeMatches [1, 3] true x) := by
  intro m
  refine ⟨by decide +kernel, by simp [edgeMatches], by decide, by simp [edgeMatches], by decide +kernel, by simp [edgeMatches], ?_⟩
  intro x hx
  have hk : x ∈ m.keys := by
    by_cases h : x ∈ m.keys
    · exact h
    · rw [(RMap.find_none x).2 h] at hx; cases hx
  have hkeys : m.keys = [0, 1, 2, 3] := by decide
  rw [hkeys] at hk
  simp only [List.mem_cons, List.not_mem_nil, or_false] at hk
  rcases hk with rfl | rfl | rfl | rfl
  · exact absurd hx (by decide)
  · simp [edgeMatches]
  · exact absurd hx (by decide)
  · simp [edgeMatches]

end

end Verif.Props
