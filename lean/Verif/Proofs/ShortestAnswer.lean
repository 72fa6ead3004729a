import Verif.Proofs.ShortestProductLoop
import Verif.Spec.Weighted

/-! # The product with weights: what its paths and its least accepting weight say -/

namespace Verif.SProd

variable {T : Type} [LinearOrder T] [AddCommMonoid T]

open Product (Mv PInv PExt EdgeOK InRange ann)

/-! ## The least accepting weight -/

/-- The accepting states other than the initial ones. -/
def Acc (s : SProd T) (u : Nat) : Prop := s.base.size ≤ u ∧ u < s.base.aut.n ∧ s.base.aut.isAcc u = true

omit [LinearOrder T] [AddCommMonoid T] in
theorem mem_accs {s : SProd T} {q : Nat} {x : T} : (q, x) ∈ s.accs ↔ q < s.base.aut.n ∧ s.base.aut.isAcc q = true ∧ x = s.best q := by
  unfold accs
  rw [List.mem_map]
  constructor
  · rintro ⟨u, h1, h2⟩
    rw [List.mem_filter, List.mem_range] at h1
    cases h2
    exact ⟨h1.1, h1.2, rfl⟩
  · rintro ⟨h1, h2, rfl⟩
    exact ⟨q, List.mem_filter.2 ⟨List.mem_range.2 h1, h2⟩, rfl⟩

theorem findFirst_top {s : SProd T} : s.findFirst.2 = ⊤ ↔ ∀ u, u < s.base.aut.n → s.base.aut.isAcc u = false := by
  obtain ⟨h1, h2⟩ := FP.minElement_spec (es := s.accs)
  show s.pathShortest.2 = ⊤ ↔ _
  unfold pathShortest
  rcases hm : minElement s.accs with _ | ⟨q, x⟩
  · dsimp only
    refine ⟨fun _ u hu => ?_, fun _ => rfl⟩
    by_contra hc
    rw [Bool.not_eq_false] at hc
    have := mem_accs.2 ⟨hu, hc, rfl⟩
    rw [h1 hm] at this
    cases this
  · dsimp only
    obtain ⟨h3, _⟩ := h2 _ hm
    obtain ⟨h4, h5, _⟩ := mem_accs.1 h3
    refine ⟨fun h => absurd h WithTop.coe_ne_top, fun h => ?_⟩
    rw [h q h4] at h5
    cases h5

theorem findFirst_coe {s : SProd T} {x : T} (h : s.findFirst.2 = (x : WithTop T)) :
    (∃ u, u < s.base.aut.n ∧ s.base.aut.isAcc u = true ∧ s.best u = x) ∧
      ∀ u, u < s.base.aut.n → s.base.aut.isAcc u = true → x ≤ s.best u := by
  obtain ⟨h1, h2⟩ := FP.minElement_spec (es := s.accs)
  have h' : s.pathShortest.2 = (x : WithTop T) := h
  unfold pathShortest at h'
  rcases hm : minElement s.accs with _ | ⟨q, y⟩
  · rw [hm] at h'
    cases h'
  · rw [hm] at h'
    dsimp only at h'
    have hxy : y = x := WithTop.coe_injective h'
    subst hxy
    obtain ⟨h3, h4⟩ := h2 _ hm
    obtain ⟨h5, h6, h7⟩ := mem_accs.1 h3
    exact ⟨⟨q, h5, h6, h7.symm⟩, fun u u1 u2 => h4 _ (mem_accs.2 ⟨u1, u2, rfl⟩)⟩

theorem stop_true {s : SProd T} {k : WithTop T} (h : s.stop k = true) :
    ∃ u, u < s.base.aut.n ∧ s.base.aut.isAcc u = true ∧ (s.best u : WithTop T) ≤ k := by
  obtain ⟨_, h2⟩ := FP.minElement_spec (es := s.accs)
  unfold stop at h
  rcases hm : minElement s.accs with _ | ⟨q, y⟩
  · rw [hm] at h
    cases h
  · rw [hm] at h
    obtain ⟨h3, _⟩ := h2 _ hm
    obtain ⟨h5, h6, h7⟩ := mem_accs.1 h3
    refine ⟨q, h5, h6, ?_⟩
    rw [← h7]
    simpa using h

theorem stop_false {s : SProd T} {k : WithTop T} (h : s.stop k = false) {u : Nat} (hu : u < s.base.aut.n)
    (ha : s.base.aut.isAcc u = true) : k < (s.best u : WithTop T) := by
  obtain ⟨h1, h2⟩ := FP.minElement_spec (es := s.accs)
  have hin := mem_accs.2 ⟨hu, ha, rfl⟩
  unfold stop at h
  rcases hm : minElement s.accs with _ | ⟨q, y⟩
  · rw [h1 hm] at hin
    cases hin
  · rw [hm] at h
    obtain ⟨_, h4⟩ := h2 _ hm
    have h5 := h4 _ hin
    refine lt_of_lt_of_le ?_ (WithTop.coe_le_coe.2 h5)
    simpa using h

/-! ## Paths -/

omit [LinearOrder T] in
theorem _root_.Verif.CostEPath.snoc {E : Tr → T → Prop} {p q r g : Nat} {w : List Nat} {x y : T} (h : CostEPath E p w x q) (hg : g ≠ epsilon)
    (he : E ⟨q, g, r⟩ y) : CostEPath E p (w ++ [g]) (x + y) r := by
  induction h with
  | nil q =>
    have := CostEPath.cons hg he (.nil r)
    rwa [add_zero, ← zero_add y] at this
  | cons h1 h2 _ ih =>
    rw [add_assoc]
    exact .cons h1 h2 (ih he)
  | eps h2 _ ih =>
    rw [add_assoc]
    exact .eps h2 (ih he)

omit [LinearOrder T] in
theorem _root_.Verif.CostEPath.snocEps {E : Tr → T → Prop} {p q r : Nat} {w : List Nat} {x y : T} (h : CostEPath E p w x q)
    (he : E ⟨q, epsilon, r⟩ y) : CostEPath E p w (x + y) r := by
  induction h with
  | nil q =>
    have := CostEPath.eps he (.nil r)
    rwa [add_zero, ← zero_add y] at this
  | cons h1 h2 _ ih =>
    rw [add_assoc]
    exact .cons h1 h2 (ih he)
  | eps h2 _ ih =>
    rw [add_assoc]
    exact .eps h2 (ih he)

omit [LinearOrder T] in
/-- A path of the product is a path of each automaton. -/
theorem PPath.split {dual : Bool} {SA SB : Tr → T → Prop} (hB : ∀ t y, SB t y → t.label ≠ epsilon) {x y : Nat × Nat} {a : T}
    (h : PPath (MvR dual SA SB) x a y) :
    ∃ w c d, CostEPath SA x.1 w c y.1 ∧ CostEPath SB x.2 w d y.2 ∧ a = if dual then c + d else c := by
  induction h with
  | nil => exact ⟨[], 0, 0, .nil _, .nil _, by cases dual <;> simp⟩
  | snoc _ h1 ih =>
    obtain ⟨w, c, d, i1, i2, i3⟩ := ih
    rcases h1 with ⟨rfl, ⟨h3, h4⟩ | ⟨h3, h4⟩⟩ | ⟨h0, e, f, h3, h4, h5⟩
    · refine ⟨w, _, d, i1.snocEps h3, by rw [h4]; exact i2, ?_⟩
      rw [i3]
      cases dual
      · rfl
      · simp only [if_true]; rw [add_right_comm]
    · exact absurd rfl (hB _ _ h3)
    · refine ⟨w ++ [_], _, _, i1.snoc h0 h3, i2.snoc h0 h4, ?_⟩
      rw [i3, h5]
      cases dual
      · rfl
      · simp only [if_true]; rw [add_add_add_comm]

omit [LinearOrder T] in
theorem PPath.cons {M : Nat × Nat → Nat → Nat × Nat → T → Prop} {x y z : Nat × Nat} {g : Nat} {w a : T} (h : M x g y w)
    (hp : PPath M y a z) : PPath M x (w + a) z := by
  induction hp with
  | nil =>
    have := PPath.snoc (.nil) h
    rwa [zero_add, ← add_zero w] at this
  | snoc _ h1 ih =>
    rw [← add_assoc]
    exact .snoc ih h1

omit [LinearOrder T] in
/-- Paths of the two automata that read the same word are a path of the product. -/
theorem PPath.merge {dual : Bool} {EA EB : Tr → T → Prop} (hB : ∀ t y, EB t y → t.label ≠ epsilon) {p f : Nat} {w : List Nat} {c : T}
    (hp : CostEPath EA p w c f) {q f' : Nat} {d : T} (hq : CostEPath EB q w d f') :
    PPath (MvR dual EA EB) (p, q) (if dual then c + d else c) (f, f') := by
  induction hp generalizing q d with
  | nil p =>
    cases hq with
    | nil =>
      have : (if dual then (0 : T) + 0 else 0) = 0 := by cases dual <;> simp
      rw [this]
      exact .nil
    | eps h _ => exact absurd rfl (hB _ _ h)
  | @cons p _ _ _ _ _ _ hg he hp' ih =>
    cases hq with
    | cons _ he' hq' =>
      have h1 := ih hq'
      have h2 := PPath.cons (M := MvR dual EA EB) (x := (p, q)) (.inr ⟨hg, _, _, he, he', rfl⟩) h1
      cases dual
      · exact h2
      · simp only [if_true] at h2 ⊢
        rw [add_add_add_comm]
        exact h2
    | eps h _ => exact absurd rfl (hB _ _ h)
  | @eps p p' _ _ _ _ he hp' ih =>
    have h1 := ih hq
    have h2 := PPath.cons (M := MvR dual EA EB) (x := (p, q)) (y := (p', q)) (g := epsilon) (.inl ⟨rfl, .inl ⟨he, rfl⟩⟩) h1
    cases dual
    · exact h2
    · simp only [if_true] at h2 ⊢
      rw [add_assoc]
      exact h2

variable [IsOrderedCancelAddMonoid T]

/-- Every path over moves that are accounted for ends in a state that weighs no more. -/
theorem Tri.path {M : Nat × Nat → Nat → Nat × Nat → T → Prop} {s : SProd T} (ht : Tri M s fun _ => True)
    (hn : s.base.size ≤ s.base.aut.n) {q : Nat} (hq : q < s.base.size) {a : T} {y : Nat × Nat} (h : PPath M (q, q) a y) :
    ∃ v, v < s.base.aut.n ∧ s.base.orig v = y ∧ (s.base.size ≤ v → (s.back v).isSome) ∧ s.key v ≤ a := by
  induction h with
  | nil =>
    refine ⟨q, by omega, Product.orig_lt hq, fun h => absurd hq (Nat.not_lt.2 h), ?_⟩
    unfold key
    rw [if_pos hq]
  | snoc _ h1 ih =>
    obtain ⟨v, v1, v2, _, v4⟩ := ih
    obtain ⟨u, u1, u2, u3, u4⟩ := ht v v1 trivial _ _ _ (by rw [v2]; exact h1)
    exact ⟨u, u1, u2, u3, le_trans u4 (add_le_add v4 le_rfl)⟩

/-- The invariant only needs the states and transitions of the two automata. -/
theorem LInv.mono {dual : Bool} {SA SB SA' SB' : Tr → T → Prop} {A B A' B' : Aut T} {s : SProd T} (h : LInv dual SA SB A B { prod := s })
    (hA : ∀ t ∈ keys A.edges, t ∈ keys A'.edges) (hB : ∀ t ∈ keys B.edges, t ∈ keys B'.edges)
    (aA : ∀ q, A'.isAcc q = A.isAcc q) (aB : ∀ q, B'.isAcc q = B.isAcc q) (nA : A.n ≤ A'.n) (nB : B.n ≤ B'.n)
    (hSA : ∀ t x, SA t x → SA' t x) (hSB : ∀ t x, SB t x → SB' t x) : LInv dual SA' SB' A' B' { prod := s } := by
  refine ⟨h.base.mono hA hB aA aB nA nB, ?_, h.fresh, h.acc, h.ent, h.ex, h.ord⟩
  intro u hu
  obtain ⟨q, q1, q2⟩ := h.sound u hu
  exact ⟨q, q1, q2.mono fun _ _ _ _ hm => hm.mono hSA hSB⟩

omit [LinearOrder T] [IsOrderedCancelAddMonoid T] in
/-- The product of two automata before anything has been added. -/
theorem ofAutomata_linv [LinearOrder T] (dual : Bool) {SA SB : Tr → T → Prop} {A B : Aut T} {size : Nat} (hA : size ≤ A.n) (hB : size ≤ B.n)
    (best : Nat → T) : LInv dual SA SB A B { prod := { base := Product.ofAutomata size A B, best := best } } := by
  have hb := Product.ofAutomata_inv dual hA hB
  have hsz : (Product.ofAutomata size A B).size = size := rfl
  have hn : (Product.ofAutomata size A B).aut.n = size := by
    rw [hb.n]; rfl
  refine ⟨hb, ?_, fun _ _ => rfl, ?_, (fun _ he => by cases he), (fun _ _ he => by cases he), (fun _ he => by cases he)⟩
  · intro u hu
    dsimp only at hu
    rw [hn] at hu
    refine ⟨u, hu, ?_⟩
    have h1 : key ({ base := Product.ofAutomata size A B, best := best } : SProd T) u = 0 := by
      unfold key
      exact if_pos hu
    have h2 : (Product.ofAutomata size A B).orig u = (u, u) := Product.orig_lt hu
    dsimp only
    rw [h1, h2]
    exact .nil
  · intro u h1 h2
    dsimp only at h1 h2
    rw [hn] at h2
    rw [hsz] at h1
    omega

end Verif.SProd
