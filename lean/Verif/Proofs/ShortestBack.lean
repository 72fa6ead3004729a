import Verif.Proofs.ShortestAnswer
import Verif.Proofs.ProductTrace
import Verif.Proofs.BuiltW

/-! # The product with weights: the path along the back edges -/

namespace Verif.SProd

variable {T : Type}

/-- A chain of back edges from an initial state. -/
inductive Chain (back : Nat → Option (Nat × Nat)) (size : Nat) : Nat → List Tr → Nat → Prop where
  | nil {u : Nat} : u < size → Chain back size u [] u
  | snoc {r u v l : Nat} {ts : List Tr} : Chain back size r ts v → back u = some (v, l) → Chain back size r (ts ++ [⟨v, l, u⟩]) u

theorem Anch.chain {back : Nat → Option (Nat × Nat)} {size u : Nat} (h : Anch back size u) : ∃ r ts, Chain back size r ts u := by
  induction h with
  | root h => exact ⟨_, _, .nil h⟩
  | step h _ ih =>
    obtain ⟨r, ts, ih⟩ := ih
    exact ⟨r, _, .snoc ih h⟩

theorem Chain.root {back : Nat → Option (Nat × Nat)} {size r u : Nat} {ts : List Tr} (h : Chain back size r ts u) : r < size := by
  induction h with
  | nil h => exact h
  | snoc _ _ ih => exact ih

theorem Chain.mem {back : Nat → Option (Nat × Nat)} {size r u : Nat} {ts : List Tr} (h : Chain back size r ts u) :
    ∀ t ∈ ts, back t.dst = some (t.src, t.label) := by
  induction h with
  | nil => intro t ht; cases ht
  | snoc _ h1 ih =>
    intro t ht
    rcases List.mem_append.1 ht with ht | ht
    · exact ih t ht
    · rw [List.mem_singleton] at ht
      subst ht
      exact h1

/-- The chain is determined by its end. -/
theorem Chain.unique {back : Nat → Option (Nat × Nat)} {size : Nat} (hr : ∀ u v, back u = some v → size ≤ u) {r u : Nat} {ts : List Tr}
    (h : Chain back size r ts u) {r' : Nat} {ts' : List Tr} (h' : Chain back size r' ts' u) : ts = ts' := by
  induction h generalizing r' ts' with
  | nil h =>
    cases h' with
    | nil => rfl
    | snoc _ h2 => have := hr _ _ h2; omega
  | snoc _ h1 ih =>
    cases h' with
    | nil h => have := hr _ _ h1; omega
    | snoc h3 h2 =>
      rw [h1] at h2
      cases h2
      rw [ih h3]

/-- Its states are different. -/
theorem Chain.nodup {back : Nat → Option (Nat × Nat)} {size : Nat} (hr : ∀ u v, back u = some v → size ≤ u) {r u : Nat} {ts : List Tr}
    (h : Chain back size r ts u) : (ts.map Tr.dst).Nodup ∧
      ∀ x ∈ ts.map Tr.dst, ∃ ts', Chain back size r ts' x ∧ ts'.length ≤ ts.length := by
  induction h with
  | nil => exact ⟨List.nodup_nil, fun _ h => by cases h⟩
  | @snoc u v l ts hc h1 ih =>
    obtain ⟨i1, i2⟩ := ih
    have hnew := Chain.snoc hc h1
    rw [List.map_append, List.map_singleton]
    dsimp only
    refine ⟨?_, ?_⟩
    · rw [List.nodup_append]
      refine ⟨i1, List.nodup_cons.2 ⟨List.not_mem_nil, List.nodup_nil⟩, ?_⟩
      intro x hx y hy
      rw [List.mem_singleton] at hy
      subst hy
      rintro rfl
      obtain ⟨ts', c1, c2⟩ := i2 _ hx
      have := hnew.unique hr c1
      rw [← this, List.length_append, List.length_singleton] at c2
      omega
    · intro x hx
      rcases List.mem_append.1 hx with hx | hx
      · obtain ⟨ts', c1, c2⟩ := i2 x hx
        exact ⟨ts', c1, by rw [List.length_append]; omega⟩
      · rw [List.mem_singleton] at hx
        subst hx
        exact ⟨_, hnew, Nat.le_refl _⟩

/-- Walking back along the chain. -/
theorem walk_chain {s : SProd T} {size r u : Nat} {ts : List Tr} (hr : ∀ u v, s.back u = some v → size ≤ u)
    (h : Chain s.back size r ts u) (n : Nat) (hn : ts.length ≤ n) (f : Nat) (es : List (Nat × Nat)) :
    s.walk n u ⟨f, es⟩ = ⟨f, (ts.map fun t => (t.label, t.src)) ++ es⟩ := by
  induction h generalizing n es with
  | nil h =>
    cases n with
    | zero => rfl
    | succ n =>
      unfold walk
      rcases hb : s.back r with _ | v
      · rfl
      · have := hr _ _ hb
        omega
  | @snoc u v l ts _ h1 ih =>
    rw [List.length_append, List.length_singleton] at hn
    cases n with
    | zero => omega
    | succ n =>
      unfold walk
      rw [h1]
      dsimp only
      have := ih n (by omega) ((l, v) :: es)
      rw [List.map_append, List.append_assoc]
      exact this

theorem chain_front {back : Nat → Option (Nat × Nat)} {size r u : Nat} {ts : List Tr} (h : Chain back size r ts u) (f : Nat)
    (es : List (Nat × Nat)) (hu : APath.frontState ⟨f, es⟩ = u) :
    APath.frontState ⟨f, (ts.map fun t => (t.label, t.src)) ++ es⟩ = r := by
  induction h generalizing es with
  | nil => exact hu
  | @snoc u v l ts _ h1 ih =>
    rw [List.map_append, List.append_assoc]
    exact ih ((l, v) :: es) rfl

theorem chain_trs {back : Nat → Option (Nat × Nat)} {size r u : Nat} {ts : List Tr} (h : Chain back size r ts u) (f : Nat)
    (es : List (Nat × Nat)) (hu : APath.frontState ⟨f, es⟩ = u) :
    trs f ((ts.map fun t => (t.label, t.src)) ++ es) = ts ++ trs f es := by
  induction h generalizing es with
  | nil => rfl
  | @snoc u v l ts _ h1 ih =>
    rw [List.map_append, List.append_assoc, List.append_assoc]
    have := ih ((l, v) :: es) rfl
    rw [List.map_singleton, List.singleton_append, List.singleton_append, this]
    simp only [trs]
    rw [hu]

variable [LinearOrder T] [AddCommMonoid T] [IsOrderedCancelAddMonoid T]

/-- What holds of the path that `get_path_shortest` returns. -/
structure BackPath (s : SProd T) (u : Nat) (path : APath Nat) : Prop where
  fin : path.fin = u
  front : path.frontState < s.base.size
  edges : ∀ t ∈ path.trs, t ∈ keys s.base.aut.edges
  back : ∀ t ∈ path.trs, s.back t.dst = some (t.src, t.label)

omit [LinearOrder T] [IsOrderedCancelAddMonoid T] in
theorem BInv.path [LinearOrder T] {dual : Bool} {SA SB : Tr → T → Prop} {D : Nat × Nat → Prop} {s : SProd T} (hb : BInv dual SA SB D s) {u : Nat}
    (hu : u < s.base.aut.n) (hD : ¬ D (s.base.orig u)) :
    ∃ r ts, Chain s.back s.base.size r ts u ∧ BackPath s u (s.walk s.base.aut.n u ⟨u, []⟩) ∧
      (s.walk s.base.aut.n u ⟨u, []⟩).trs = ts := by
  obtain ⟨r, ts, hc⟩ := (hb.anch u hu hD).chain
  have hr : ∀ u v, s.back u = some v → s.base.size ≤ u := fun u v h => (hb.edge u v.1 v.2 h).1
  obtain ⟨n1, _⟩ := hc.nodup hr
  have hlen : ts.length ≤ s.base.aut.n := by
    have hsub : ts.map Tr.dst ⊆ List.range s.base.aut.n := by
      intro x hx
      obtain ⟨t, ht, rfl⟩ := List.mem_map.1 hx
      exact List.mem_range.2 (hb.edge _ _ _ (hc.mem t ht)).2.1
    have := (List.subperm_of_subset n1 hsub).length_le
    rwa [List.length_map, List.length_range] at this
  have hw := walk_chain hr hc s.base.aut.n hlen u []
  have ht := chain_trs hc u [] rfl
  have hf := chain_front hc u [] rfl
  have htr : (s.walk s.base.aut.n u ⟨u, []⟩).trs = ts := by
    rw [hw]
    unfold APath.trs
    rw [ht]
    simp [trs]
  refine ⟨r, ts, hc, ⟨by rw [hw], by rw [hw, hf]; exact hc.root, ?_, ?_⟩, htr⟩
  · rw [htr]
    exact fun t h => (hb.edge _ _ _ (hc.mem t h)).2.2.2
  · rw [htr]
    exact hc.mem

/-- The sum of the weights along the chain. -/
theorem BInv.sum {SA SB : Tr → T → Prop} {D : Nat × Nat → Prop} {s : SProd T} (hb : BInv false SA SB D s)
    (hD : Closed false SA SB D) {A : Aut T} (hSA : ∀ t x, SA t x → A.wt t = some x) (hBe : ∀ t y, SB t y → t.label ≠ epsilon)
    {r u : Nat} {ts : List Tr} (hc : Chain s.back s.base.size r ts u) (hu : ¬ D (s.base.orig u)) :
    sumW A (ts.map fun t => ⟨(s.base.orig t.src).1, t.label, (s.base.orig t.dst).1⟩) ≤ s.key u := by
  induction hc with
  | nil h =>
    have : s.key r = 0 := by unfold key; rw [if_pos h]
    rw [this]
    exact le_refl _
  | @snoc u v l ts _ h1 ih =>
    obtain ⟨w, d1, d2⟩ := hb.move u v l h1 hu
    have h2 := ih fun h => hu (hD _ _ _ _ d1 h)
    have hwt : A.wt ⟨(s.base.orig v).1, l, (s.base.orig u).1⟩ = some w := by
      rcases d1 with ⟨rfl, ⟨h3, h4⟩ | ⟨h3, h4⟩⟩ | ⟨h0, e, f, h3, h4, h5⟩
      · exact hSA _ _ h3
      · exact absurd rfl (hBe _ _ h3)
      · rw [h5]
        exact hSA _ _ h3
    rw [List.map_append, List.map_singleton]
    unfold sumW at h2 ⊢
    rw [List.map_append, List.sum_append, List.map_singleton, List.sum_singleton, hwt]
    exact le_trans (add_le_add h2 le_rfl) d2

/-- The path in the automata. -/
theorem pathShortest_of {s : SProd T} {x : T} (h : s.pathShortest.2 = (x : WithTop T)) :
    ∃ u, u < s.base.aut.n ∧ s.base.aut.isAcc u = true ∧ s.best u = x ∧ s.pathShortest.1 = s.walk s.base.aut.n u ⟨u, []⟩ := by
  obtain ⟨_, h2⟩ := FP.minElement_spec (es := s.accs)
  unfold pathShortest at h ⊢
  rcases hm : minElement s.accs with _ | ⟨q, y⟩
  · rw [hm] at h
    cases h
  · rw [hm] at h
    dsimp only at h
    obtain rfl := WithTop.coe_injective h
    obtain ⟨h3, _⟩ := h2 _ hm
    obtain ⟨h4, h5, h6⟩ := mem_accs.1 h3
    exact ⟨q, h4, h5, h6.symm, rfl⟩

omit [AddCommMonoid T] [IsOrderedCancelAddMonoid T] in
theorem pathShortest_top {s : SProd T} (h : s.pathShortest.2 = ⊤) : s.pathShortest.1 = APath.null := by
  unfold pathShortest at h ⊢
  rcases hm : minElement s.accs with _ | ⟨q, y⟩
  · rfl
  · rw [hm] at h
    cases h

omit [IsOrderedCancelAddMonoid T] in
/-- The invariant only needs the moves. -/
theorem BInv.mono {dual : Bool} {SA SB SA' SB' : Tr → T → Prop} {D : Nat × Nat → Prop} {s : SProd T} (h : BInv dual SA SB D s)
    (hSA : ∀ t x, SA t x → SA' t x) (hSB : ∀ t x, SB t x → SB' t x) : BInv dual SA' SB' D s := by
  refine ⟨h.edge, ?_, h.anch⟩
  intro u v l hb hu
  obtain ⟨w, h1, h2⟩ := h.move u v l hb hu
  exact ⟨w, h1.mono hSA hSB, h2⟩

omit [IsOrderedCancelAddMonoid T] in
/-- The product before anything has a back edge. -/
theorem BInv.start (dual : Bool) (SA SB : Tr → T → Prop) {D : Nat × Nat → Prop} {b : Product T} {best : Nat → T}
    (h : ∀ u, u < b.aut.n → b.size ≤ u → D (b.orig u)) : BInv dual SA SB D ({ base := b, best := best } : SProd T) := by
  refine ⟨(fun _ _ _ h => by cases h), (fun _ _ _ h => by cases h), ?_⟩
  intro u hu hd
  by_cases hs : u < b.size
  · exact .root hs
  · exact absurd (h u hu (Nat.le_of_not_lt hs)) hd

end Verif.SProd
