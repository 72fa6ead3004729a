import Verif.Proofs.ShortestProductEdges

/-! # The product with weights: the loops -/

namespace Verif.SProd

variable {T : Type} [LinearOrder T] [AddCommMonoid T]

open Product (Mv PInv PExt EdgeOK InRange ann)

/-- The weight of a state: zero for the initial states, whose weight is not stored. -/
def key (s : SProd T) (u : Nat) : T := if u < s.base.size then 0 else s.best u

/-- Paths over the moves `M`, with the sum of the weights. -/
inductive PPath (M : Nat × Nat → Nat → Nat × Nat → T → Prop) (x : Nat × Nat) : T → Nat × Nat → Prop where
  | nil : PPath M x 0 x
  | snoc {a w : T} {y z : Nat × Nat} {g : Nat} : PPath M x a y → M y g z w → PPath M x (a + w) z

/-- Weights that are not negative. -/
def NonNeg (E : Tr → T → Prop) : Prop := ∀ t x, E t x → 0 ≤ x

/-- What holds of the product, the queue and the set of popped states in the loops. -/
structure LInv (dual : Bool) (SA SB : Tr → T → Prop) (A B : Aut T) (s : SSt T) : Prop where
  base : PInv dual A B s.prod.base
  sound : ∀ u, u < s.prod.base.aut.n → ∃ q, q < s.prod.base.size ∧
    PPath (MvR dual SA SB) (q, q) (s.prod.key u) (s.prod.base.orig u)
  fresh : ∀ u, s.prod.base.aut.n ≤ u → s.prod.back u = none
  acc : ∀ u, s.prod.base.size ≤ u → u < s.prod.base.aut.n → s.prod.base.aut.isAcc u = true → (s.prod.back u).isSome
  ent : ∀ e ∈ s.queue, e.2 < s.prod.base.aut.n ∧ s.prod.key e.2 ≤ e.1 ∧
    (s.prod.base.size ≤ e.2 → (s.prod.back e.2).isSome)
  ex : s.done = false → ∀ e ∈ s.queue, e.2 ∉ s.seen → ∃ e' ∈ s.queue, e'.2 = e.2 ∧ e'.1 = s.prod.key e.2
  ord : ∀ u ∈ s.seen, u < s.prod.base.aut.n ∧ (s.prod.base.size ≤ u → (s.prod.back u).isSome) ∧
    ∀ e ∈ s.queue, s.prod.key u ≤ e.1

/-- What an insertion does. -/
structure SExt (s s' : SSt T) : Prop where
  ext : PExt s.prod.base s'.prod.base
  queue : ∀ e ∈ s.queue, e ∈ s'.queue
  seen : s'.seen = s.seen
  keep : ∀ u, u < s.prod.base.aut.n → (s'.prod.key u = s.prod.key u ∧ s'.prod.back u = s.prod.back u) ∨
    ((s'.done = true ∨ ∃ e ∈ s'.queue, e.2 = u) ∧ s.prod.base.size ≤ u ∧ (s'.prod.back u).isSome ∧
      ((s.prod.back u).isSome → s'.prod.key u < s.prod.key u))
  new : ∀ u, s.prod.base.aut.n ≤ u → u < s'.prod.base.aut.n → s'.done = true ∨ ∃ e ∈ s'.queue, e.2 = u
  done : s.done = true → s'.done = true
  frozen : ∀ u ∈ s.seen, s'.prod.key u = s.prod.key u ∧ s'.prod.back u = s.prod.back u

theorem SExt.refl (s : SSt T) : SExt s s :=
  ⟨PExt.refl _, fun _ h => h, rfl, fun _ _ => .inl ⟨rfl, rfl⟩, fun u h1 h2 => absurd h1 (Nat.not_le.2 h2), fun h => h,
    fun _ _ => ⟨rfl, rfl⟩⟩

theorem SExt.trans {s s1 s2 : SSt T} (h : SExt s s1) (h' : SExt s1 s2) : SExt s s2 := by
  refine ⟨h.ext.trans h'.ext, fun e he => h'.queue e (h.queue e he), h'.seen.trans h.seen, ?_, ?_, fun hd => h'.done (h.done hd), ?_⟩
  · intro u hu
    have lift : (s1.done = true ∨ ∃ e ∈ s1.queue, e.2 = u) → (s2.done = true ∨ ∃ e ∈ s2.queue, e.2 = u) := by
      rintro (h1 | ⟨e, h1, h2⟩)
      · exact .inl (h'.done h1)
      · exact .inr ⟨e, h'.queue e h1, h2⟩
    rcases h.keep u hu with ⟨k1, k2⟩ | ⟨k1, k2, k3, k4⟩ <;>
      rcases h'.keep u (Nat.lt_of_lt_of_le hu h.ext.n) with ⟨j1, j2⟩ | ⟨j1, j2, j3, j4⟩
    · exact .inl ⟨j1.trans k1, j2.trans k2⟩
    · exact .inr ⟨j1, by rw [← h.ext.size]; exact j2, j3, fun hb => by rw [← k1]; exact j4 (by rw [k2]; exact hb)⟩
    · exact .inr ⟨lift k1, k2, by rw [j2]; exact k3, fun hb => by rw [j1]; exact k4 hb⟩
    · exact .inr ⟨j1, k2, j3, fun hb => lt_trans (j4 k3) (k4 hb)⟩
  · intro u h1 h2
    by_cases hu : u < s1.prod.base.aut.n
    · rcases h.new u h1 hu with h3 | ⟨e, h3, h4⟩
      · exact .inl (h'.done h3)
      · exact .inr ⟨e, h'.queue e h3, h4⟩
    · exact h'.new u (Nat.le_of_not_lt hu) h2
  · intro u hu
    obtain ⟨k1, k2⟩ := h.frozen u hu
    obtain ⟨j1, j2⟩ := h'.frozen u (by rw [h.seen]; exact hu)
    exact ⟨j1.trans k1, j2.trans k2⟩

/-- A state with a back edge is never made heavier. -/
theorem SExt.le {s s' : SSt T} (h : SExt s s') {u : Nat} (hu : u < s.prod.base.aut.n)
    (hb : s.prod.base.size ≤ u → (s.prod.back u).isSome) :
    s'.prod.key u ≤ s.prod.key u ∧ (s.prod.base.size ≤ u → (s'.prod.back u).isSome) := by
  rcases h.keep u hu with ⟨k1, k2⟩ | ⟨_, k2, k3, k4⟩
  · exact ⟨le_of_eq k1, fun hs => by rw [k2]; exact hb hs⟩
  · exact ⟨le_of_lt (k4 (hb k2)), fun _ => k3⟩

/-- The target of the edge has at most the weight the edge gives it, if its source weighs `k`. -/
def Bounded (s : SProd T) (k : T) (r : PEdge T) : Prop :=
  ∃ v, v < s.base.aut.n ∧ s.base.orig v = (r.fst, r.snd) ∧ (s.base.size ≤ v → (s.back v).isSome) ∧
    ∀ x ∈ r.labels, s.key v ≤ k + x.2.2

theorem Bounded.ext {s s' : SSt T} (h : SExt s s') {k : T} {r : PEdge T} (hb : Bounded s.prod k r) : Bounded s'.prod k r := by
  obtain ⟨v, h1, h2, h3, h4⟩ := hb
  obtain ⟨h5, h6⟩ := h.le h1 h3
  refine ⟨v, Nat.lt_of_lt_of_le h1 h.ext.n, by rw [h.ext.orig v h1]; exact h2, by rw [h.ext.size]; exact h6, ?_⟩
  intro x hx
  exact le_trans h5 (h4 x hx)

theorem backLabel_spec {r : PEdge T} (hne : r.labels ≠ []) :
    ∃ l w, backLabel r = some (l, w) ∧ (∃ tr, (l, tr, w) ∈ r.labels) ∧ ∀ x ∈ r.labels, w ≤ x.2.2 := by
  obtain ⟨h1, h2⟩ := FP.minElement_spec (es := r.labels.map fun x => (x.1, x.2.2))
  unfold backLabel
  rcases hm : minElement (r.labels.map fun x => (x.1, x.2.2)) with _ | ⟨l, w⟩
  · have := h1 hm
    simp at this
    exact absurd this hne
  · obtain ⟨h3, h4⟩ := h2 _ hm
    obtain ⟨x, h5, h6⟩ := List.mem_map.1 h3
    refine ⟨l, w, hm, ⟨x.2.1, ?_⟩, ?_⟩
    · cases h6
      exact h5
    · intro y hy
      exact h4 (y.1, y.2.2) (List.mem_map.2 ⟨y, hy, rfl⟩)

/-- The product after a new back edge of `dst`. -/
def upd (s : SProd T) (p : Product T) (src l dst : Nat) (nw : T) : SProd T where
  base := p
  back := fun q => if q = dst then some (src, l) else s.back q
  best := fun q => if q = dst then nw else s.best q

variable [IsOrderedCancelAddMonoid T]

omit [LinearOrder T] [IsOrderedCancelAddMonoid T] in
theorem PPath.mono {M M' : Nat × Nat → Nat → Nat × Nat → T → Prop} (hM : ∀ x g y w, M x g y w → M' x g y w)
    {x y : Nat × Nat} {a : T} (h : PPath M x a y) : PPath M' x a y := by
  induction h with
  | nil => exact .nil
  | snoc _ h1 ih => exact .snoc ih (hM _ _ _ _ h1)

theorem MvR.nonneg {dual : Bool} {SA SB : Tr → T → Prop} (hA : NonNeg SA) (hB : NonNeg SB) {x y : Nat × Nat} {g : Nat} {w : T}
    (h : MvR dual SA SB x g y w) : 0 ≤ w := by
  rcases h with ⟨rfl, ⟨h3, h4⟩ | ⟨h3, h4⟩⟩ | ⟨h0, a, b, h3, h4, h5⟩
  · exact hA _ _ h3
  · exact hB _ _ h3
  · rw [h5]
    split
    · exact add_nonneg (hA _ _ h3) (hB _ _ h4)
    · exact hA _ _ h3

theorem PPath.nonneg {dual : Bool} {SA SB : Tr → T → Prop} (hA : NonNeg SA) (hB : NonNeg SB) {x y : Nat × Nat} {a : T}
    (h : PPath (MvR dual SA SB) x a y) : 0 ≤ a := by
  induction h with
  | nil => exact le_refl _
  | snoc _ h1 ih => exact add_nonneg ih (h1.nonneg hA hB)

theorem LInv.nonneg {dual : Bool} {SA SB : Tr → T → Prop} {A B : Aut T} {s : SSt T} (h : LInv dual SA SB A B s)
    (hA : NonNeg SA) (hB : NonNeg SB) {u : Nat} (hu : u < s.prod.base.aut.n) : 0 ≤ s.prod.key u := by
  obtain ⟨q, _, h2⟩ := h.sound u hu
  exact h2.nonneg hA hB

/-- The chain of back edges from the state ends in an initial state. -/
inductive Anch (back : Nat → Option (Nat × Nat)) (size : Nat) : Nat → Prop where
  | root {u : Nat} : u < size → Anch back size u
  | step {u v l : Nat} : back u = some (v, l) → Anch back size v → Anch back size u

/-- What holds of the back edges, apart from the states that stand for pairs in `D`: each is a move that leads to the
weight of its target, and the chain from every state ends in an initial state. -/
structure BInv (dual : Bool) (SA SB : Tr → T → Prop) (D : Nat × Nat → Prop) (s : SProd T) : Prop where
  edge : ∀ u v l, s.back u = some (v, l) → s.base.size ≤ u ∧ u < s.base.aut.n ∧ v < s.base.aut.n ∧
    (⟨v, l, u⟩ : Tr) ∈ keys s.base.aut.edges
  move : ∀ u v l, s.back u = some (v, l) → ¬ D (s.base.orig u) →
    ∃ w, MvR dual SA SB (s.base.orig v) l (s.base.orig u) w ∧ s.key v + w ≤ s.key u
  anch : ∀ u, u < s.base.aut.n → ¬ D (s.base.orig u) → Anch s.back s.base.size u

/-- The set of pairs is closed under moves. -/
def Closed (dual : Bool) (SA SB : Tr → T → Prop) (D : Nat × Nat → Prop) : Prop :=
  ∀ x g y w, MvR dual SA SB x g y w → D x → D y

/-- The step keeps `BInv`. -/
def BKeep (dual : Bool) (SA SB : Tr → T → Prop) (s s' : SProd T) : Prop :=
  ∀ D, Closed dual SA SB D → BInv dual SA SB D s → BInv dual SA SB D s'

omit [IsOrderedCancelAddMonoid T] in
theorem BKeep.refl (dual : Bool) (SA SB : Tr → T → Prop) (s : SProd T) : BKeep dual SA SB s s := fun _ _ h => h

omit [IsOrderedCancelAddMonoid T] in
theorem BKeep.trans {dual : Bool} {SA SB : Tr → T → Prop} {s s' s'' : SProd T} (h : BKeep dual SA SB s s')
    (h' : BKeep dual SA SB s' s'') : BKeep dual SA SB s s'' := fun D hD hs => h' D hD (h D hD hs)

theorem Anch.some {back : Nat → Option (Nat × Nat)} {size u : Nat} (h : Anch back size u) (hu : size ≤ u) : (back u).isSome := by
  cases h with
  | root h => omega
  | step h _ => rw [h]; rfl

/-- One edge is added. -/
theorem insert_spec {dual et : Bool} {SA SB : Tr → T → Prop} {A B : Aut T} {k : WithTop T} {s : SSt T}
    (h : LInv dual SA SB A B s) (hA : NonNeg SA) (hB : NonNeg SB) (hSA : ∀ t x, A.wt t = some x → SA t x)
    (hSB : ∀ t x, B.wt t = some x → SB t x) (hd : s.done = false) {r : PEdge T} (hr : WEdgeOK dual A B s.prod.base r)
    (hcase : (∀ u ∈ s.seen, s.prod.key u ≤ s.prod.key r.top) ∨ Bounded s.prod (s.prod.key r.top) r) :
    let s' := insert dual et A B k s r
    LInv dual SA SB A B s' ∧ SExt s s' ∧ Bounded s'.prod (s.prod.key r.top) r ∧
      (s'.done = true → s'.prod.stop k = true) ∧ s'.queue.length ≤ s.queue.length + 1 ∧
      (Bounded s.prod (s.prod.key r.top) r → s'.queue = s.queue) ∧ BKeep dual SA SB s.prod s'.prod := by
  intro s'
  obtain ⟨l, w, hl1, ⟨tr, hl2⟩, hl3⟩ := backLabel_spec hr.ne
  obtain ⟨g1, g2, g3, g4, g5, g6⟩ := Product.getState_spec h.base r.fst r.snd
  obtain ⟨b1, b2, _, _, _, _, _⟩ := Product.insert_spec (et := false) (s := { prod := s.prod.base, waiting := [] }) h.base rfl
    hr.top hr.ne hr.ok.mv hr.fst hr.snd
  obtain ⟨l1, l2, l3⟩ := Product.addLabels_spec (Product.getState dual A B s.prod.base r.fst r.snd).1.aut r.top
    (Product.getState dual A B s.prod.base r.fst r.snd).2.2 r.labels
  have hs' : s' = insert dual et A B k s r := rfl
  unfold insert at hs'
  simp only [hd, Bool.false_eq_true, if_false, hl1] at hs'
  unfold Product.insert at b1 b2
  simp only [Bool.false_eq_true, if_false, Bool.false_and] at b1 b2
  generalize Product.getState dual A B s.prod.base r.fst r.snd = G at hs' g1 g2 g3 g4 g5 g6 b1 b2 l1 l2 l3
  obtain ⟨p1, fresh, id⟩ := G
  dsimp only at hs' g1 g2 g3 g4 g5 g6 b1 b2 l1 l2 l3
  have hn2 : (Product.addLabels p1.aut r.top id r.labels).n = p1.aut.n := by simp [Aut.n, l2]
  have hacc2 : ∀ u, (Product.addLabels p1.aut r.top id r.labels).isAcc u = p1.aut.isAcc u := fun u => Aut.isAcc_congr l2 u
  generalize hp2 : ({ p1 with aut := Product.addLabels p1.aut r.top id r.labels } : Product T) = p2 at hs' b1 b2
  have e1 : p2.size = s.prod.base.size := by rw [← hp2]; exact g1
  have e2 : p2.aut.n = p1.aut.n := by rw [← hp2]; exact hn2
  have e3 : id < p2.aut.n := by rw [e2]; exact g3
  have e4 : p2.orig id = (r.fst, r.snd) := by rw [← hp2]; exact g4
  have e5 : ∀ u, u < s.prod.base.aut.n → p2.orig u = s.prod.base.orig u := b2.orig
  have eacc : ∀ u, u < s.prod.base.aut.n → p2.aut.isAcc u = s.prod.base.aut.isAcc u := by
    intro u hu
    rw [← hp2]
    show (Product.addLabels p1.aut r.top id r.labels).isAcc u = _
    rw [hacc2]
    rcases g6 with ⟨_, h1⟩ | ⟨_, _, _, _, _, _, h7, _⟩
    · rw [h1]
    · exact h7 u hu
  have enew : ∀ u, s.prod.base.aut.n ≤ u → u < p2.aut.n → u = id := by
    intro u h1 h2
    rw [e2] at h2
    rcases g6 with ⟨_, h3⟩ | ⟨_, h3, h4, _⟩
    · rw [h3] at h2; omega
    · omega
  have etop : ∀ b : Nat → T, (if r.top < s.prod.base.size then w else s.prod.best r.top + w) = s.prod.key r.top + w := by
    intro _
    unfold key
    split
    · exact (zero_add w).symm
    · rfl
  have hmv : MvR dual SA SB (s.prod.base.orig r.top) l (r.fst, r.snd) w := (hr.mv _ hl2).mono hSA hSB
  have hw0 : 0 ≤ w := hmv.nonneg hA hB
  have hk0 := h.nonneg hA hB hr.top
  -- the target does not change
  have hsame : (id < s.prod.base.size ∨ (¬ ((s.prod.back id).isNone = true) ∧ ¬ s.prod.key r.top + w < s.prod.best id)) →
      makeBack { s.prod with base := p2 } r.top l id w = ({ s.prod with base := p2 }, none) := by
    intro hc
    unfold makeBack
    dsimp only
    rw [e1]
    by_cases h1 : id < s.prod.base.size
    · rw [if_pos h1]
    · rw [if_neg h1, if_neg]
      rcases hc with hc | ⟨h2, h3⟩
      · exact absurd hc h1
      · rw [etop s.prod.best]
        intro hcon
        rw [Bool.or_eq_true, decide_eq_true_eq] at hcon
        exact hcon.elim h2 h3
  have hchg : ¬ (id < s.prod.base.size ∨ (¬ ((s.prod.back id).isNone = true) ∧ ¬ s.prod.key r.top + w < s.prod.best id)) →
      makeBack { s.prod with base := p2 } r.top l id w = (upd s.prod p2 r.top l id (s.prod.key r.top + w), some (s.prod.key r.top + w)) := by
    intro hc
    unfold makeBack
    dsimp only
    rw [e1, etop s.prod.best]
    rw [if_neg (fun h1 => hc (.inl h1)), if_pos]
    · rfl
    by_contra h2
    refine hc (.inr ?_)
    rw [Bool.or_eq_true, decide_eq_true_eq, not_or] at h2
    exact h2
  have hbd0 : Bounded s.prod (s.prod.key r.top) r →
      id < s.prod.base.size ∨ (¬ ((s.prod.back id).isNone = true) ∧ ¬ s.prod.key r.top + w < s.prod.best id) := by
    rintro ⟨v, v1, v2, v3, v4⟩
    have hv : v = id := b1.inj (Nat.lt_of_lt_of_le v1 b2.n) e3 (by rw [e4, e5 v v1, v2])
    subst hv
    by_cases h1 : v < s.prod.base.size
    · exact .inl h1
    · refine .inr ⟨?_, ?_⟩
      · have := v3 (Nat.le_of_not_lt h1)
        rw [Option.isSome_iff_ne_none] at this
        simpa using this
      · have := v4 _ hl2
        unfold key at this
        rw [if_neg h1] at this
        exact not_lt.2 this
  by_cases hc : id < s.prod.base.size ∨ (¬ ((s.prod.back id).isNone = true) ∧ ¬ s.prod.key r.top + w < s.prod.best id)
  · -- nothing changes
    rw [hsame hc] at hs'
    dsimp only at hs'
    have hprod : s'.prod = { s.prod with base := p2 } := by rw [hs']; split <;> rfl
    have hseen : s'.seen = s.seen := by rw [hs']; split <;> rfl
    have hqueue : s'.queue = s.queue := by rw [hs']; split <;> rfl
    have hkey : ∀ u, s'.prod.key u = s.prod.key u := by
      intro u
      rw [hprod]
      unfold key
      dsimp only
      rw [e1]
    have hback : s'.prod.back = s.prod.back := by rw [hprod]
    have hbase : s'.prod.base = p2 := by rw [hprod]
    have hid : id < s.prod.base.aut.n := by
      by_contra hcon
      rcases hc with h1 | ⟨h1, _⟩
      · have := h.base.n
        omega
      · rw [h.fresh id (Nat.le_of_not_lt hcon)] at h1
        simp at h1
    have hidlt : ∀ u, u < p2.aut.n → u < s.prod.base.aut.n := by
      intro u hu
      by_contra hcon
      have := enew u (Nat.le_of_not_lt hcon) hu
      omega
    refine ⟨⟨?_, ?_, ?_, ?_, ?_, ?_, ?_⟩, ⟨?_, ?_, hseen, ?_, ?_, ?_, ?_⟩, ?_, ?_, ?_, fun _ => hqueue, ?_⟩
    · rw [hbase]; exact b1
    · intro u hu
      rw [hbase] at hu ⊢
      obtain ⟨q, q1, q2⟩ := h.sound u (hidlt u hu)
      exact ⟨q, by rw [e1]; exact q1, by rw [hkey, e5 u (hidlt u hu)]; exact q2⟩
    · intro u hu
      rw [hback]
      rw [hbase] at hu
      exact h.fresh u (Nat.le_trans b2.n hu)
    · intro u h1 h2 h3
      rw [hbase] at h1 h2 h3
      rw [hback]
      rw [e1] at h1
      have := hidlt u h2
      rw [eacc u this] at h3
      exact h.acc u h1 this h3
    · intro e he
      rw [hqueue] at he
      obtain ⟨q1, q2, q3⟩ := h.ent e he
      rw [hkey, hback, hbase, e1]
      exact ⟨Nat.lt_of_lt_of_le q1 b2.n, q2, q3⟩
    · intro _ e he hs
      rw [hqueue] at he ⊢
      rw [hseen] at hs
      rw [hkey]
      exact h.ex hd e he hs
    · intro u hu
      rw [hseen] at hu
      obtain ⟨q1, q2, q3⟩ := h.ord u hu
      rw [hkey, hback, hbase, e1, hqueue]
      exact ⟨Nat.lt_of_lt_of_le q1 b2.n, q2, q3⟩
    · rw [hbase]; exact b2
    · intro e he; rw [hqueue]; exact he
    · intro u _
      exact .inl ⟨hkey u, by rw [hback]⟩
    · intro u h1 h2
      rw [hbase] at h2
      exact absurd (hidlt u h2) (Nat.not_lt.2 h1)
    · intro h1; rw [hd] at h1; simp at h1
    · intro u _
      exact ⟨hkey u, by rw [hback]⟩
    · refine ⟨id, by rw [hbase]; exact e3, by rw [hbase]; exact e4, ?_, ?_⟩
      · intro h1
        rw [hbase, e1] at h1
        rw [hback]
        rcases hc with h2 | ⟨h2, _⟩
        · omega
        · simpa [Option.isSome_iff_ne_none] using h2
      · intro x hx
        rw [hkey]
        have hwx : s.prod.key r.top + w ≤ s.prod.key r.top + x.2.2 := add_le_add le_rfl (hl3 x hx)
        refine le_trans ?_ hwx
        rcases hc with h2 | ⟨_, h2⟩
        · have : s.prod.key id = 0 := by unfold key; rw [if_pos h2]
          rw [this]
          exact add_nonneg hk0 hw0
        · by_cases h3 : id < s.prod.base.size
          · have : s.prod.key id = 0 := by unfold key; rw [if_pos h3]
            rw [this]
            exact add_nonneg hk0 hw0
          · have : s.prod.key id = s.prod.best id := by unfold key; rw [if_neg h3]
            rw [this]
            exact not_lt.1 h2
    · intro hdone
      rw [hs'] at hdone ⊢
      split at hdone
      · rename_i hst
        rw [if_pos hst]
        rw [Bool.and_eq_true] at hst
        exact hst.2
      · simp at hdone
    · rw [hqueue]; exact Nat.le_succ _
    · intro D hD hB
      refine ⟨?_, ?_, ?_⟩
      · intro u v m hb
        rw [hback] at hb
        obtain ⟨c1, c2, c3, c4⟩ := hB.edge u v m hb
        rw [hbase, e1]
        exact ⟨c1, Nat.lt_of_lt_of_le c2 b2.n, Nat.lt_of_lt_of_le c3 b2.n, b2.keys _ c4⟩
      · intro u v m hb hu
        rw [hback] at hb
        obtain ⟨c1, c2, c3, c4⟩ := hB.edge u v m hb
        rw [hbase, e5 u c2] at hu
        rw [hbase, e5 u c2, e5 v c3, hkey, hkey]
        exact hB.move u v m hb hu
      · intro u hu hd
        rw [hbase] at hu
        rw [hbase, e5 u (hidlt u hu)] at hd
        rw [hback, hbase, e1]
        exact hB.anch u (hidlt u hu) hd
  · -- the target gets a new back edge
    rw [hchg hc] at hs'
    dsimp only at hs'
    have hsz : s.prod.base.size ≤ id := by
      by_contra h1
      exact hc (.inl (Nat.lt_of_not_le h1))
    have hnb : (s.prod.back id).isSome → s.prod.key r.top + w < s.prod.key id := by
      intro h1
      have : s.prod.key id = s.prod.best id := by unfold key; rw [if_neg (Nat.not_lt.2 hsz)]
      rw [this]
      by_contra h2
      refine hc (.inr ⟨?_, h2⟩)
      cases hb : s.prod.back id with
      | none => rw [hb] at h1; simp at h1
      | some v => simp
    have hord : ∀ u ∈ s.seen, s.prod.key u ≤ s.prod.key r.top := by
      rcases hcase with h1 | h1
      · exact h1
      · exact absurd (hbd0 h1) hc
    have hnots : id ∉ s.seen := by
      intro h1
      obtain ⟨_, q2, _⟩ := h.ord id h1
      have h2 := hnb (q2 hsz)
      have h3 := hord id h1
      exact absurd (lt_of_lt_of_le h2 h3) (not_lt.2 (le_add_of_nonneg_right hw0))
    generalize hm : upd s.prod p2 r.top l id (s.prod.key r.top + w) = m at hs'
    have hprod : s'.prod = m := by rw [hs']; split <;> rfl
    have hseen : s'.seen = s.seen := by rw [hs']; split <;> rfl
    have hbase : s'.prod.base = p2 := by rw [hprod, ← hm]; rfl
    have hq : (s'.done = true ∧ s'.queue = s.queue) ∨ s'.queue = s.queue ++ [(s.prod.key r.top + w, id)] := by
      rw [hs']
      split
      · exact .inl ⟨rfl, rfl⟩
      · exact .inr rfl
    have hqm : ∀ e ∈ s'.queue, e ∈ s.queue ∨ e = (s.prod.key r.top + w, id) := by
      intro e he
      rcases hq with ⟨_, h1⟩ | h1
      · rw [h1] at he; exact .inl he
      · rw [h1, List.mem_append, List.mem_singleton] at he
        exact he
    have hqs : ∀ e ∈ s.queue, e ∈ s'.queue := by
      intro e he
      rcases hq with ⟨_, h1⟩ | h1
      · rw [h1]; exact he
      · rw [h1]; exact List.mem_append_left _ he
    have hkey : ∀ u, s'.prod.key u = if u = id then s.prod.key r.top + w else s.prod.key u := by
      intro u
      rw [hprod, ← hm]
      unfold key upd
      dsimp only
      rw [e1]
      by_cases hu : u = id
      · subst hu
        rw [if_neg (Nat.not_lt.2 hsz), if_pos rfl, if_pos rfl]
      · rw [if_neg hu, if_neg hu]
    have hback : ∀ u, s'.prod.back u = if u = id then some (r.top, l) else s.prod.back u := by
      intro u; rw [hprod, ← hm]; rfl
    have hold : ∀ u, u < p2.aut.n → u ≠ id → u < s.prod.base.aut.n := by
      intro u hu hne
      by_contra hcon
      exact hne (enew u (Nat.le_of_not_lt hcon) hu)
    refine ⟨⟨?_, ?_, ?_, ?_, ?_, ?_, ?_⟩, ⟨?_, hqs, hseen, ?_, ?_, ?_, ?_⟩, ?_, ?_, ?_, ?_, ?_⟩
    · rw [hbase]; exact b1
    · intro u hu
      rw [hbase] at hu ⊢
      rw [hkey, e1]
      by_cases hui : u = id
      · subst hui
        rw [if_pos rfl, e4]
        obtain ⟨q, q1, q2⟩ := h.sound r.top hr.top
        exact ⟨q, q1, .snoc q2 hmv⟩
      · rw [if_neg hui, e5 u (hold u hu hui)]
        exact h.sound u (hold u hu hui)
    · intro u hu
      rw [hbase] at hu
      rw [hback, if_neg (by rintro rfl; omega)]
      exact h.fresh u (Nat.le_trans b2.n hu)
    · intro u h1 h2 h3
      rw [hback]
      split
      · rfl
      · rename_i hne
        rw [hbase] at h1 h2 h3
        rw [e1] at h1
        rw [eacc u (hold u h2 hne)] at h3
        exact h.acc u h1 (hold u h2 hne) h3
    · intro e he
      rw [hkey, hback, hbase, e1]
      rcases hqm e he with h1 | rfl
      · obtain ⟨q1, q2, q3⟩ := h.ent e h1
        refine ⟨Nat.lt_of_lt_of_le q1 b2.n, ?_, ?_⟩
        · split
          · rename_i hid
            have : s.prod.key r.top + w < s.prod.key e.2 := by rw [hid]; exact hnb (by rw [← hid]; exact q3 (by rw [hid]; exact hsz))
            exact le_trans (le_of_lt this) q2
          · exact q2
        · intro h2
          split
          · rfl
          · exact q3 h2
      · refine ⟨e3, ?_, ?_⟩
        · rw [if_pos rfl]
        · intro _; rw [if_pos rfl]; rfl
    · intro hnd e he hs
      rw [hseen] at hs
      rcases hq with ⟨h1, h1q⟩ | h1
      · rw [hnd] at h1; simp at h1
      · by_cases hid : e.2 = id
        · refine ⟨(s.prod.key r.top + w, id), by rw [h1]; simp, hid.symm, ?_⟩
          rw [hkey, if_pos hid]
        · rcases hqm e he with h2 | rfl
          · obtain ⟨e', q1, q2, q3⟩ := h.ex hd e h2 hs
            exact ⟨e', hqs e' q1, q2, by rw [hkey, if_neg hid]; exact q3⟩
          · exact absurd rfl hid
    · intro u hu
      rw [hseen] at hu
      have hne : u ≠ id := by rintro rfl; exact hnots hu
      obtain ⟨q1, q2, q3⟩ := h.ord u hu
      rw [hkey, hback, if_neg hne, if_neg hne, hbase, e1]
      refine ⟨Nat.lt_of_lt_of_le q1 b2.n, q2, ?_⟩
      intro e he
      rcases hqm e he with h1 | rfl
      · exact q3 e h1
      · exact le_trans (hord u hu) (le_add_of_nonneg_right hw0)
    · rw [hbase]; exact b2
    · intro u hu
      by_cases hne : u = id
      · subst hne
        refine .inr ⟨?_, hsz, by rw [hback, if_pos rfl]; rfl, fun hb => by rw [hkey, if_pos rfl]; exact hnb hb⟩
        rcases hq with ⟨h1, _⟩ | h1
        · exact .inl h1
        · exact .inr ⟨_, by rw [h1]; exact List.mem_append_right _ (List.mem_singleton.2 rfl), rfl⟩
      · exact .inl ⟨by rw [hkey, if_neg hne], by rw [hback, if_neg hne]⟩
    · intro u h1 h2
      rw [hbase] at h2
      have := enew u h1 h2
      subst this
      rcases hq with ⟨h1, _⟩ | h1
      · exact .inl h1
      · exact .inr ⟨_, by rw [h1]; exact List.mem_append_right _ (List.mem_singleton.2 rfl), rfl⟩
    · intro h1; rw [hd] at h1; simp at h1
    · intro u hu
      have hne : u ≠ id := by rintro rfl; exact hnots hu
      exact ⟨by rw [hkey, if_neg hne], by rw [hback, if_neg hne]⟩
    · refine ⟨id, by rw [hbase]; exact e3, by rw [hbase]; exact e4, fun _ => by rw [hback, if_pos rfl]; rfl, ?_⟩
      intro x hx
      rw [hkey, if_pos rfl]
      exact add_le_add le_rfl (hl3 x hx)
    · intro hdone
      rw [hs'] at hdone ⊢
      split at hdone
      · rename_i hst
        rw [if_pos hst]
        rw [Bool.and_eq_true] at hst
        exact hst.2
      · simp at hdone
    · rcases hq with ⟨_, h1⟩ | h1
      · rw [h1]; exact Nat.le_succ _
      · rw [h1]; simp
    · intro h1
      exact absurd (hbd0 h1) hc
    · intro D hD hI
      have hle : s.prod.key r.top ≤ s.prod.key r.top + w := le_add_of_nonneg_right hw0
      have hidD : id < s.prod.base.aut.n → p2.orig id = s.prod.base.orig id := fun h1 => e5 id h1
      have htopD : ¬ D (p2.orig id) → ¬ D (s.prod.base.orig r.top) := by
        intro h1 h2
        rw [e4] at h1
        exact h1 (hD _ _ _ _ hmv h2)
      -- the keys along a chain
      have hchain : ∀ u, Anch s.prod.back s.prod.base.size u → u < s.prod.base.aut.n → ¬ D (s.prod.base.orig u) →
          s.prod.key u ≤ s.prod.key r.top → Anch s'.prod.back s.prod.base.size u := by
        intro u hu
        induction hu with
        | root h1 => intro _ _ _; exact .root h1
        | @step u v m h1 _ ih =>
          intro h2 h3 h4
          obtain ⟨_, _, c3, _⟩ := hI.edge u v m h1
          obtain ⟨w', d1, d2⟩ := hI.move u v m h1 h3
          have hv : s.prod.key v ≤ s.prod.key u := le_trans (le_add_of_nonneg_right (d1.nonneg hA hB)) d2
          have hne : u ≠ id := by
            intro hui
            have := hnb (by rw [← hui, h1]; rfl)
            rw [← hui] at this
            exact absurd (lt_of_lt_of_le this h4) (not_lt.2 hle)
          refine .step (v := v) (l := m) (by rw [hback, if_neg hne]; exact h1) (ih c3 ?_ (le_trans hv h4))
          exact fun h5 => h3 (hD _ _ _ _ d1 h5)
      have hanch : ¬ D (p2.orig id) → Anch s'.prod.back s.prod.base.size id := by
        intro h1
        refine .step (v := r.top) (l := l) (by rw [hback, if_pos rfl]) ?_
        exact hchain r.top (hI.anch _ hr.top (htopD h1)) hr.top (htopD h1) (le_refl _)
      have hidkey : id < s.prod.base.aut.n → ¬ D (s.prod.base.orig id) → s.prod.key r.top + w < s.prod.key id := by
        intro h1 h2
        exact hnb ((hI.anch id h1 h2).some hsz)
      refine ⟨?_, ?_, ?_⟩
      · intro u v m hb
        rw [hback] at hb
        rw [hbase, e1]
        split at hb
        · rename_i hui
          subst hui
          cases hb
          refine ⟨hsz, e3, Nat.lt_of_lt_of_le hr.top b2.n, ?_⟩
          rw [← hp2]
          refine (l1 _).2 (.inr ⟨rfl, rfl, ?_⟩)
          exact List.mem_map.2 ⟨_, hl2, rfl⟩
        · obtain ⟨c1, c2, c3, c4⟩ := hI.edge u v m hb
          exact ⟨c1, Nat.lt_of_lt_of_le c2 b2.n, Nat.lt_of_lt_of_le c3 b2.n, b2.keys _ c4⟩
      · intro u v m hb hu
        rw [hback] at hb
        rw [hbase] at hu ⊢
        split at hb
        · rename_i hui
          subst hui
          cases hb
          have hne : r.top ≠ u := by
            intro h1
            have h2 := hidkey (by rw [← h1]; exact hr.top) (by rw [← h1]; exact htopD hu)
            rw [← h1] at h2
            exact absurd h2 (not_lt.2 hle)
          rw [e4, e5 _ hr.top, hkey, hkey, if_neg hne, if_pos rfl]
          exact ⟨w, hmv, le_refl _⟩
        · rename_i hui
          obtain ⟨c1, c2, c3, c4⟩ := hI.edge u v m hb
          rw [e5 u c2] at hu
          obtain ⟨w', d1, d2⟩ := hI.move u v m hb hu
          rw [e5 u c2, e5 v c3, hkey, hkey, if_neg hui]
          refine ⟨w', d1, ?_⟩
          split
          · rename_i hvi
            subst hvi
            exact le_trans (add_le_add (le_of_lt (hidkey c3 fun h5 => hu (hD _ _ _ _ d1 h5))) le_rfl) d2
          · exact d2
      · intro u hu hd
        rw [hbase] at hu hd
        rw [hbase, e1]
        by_cases hui : u = id
        · subst hui
          exact hanch hd
        · have hun := hold u hu hui
          rw [e5 u hun] at hd
          have hall : ∀ u, Anch s.prod.back s.prod.base.size u → u < s.prod.base.aut.n → ¬ D (s.prod.base.orig u) →
              Anch s'.prod.back s.prod.base.size u := by
            intro u hu
            induction hu with
            | root h1 => intro _ _; exact .root h1
            | @step u v m h1 _ ih =>
              intro h2 h3
              obtain ⟨_, _, c3, _⟩ := hI.edge u v m h1
              obtain ⟨w', d1, d2⟩ := hI.move u v m h1 h3
              by_cases hui : u = id
              · subst hui
                exact hanch (by rw [hidD h2]; exact h3)
              · exact .step (v := v) (l := m) (by rw [hback, if_neg hui]; exact h1) (ih c3 fun h5 => h3 (hD _ _ _ _ d1 h5))
          exact hall u (hI.anch u hun hd) hun hd

end Verif.SProd
