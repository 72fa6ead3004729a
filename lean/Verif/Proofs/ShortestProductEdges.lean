import Verif.Model.ShortestProduct
import Verif.Proofs.Product
import Verif.Proofs.ShortestPostFinal
import Verif.Proofs.ShortestFind

/-! # The product with weights: moves and the edges that are added -/

namespace Verif.SProd

variable {T : Type} [LinearOrder T] [AddCommMonoid T]

open Product (Mv PInv PExt EdgeOK InRange ann)

/-- The moves of the product with their weights; `EA t x`: the first automaton has the transition `t` with weight `x`. -/
def MvR (dual : Bool) (EA EB : Tr → T → Prop) (x : Nat × Nat) (g : Nat) (y : Nat × Nat) (w : T) : Prop :=
  (g = epsilon ∧ ((EA ⟨x.1, epsilon, y.1⟩ w ∧ y.2 = x.2) ∨ (EB ⟨x.2, epsilon, y.2⟩ w ∧ y.1 = x.1))) ∨
  (g ≠ epsilon ∧ ∃ a b, EA ⟨x.1, g, y.1⟩ a ∧ EB ⟨x.2, g, y.2⟩ b ∧ w = if dual then a + b else a)

/-- The transitions of an automaton with their weights. -/
def WtOf (A : Aut T) : Tr → T → Prop := fun t x => A.wt t = some x

omit [LinearOrder T] in
theorem MvR.mono {dual : Bool} {EA EB EA' EB' : Tr → T → Prop} (hA : ∀ t x, EA t x → EA' t x) (hB : ∀ t x, EB t x → EB' t x)
    {x y : Nat × Nat} {g : Nat} {w : T} (h : MvR dual EA EB x g y w) : MvR dual EA' EB' x g y w := by
  rcases h with ⟨rfl, ⟨h3, h4⟩ | ⟨h3, h4⟩⟩ | ⟨h0, a, b, h3, h4, h5⟩
  · exact .inl ⟨rfl, .inl ⟨hA _ _ h3, h4⟩⟩
  · exact .inl ⟨rfl, .inr ⟨hB _ _ h3, h4⟩⟩
  · exact .inr ⟨h0, a, b, hA _ _ h3, hB _ _ h4, h5⟩

omit [LinearOrder T] [AddCommMonoid T] in
theorem mem_of_wt {A : Aut T} {t : Tr} {x : T} (h : A.wt t = some x) : t ∈ keys A.edges := by
  by_contra hc
  rw [← Aut.wt_none_iff] at hc
  rw [hc] at h
  cases h

omit [LinearOrder T] in
theorem wt_ann {A : Aut T} {t : Tr} (h : t ∈ keys A.edges) : A.wt t = some (ann A t).2 := by
  unfold Aut.wt Product.ann
  rcases hg : A.getEdge t with _ | v
  · exact absurd h ((getEdge_none_iff A t).1 hg)
  · rfl

omit [LinearOrder T] in
theorem ann_of_wt {A : Aut T} {t : Tr} {x : T} (h : A.wt t = some x) : (ann A t).2 = x := by
  have := wt_ann (mem_of_wt h)
  rw [h] at this
  exact (Option.some.inj this).symm

omit [LinearOrder T] in
theorem MvR.mv {dual : Bool} {A B : Aut T} {x y : Nat × Nat} {g : Nat} {w : T}
    (h : MvR dual (WtOf A) (WtOf B) x g y w) : Mv A B x g y := by
  rcases h with ⟨rfl, ⟨h3, h4⟩ | ⟨h3, h4⟩⟩ | ⟨h0, a, b, h3, h4, h5⟩
  · exact .inl ⟨rfl, .inl ⟨mem_of_wt h3, h4⟩⟩
  · exact .inl ⟨rfl, .inr ⟨mem_of_wt h3, h4⟩⟩
  · exact .inr ⟨h0, mem_of_wt h3, mem_of_wt h4⟩

/-- Edges with weights that may be added to the product. -/
structure WEdgeOK (dual : Bool) (A B : Aut T) (s : Product T) (r : PEdge T) : Prop where
  top : r.top < s.aut.n
  ne : r.labels ≠ []
  mv : ∀ x ∈ r.labels, MvR dual (WtOf A) (WtOf B) (s.orig r.top) x.1 (r.fst, r.snd) x.2.2
  fst : r.fst < A.n
  snd : r.snd < B.n

omit [LinearOrder T] in
theorem WEdgeOK.ok {dual : Bool} {A B : Aut T} {s : Product T} {r : PEdge T} (h : WEdgeOK dual A B s r) : EdgeOK A B s r :=
  ⟨h.top, h.ne, fun x hx => (h.mv x hx).mv, h.fst, h.snd⟩

omit [LinearOrder T] in
theorem WEdgeOK.ext {dual : Bool} {A B : Aut T} {s s' : Product T} (h : PExt s s') {r : PEdge T} (hr : WEdgeOK dual A B s r) :
    WEdgeOK dual A B s' r :=
  ⟨Nat.lt_of_lt_of_le hr.top h.n, hr.ne, by rw [h.orig _ hr.top]; exact hr.mv, hr.fst, hr.snd⟩

omit [LinearOrder T] in
theorem mem_edgesFrom {h : HashOrder} {dual : Bool} {A B : Aut T} {s : Product T} {top : Nat} {r : PEdge T} :
    r ∈ edgesFrom h dual A B s top → r.top = top ∧ r.labels ≠ [] ∧
      ∀ x ∈ r.labels, MvR dual (WtOf A) (WtOf B) (s.orig top) x.1 (r.fst, r.snd) x.2.2 := by
  intro hr
  unfold edgesFrom Product.epsEdges at hr
  rw [List.mem_append, List.mem_append] at hr
  rcases hr with (hr | hr) | hr
  · obtain ⟨u, h1, rfl⟩ := List.mem_map.1 hr
    rw [List.mem_filter] at h1
    refine ⟨rfl, by simp, fun x hx => ?_⟩
    rw [List.mem_singleton] at hx
    subst hx
    exact .inl ⟨rfl, .inl ⟨wt_ann ((Aut.hasEdge_iff _ _).1 h1.2), rfl⟩⟩
  · obtain ⟨u, h1, rfl⟩ := List.mem_map.1 hr
    rw [List.mem_filter] at h1
    refine ⟨rfl, by simp, fun x hx => ?_⟩
    rw [List.mem_singleton] at hx
    subst hx
    exact .inl ⟨rfl, .inr ⟨wt_ann ((Aut.hasEdge_iff _ _).1 h1.2), rfl⟩⟩
  · rw [List.mem_flatMap] at hr
    obtain ⟨iTo, _, hr⟩ := hr
    rw [List.mem_flatMap] at hr
    obtain ⟨fTo, _, hr⟩ := hr
    unfold jointEdge at hr
    obtain ⟨r0, hr0, rfl⟩ := List.mem_map.1 hr
    unfold Product.jointEdge at hr0
    obtain ⟨c1, c2⟩ := Product.mem_common A B (s.orig top).1 iTo (s.orig top).2 fTo
    dsimp only at hr0
    have ht := Product.common_test c1
    generalize (if (Product.common A B (s.orig top).1 iTo (s.orig top).2 fTo).getLast? = some epsilon then 1 else 0) = m at hr0 ht
    split at hr0
    · rename_i hc
      rw [List.mem_singleton] at hr0
      subst hr0
      obtain ⟨g, h1, h2⟩ := ht.1 hc
      have hne : ((Product.common A B (s.orig top).1 iTo (s.orig top).2 fTo).filter fun l => l != epsilon) ≠ [] := by
        apply List.ne_nil_of_mem (a := g)
        exact List.mem_filter.2 ⟨h1, by simpa using h2⟩
      have hlab : ∀ l ∈ ((Product.common A B (s.orig top).1 iTo (s.orig top).2 fTo).filter fun l => l != epsilon),
          l ≠ epsilon ∧ A.wt ⟨(s.orig top).1, l, iTo⟩ = some (ann A ⟨(s.orig top).1, l, iTo⟩).2 ∧
          B.wt ⟨(s.orig top).2, l, fTo⟩ = some (ann B ⟨(s.orig top).2, l, fTo⟩).2 := by
        intro l hl
        rw [List.mem_filter] at hl
        obtain ⟨q1, q2⟩ := (c2 l).1 hl.1
        exact ⟨by simpa using hl.2, wt_ann q1, wt_ann q2⟩
      generalize ((Product.common A B (s.orig top).1 iTo (s.orig top).2 fTo).filter fun l => l != epsilon) = ls at *
      cases dual with
      | true =>
        refine ⟨rfl, by simpa using hne, ?_⟩
        intro x hx
        rw [if_pos rfl] at hx
        obtain ⟨x0, h3, rfl⟩ := List.mem_map.1 hx
        obtain ⟨l, h4, rfl⟩ := List.mem_map.1 h3
        obtain ⟨q0, q1, q2⟩ := hlab l h4
        exact .inr ⟨q0, _, _, q1, q2, rfl⟩
      | false =>
        refine ⟨rfl, by simpa using hne, ?_⟩
        intro x hx
        rw [if_neg (by simp)] at hx
        obtain ⟨l, h4, rfl⟩ := List.mem_map.1 hx
        obtain ⟨q0, q1, q2⟩ := hlab l h4
        exact .inr ⟨q0, _, _, q1, q2, rfl⟩
    · simp at hr0

omit [LinearOrder T] in
theorem edgesFrom_complete (h : HashOrder) {dual : Bool} {A B : Aut T} {s : Product T} {top g : Nat} {y : Nat × Nat} {w : T}
    (hm : MvR dual (WtOf A) (WtOf B) (s.orig top) g y w) :
    ∃ r ∈ edgesFrom h dual A B s top, (r.fst, r.snd) = y ∧ ∃ x ∈ r.labels, x.1 = g ∧ x.2.2 = w := by
  unfold edgesFrom Product.epsEdges
  simp only [List.mem_append]
  rcases hm with ⟨rfl, ⟨h1, h2⟩ | ⟨h1, h2⟩⟩ | ⟨h1, a, b, h2, h3, h4⟩
  · refine ⟨⟨top, y.1, (s.orig top).2, [(epsilon, ann A ⟨(s.orig top).1, epsilon, y.1⟩)]⟩,
      .inl (.inl (List.mem_map.2 ⟨y.1, List.mem_filter.2 ⟨(Aut.mem_outTos _ _ _ _).2 ⟨_, mem_of_wt h1⟩, (Aut.hasEdge_iff _ _).2 (mem_of_wt h1)⟩, rfl⟩)), ?_, ?_⟩
    · rw [← h2]
    · exact ⟨_, List.mem_singleton.2 rfl, rfl, ann_of_wt h1⟩
  · refine ⟨⟨top, (s.orig top).1, y.2, [(epsilon, ann B ⟨(s.orig top).2, epsilon, y.2⟩)]⟩,
      .inl (.inr (List.mem_map.2 ⟨y.2, List.mem_filter.2 ⟨(Aut.mem_outTos _ _ _ _).2 ⟨_, mem_of_wt h1⟩, (Aut.hasEdge_iff _ _).2 (mem_of_wt h1)⟩, rfl⟩)), ?_, ?_⟩
    · rw [← h2]
    · exact ⟨_, List.mem_singleton.2 rfl, rfl, ann_of_wt h1⟩
  · obtain ⟨c1, c2⟩ := Product.mem_common A B (s.orig top).1 y.1 (s.orig top).2 y.2
    have hg := (c2 g).2 ⟨mem_of_wt h2, mem_of_wt h3⟩
    have hj : (⟨top, y.1, y.2, ((Product.common A B (s.orig top).1 y.1 (s.orig top).2 y.2).filter fun l => l != epsilon).map
        fun l => (l, ann A ⟨(s.orig top).1, l, y.1⟩)⟩ : PEdge T) ∈ Product.jointEdge A B top (s.orig top).1 (s.orig top).2 y.1 y.2 := by
      unfold Product.jointEdge
      dsimp only
      rw [if_pos ((Product.common_test c1).2 ⟨g, hg, h1⟩)]
      exact List.mem_singleton.2 rfl
    have hl : (g, ann A ⟨(s.orig top).1, g, y.1⟩) ∈ ((Product.common A B (s.orig top).1 y.1 (s.orig top).2 y.2).filter fun l => l != epsilon).map
        fun l => (l, ann A ⟨(s.orig top).1, l, y.1⟩) := List.mem_map.2 ⟨g, List.mem_filter.2 ⟨hg, by simpa using h1⟩, rfl⟩
    revert hj hl
    generalize ((Product.common A B (s.orig top).1 y.1 (s.orig top).2 y.2).filter fun l => l != epsilon).map
        (fun l => (l, ann A ⟨(s.orig top).1, l, y.1⟩)) = ls
    intro hj hl
    refine ⟨_, .inr (List.mem_flatMap.2 ⟨y.1, (Aut.mem_outTos _ _ _ _).2 ⟨_, mem_of_wt h2⟩,
      List.mem_flatMap.2 ⟨y.2, (Aut.mem_outTos _ _ _ _).2 ⟨_, mem_of_wt h3⟩, List.mem_map.2 ⟨_, hj, rfl⟩⟩⟩), ?_⟩
    cases dual with
    | true =>
      refine ⟨rfl, _, by rw [if_pos rfl]; exact List.mem_map.2 ⟨_, hl, rfl⟩, rfl, ?_⟩
      rw [h4, if_pos rfl]
      show (ann A _).2 + (ann B _).2 = _
      rw [ann_of_wt h2, ann_of_wt h3]
    | false =>
      refine ⟨rfl, _, by rw [if_neg (by simp)]; exact hl, rfl, ?_⟩
      rw [h4, if_neg (by simp)]
      exact ann_of_wt h2

omit [LinearOrder T] in
theorem edgesFrom_ok (h : HashOrder) {dual : Bool} {A B : Aut T} (hA : InRange A) (hB : InRange B) {s : Product T}
    (hi : PInv dual A B s) {top : Nat} (ht : top < s.aut.n) : ∀ r ∈ edgesFrom h dual A B s top, WEdgeOK dual A B s r := by
  intro r hr
  obtain ⟨h1, h2, h3⟩ := mem_edgesFrom hr
  obtain ⟨x, hx⟩ := List.exists_mem_of_ne_nil _ h2
  obtain ⟨r1, r2⟩ := hi.range top ht
  obtain ⟨h4, h5⟩ := (h3 x hx).mv.range hA hB r1 r2
  exact ⟨by rw [h1]; exact ht, h2, by rw [h1]; exact h3, h4, h5⟩

theorem length_eraseDups {l : List Nat} : l.eraseDups.length ≤ l.length := by
  induction hn : l.length using Nat.strongRecOn generalizing l with
  | ind n ih =>
    cases l with
    | nil => simp
    | cons a l =>
      rw [List.eraseDups_cons, List.length_cons]
      have h1 := List.length_filter_le (fun b => !b == a) l
      rw [List.length_cons] at hn
      have h2 := ih _ (by omega) (l := l.filter fun b => !b == a) rfl
      omega

omit [LinearOrder T] in
theorem outTos_length (h : HashOrder) (A : Aut T) (q : Nat) : (A.outTos h q).length ≤ A.edges.length := by
  unfold Aut.outTos
  refine Nat.le_trans (length_eraseDups (l := (A.out h q).map Tr.dst)) ?_
  rw [List.length_map]
  unfold Aut.out
  refine Nat.le_trans (List.length_filter_le _ _) ?_
  rw [(h.perm _).length_eq]
  simp [keys]

theorem length_flatMap_le {α β : Type} (l : List α) (f : α → List β) (n : Nat) (h : ∀ x ∈ l, (f x).length ≤ n) :
    (l.flatMap f).length ≤ l.length * n := by
  induction l with
  | nil => simp
  | cons a l ih =>
    rw [List.flatMap_cons, List.length_append, List.length_cons]
    have h1 := h a (by simp)
    have h2 := ih fun x hx => h x (by simp [hx])
    rw [Nat.add_mul]
    omega

/-- The bound on the number of edges out of one state. -/
abbrev outBound (A B : Aut T) : Nat := A.edges.length + B.edges.length + A.edges.length * B.edges.length

omit [LinearOrder T] in
theorem edgesFrom_length (h : HashOrder) (dual : Bool) (A B : Aut T) (s : Product T) (top : Nat) :
    (edgesFrom h dual A B s top).length ≤ outBound A B := by
  unfold edgesFrom Product.epsEdges
  rw [List.length_append, List.length_append, List.length_map, List.length_map]
  have e1 := Nat.le_trans (List.length_filter_le (fun u => A.hasLabel (s.orig top).1 u epsilon) (A.outTos h (s.orig top).1)) (outTos_length h A _)
  have e2 := Nat.le_trans (List.length_filter_le (fun u => B.hasLabel (s.orig top).2 u epsilon) (B.outTos h (s.orig top).2)) (outTos_length h B _)
  have e3 : ((A.outTos h (s.orig top).1).flatMap fun iTo => (B.outTos h (s.orig top).2).flatMap fun fTo =>
      jointEdge dual A B top (s.orig top).1 (s.orig top).2 iTo fTo).length ≤ A.edges.length * B.edges.length := by
    refine Nat.le_trans (length_flatMap_le _ _ B.edges.length ?_) (Nat.mul_le_mul_right _ (outTos_length h A _))
    intro iTo _
    refine Nat.le_trans (length_flatMap_le _ _ 1 ?_) (by rw [Nat.mul_one]; exact outTos_length h B _)
    intro fTo _
    unfold jointEdge
    rw [List.length_map]
    unfold Product.jointEdge
    dsimp only
    generalize (if (Product.common A B (s.orig top).1 iTo (s.orig top).2 fTo).getLast? = some epsilon then 1 else 0) = m
    split <;> simp
  unfold outBound
  exact Nat.add_le_add (Nat.add_le_add e1 e2) e3

omit [LinearOrder T] in
theorem mem_newEdges {h : HashOrder} {inFirst dual : Bool} {A B : Aut T} {s : Product T}
    (hi : PInv dual A B s) (hd : inFirst = false → dual = true) (t : Tr) (an : Ann T)
    (ht : (if inFirst then A else B).wt t = some an.2) {r : PEdge T}
    (hr : r ∈ newEdges h inFirst dual A B s t an) :
    r.top < s.aut.n ∧ r.labels ≠ [] ∧
      ∀ x ∈ r.labels, MvR dual (WtOf A) (WtOf B) (s.orig r.top) x.1 (r.fst, r.snd) x.2.2 := by
  unfold newEdges at hr
  dsimp only at hr
  rw [List.mem_flatMap] at hr
  obtain ⟨⟨o, u⟩, h1, h2⟩ := hr
  obtain ⟨v, h3, rfl⟩ := List.mem_map.1 h2
  obtain ⟨h4, h5⟩ := (Product.mem_fromStates hi inFirst hd _ _ _).1 h1
  refine ⟨h4, by simp, ?_⟩
  intro x hx
  rw [List.mem_singleton] at hx
  subst hx
  dsimp only
  rw [h5]
  cases inFirst with
  | true =>
    simp only [if_true] at h3 ht ⊢
    split at h3
    · rename_i he
      rw [List.mem_singleton] at h3
      subst h3
      refine .inl ⟨he, .inl ⟨?_, rfl⟩⟩
      rw [← he]
      exact ht
    · rename_i he
      obtain ⟨v', h6, rfl⟩ := List.mem_map.1 h3
      rw [List.mem_filter] at h6
      refine .inr ⟨he, _, _, ht, wt_ann ((Aut.hasEdge_iff _ _).1 h6.2), ?_⟩
      cases dual <;> rfl
  | false =>
    simp only [Bool.false_eq_true, if_false] at h3 ht ⊢
    split at h3
    · rename_i he
      rw [List.mem_singleton] at h3
      subst h3
      refine .inl ⟨he, .inr ⟨?_, rfl⟩⟩
      rw [← he]
      exact ht
    · rename_i he
      obtain ⟨v', h6, rfl⟩ := List.mem_map.1 h3
      rw [List.mem_filter] at h6
      refine .inr ⟨he, _, _, wt_ann ((Aut.hasEdge_iff _ _).1 h6.2), ht, ?_⟩
      rw [hd rfl]
      exact add_comm _ _

/-- Every move that uses the new transition is one of the new edges. -/
theorem newEdges_complete (h : HashOrder) {inFirst dual : Bool} {A B : Aut T} {s : Product T}
    (hi : PInv dual A B s) (hd : inFirst = false → dual = true) (t : Tr) (an : Ann T)
    (ht : (if inFirst then A else B).wt t = some an.2) {DA DB : Tr → Prop} {u g : Nat} {y : Nat × Nat} {w : T}
    (hu : u < s.aut.n)
    (hm : MvR dual (fun e x => A.wt e = some x ∧ (DA e ∨ (inFirst = true ∧ e = t)))
      (fun e x => B.wt e = some x ∧ (DB e ∨ (inFirst = false ∧ e = t))) (s.orig u) g y w) :
    MvR dual (fun e x => A.wt e = some x ∧ DA e) (fun e x => B.wt e = some x ∧ DB e) (s.orig u) g y w ∨
    ∃ r ∈ newEdges h inFirst dual A B s t an,
      r.top = u ∧ (r.fst, r.snd) = y ∧ ∃ x ∈ r.labels, x.1 = g ∧ x.2.2 = w := by
  have key : ∀ (o : Nat) (v : Nat × Ann T), s.orig u = (if inFirst then (t.src, o) else (o, t.src)) →
      v ∈ (if t.label = epsilon then [(o, an)] else (((if inFirst then B else A).outTos h o).filter
        fun w => (if inFirst then B else A).hasLabel o w t.label).map fun u =>
          (u, if dual then (an.1, an.2 + (ann (if inFirst then B else A) ⟨o, t.label, u⟩).2) else an)) →
      g = t.label → y = (if inFirst then t.dst else v.1, if inFirst then v.1 else t.dst) → v.2.2 = w →
      ∃ r ∈ newEdges h inFirst dual A B s t an,
        r.top = u ∧ (r.fst, r.snd) = y ∧ ∃ x ∈ r.labels, x.1 = g ∧ x.2.2 = w := by
    intro o v h1 h2 h3 h4 h5
    refine ⟨⟨u, if inFirst then t.dst else v.1, if inFirst then v.1 else t.dst, [(t.label, v.2)]⟩, ?_, rfl, h4.symm, _,
      List.mem_singleton.2 rfl, h3.symm, h5⟩
    unfold newEdges
    dsimp only
    exact List.mem_flatMap.2 ⟨(o, u), (Product.mem_fromStates hi inFirst hd _ _ _).2 ⟨hu, h1⟩, List.mem_map.2 ⟨v, h2, rfl⟩⟩
  cases inFirst with
  | true =>
    simp only [if_true, true_and, Bool.true_eq_false, false_and, or_false] at hm key ht ⊢
    rcases hm with ⟨rfl, ⟨⟨h3, h3' | h3'⟩, h4⟩ | h3⟩ | ⟨h0, a, b, ⟨h3, h3' | h3'⟩, h4, h5⟩
    · exact .inl (.inl ⟨rfl, .inl ⟨⟨h3, h3'⟩, h4⟩⟩)
    · subst h3'
      refine .inr (key (s.orig u).2 ((s.orig u).2, an) rfl (by simp) rfl (Prod.ext rfl h4) ?_)
      rw [ht] at h3
      exact Option.some.inj h3
    · exact .inl (.inl ⟨rfl, .inr h3⟩)
    · exact .inl (.inr ⟨h0, a, b, ⟨h3, h3'⟩, h4, h5⟩)
    · subst h3'
      refine .inr (key (s.orig u).2 (y.2, if dual then (an.1, an.2 + (ann B ⟨(s.orig u).2, g, y.2⟩).2) else an) rfl ?_ rfl rfl ?_)
      · rw [if_neg h0]
        exact List.mem_map.2 ⟨y.2, List.mem_filter.2 ⟨(Aut.mem_outTos _ _ _ _).2 ⟨_, mem_of_wt h4.1⟩, (Aut.hasEdge_iff _ _).2 (mem_of_wt h4.1)⟩, rfl⟩
      · rw [ht] at h3
        cases h3
        rw [h5, ann_of_wt h4.1]
        cases dual <;> rfl
  | false =>
    obtain rfl := hd rfl
    simp only [Bool.false_eq_true, if_false, if_true, true_and, false_and, or_false] at hm key ht ⊢
    rcases hm with ⟨rfl, h3 | ⟨⟨h3, h3' | h3'⟩, h4⟩⟩ | ⟨h0, a, b, h4, ⟨h3, h3' | h3'⟩, h5⟩
    · exact .inl (.inl ⟨rfl, .inl h3⟩)
    · exact .inl (.inl ⟨rfl, .inr ⟨⟨h3, h3'⟩, h4⟩⟩)
    · subst h3'
      refine .inr (key (s.orig u).1 ((s.orig u).1, an) rfl (by simp) rfl (Prod.ext h4 rfl) ?_)
      rw [ht] at h3
      exact Option.some.inj h3
    · exact .inl (.inr ⟨h0, a, b, h4, ⟨h3, h3'⟩, h5⟩)
    · subst h3'
      refine .inr (key (s.orig u).1 (y.1, (an.1, an.2 + (ann A ⟨(s.orig u).1, g, y.1⟩).2)) rfl ?_ rfl rfl ?_)
      · rw [if_neg h0]
        exact List.mem_map.2 ⟨y.1, List.mem_filter.2 ⟨(Aut.mem_outTos _ _ _ _).2 ⟨_, mem_of_wt h4.1⟩, (Aut.hasEdge_iff _ _).2 (mem_of_wt h4.1)⟩, rfl⟩
      · rw [ht] at h3
        cases h3
        rw [h5, ann_of_wt h4.1, if_pos rfl]
        exact add_comm _ _

end Verif.SProd
