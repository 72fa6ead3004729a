import Verif.Model.FixedProduct
import Verif.Proofs.FixedPointFinal
import Verif.Proofs.FixedPostFinal
import Verif.Proofs.FixedPreFinal
import Verif.Proofs.SolverProduct
import Verif.Proofs.ProductTrace
import Verif.Spec.Weighted

/-! # The fixed-point search on the product -/

namespace Verif

namespace Product

variable {W : Type}

/-- Every transition of the product has the annotation of the transition of the first automaton it stands for. -/
def PAnn (A : Aut W) (s : Product W) : Prop :=
  ∀ e ∈ s.aut.edges, A.getEdge ⟨(s.orig e.1.src).1, e.1.label, (s.orig e.1.dst).1⟩ = some e.2

/-- The annotations of an edge to be added. -/
def LabelsOK (A : Aut W) (s : Product W) (r : PEdge W) : Prop :=
  ∀ x ∈ r.labels, A.getEdge ⟨(s.orig r.top).1, x.1, r.fst⟩ = some x.2

theorem mem_addLabels {a : Aut W} {top id : Nat} {ls : List (Nat × Ann W)} {e : AEdge W}
    (h : e ∈ (addLabels a top id ls).edges) : e ∈ a.edges ∨ ∃ x ∈ ls, e = (⟨top, x.1, id⟩, x.2) := by
  unfold addLabels at h
  induction ls generalizing a with
  | nil => exact .inl h
  | cons x ls ih =>
    rw [List.foldl_cons] at h
    rcases ih h with h | ⟨y, hy, rfl⟩
    · unfold Aut.emplaceEdge at h
      split at h
      · exact .inl h
      · rcases List.mem_cons.1 h with rfl | h
        · exact .inr ⟨x, by simp, rfl⟩
        · exact .inl h
    · exact .inr ⟨y, by simp [hy], rfl⟩

theorem PAnn.insert {dual et : Bool} {A B : Aut W} {s : PSt W} (h : PInv dual A B s.prod) (hd : s.done = false)
    {r : PEdge W} (hr : EdgeOK A B s.prod r) (ha : PAnn A s.prod) (hl : LabelsOK A s.prod r) :
    PAnn A (insert dual et A B s r).prod := by
  obtain ⟨i1, i2, _⟩ := insert_spec (et := et) h hd hr.top hr.ne hr.mv hr.fst hr.snd
  obtain ⟨g1, g2, g3, g4, g5, g6⟩ := getState_spec h r.fst r.snd
  have hprod : (Product.insert dual et A B s r).prod = { (getState dual A B s.prod r.fst r.snd).1 with
      aut := addLabels (getState dual A B s.prod r.fst r.snd).1.aut r.top (getState dual A B s.prod r.fst r.snd).2.2 r.labels } := by
    unfold Product.insert
    simp only [hd, Bool.false_eq_true, if_false]
    split <;> rfl
  intro e he
  have ho : ∀ u, (Product.insert dual et A B s r).prod.orig u = (getState dual A B s.prod r.fst r.snd).1.orig u := by
    intro u; rw [hprod]; rfl
  rw [hprod] at he
  rw [ho, ho]
  rcases mem_addLabels he with he | ⟨x, hx, rfl⟩
  · rw [g2] at he
    have hk := h.edges e.1 (List.mem_map_of_mem he)
    rw [g5 _ hk.1, g5 _ hk.2.1]
    exact ha e he
  · dsimp only
    rw [g4, g5 _ hr.top]
    exact hl x hx

theorem LabelsOK.ext {A : Aut W} {s s' : Product W} (h : PExt s s') {r : PEdge W} (ht : r.top < s.aut.n)
    (hr : LabelsOK A s r) : LabelsOK A s' r := by
  intro x hx
  rw [h.orig _ ht]
  exact hr x hx

theorem PAnn.insertAll {dual et : Bool} {A B : Aut W} (rs : List (PEdge W)) (s : PSt W) (h : PInv dual A B s.prod)
    (hrs : ∀ r ∈ rs, EdgeOK A B s.prod r) (ha : PAnn A s.prod) (hl : ∀ r ∈ rs, LabelsOK A s.prod r) :
    PAnn A (rs.foldl (Product.insert dual et A B) s).prod := by
  induction rs generalizing s with
  | nil => exact ha
  | cons r rs ih =>
    cases hd : s.done with
    | true => rw [foldl_done dual et A B _ s hd]; exact ha
    | false =>
      have hr := hrs r (by simp)
      obtain ⟨i1, i2, _⟩ := insert_spec (et := et) h hd hr.top hr.ne hr.mv hr.fst hr.snd
      rw [List.foldl_cons]
      exact ih _ i1 (fun r' hr' => (hrs r' (by simp [hr'])).ext i2) (PAnn.insert h hd hr ha (hl r (by simp)))
        (fun r' hr' => (hl r' (by simp [hr'])).ext i2 (hrs r' (by simp [hr'])).top)

variable [Zero W]

theorem ann_eq {a : Aut W} {t : Tr} (h : t ∈ keys a.edges) : a.getEdge t = some (ann a t) := by
  unfold ann
  rcases hg : a.getEdge t with _ | x
  · exact absurd h ((getEdge_none_iff a t).1 hg)
  · rfl

theorem labels_edgesFrom {h : HashOrder} {A B : Aut W} (hB : ∀ t ∈ keys B.edges, t.label ≠ epsilon) {s : Product W}
    {top : Nat} {r : PEdge W} (hr : r ∈ edgesFrom h A B s top) : LabelsOK A s r := by
  have htop := (mem_edgesFrom hr).1
  unfold LabelsOK
  rw [htop]
  unfold edgesFrom epsEdges jointEdges at hr
  rw [List.mem_append, List.mem_append] at hr
  rcases hr with (hr | hr) | hr
  · obtain ⟨u, h1, rfl⟩ := List.mem_map.1 hr
    rw [List.mem_filter] at h1
    intro x hx
    rw [List.mem_singleton] at hx
    subst hx
    exact ann_eq ((Aut.hasEdge_iff _ _).1 h1.2)
  · obtain ⟨u, h1, rfl⟩ := List.mem_map.1 hr
    rw [List.mem_filter] at h1
    exact absurd rfl (hB _ ((Aut.hasEdge_iff _ _).1 h1.2))
  · rw [List.mem_flatMap] at hr
    obtain ⟨iTo, _, hr⟩ := hr
    rw [List.mem_flatMap] at hr
    obtain ⟨fTo, _, hr⟩ := hr
    unfold jointEdge at hr
    obtain ⟨c1, c2⟩ := mem_common A B (s.orig top).1 iTo (s.orig top).2 fTo
    dsimp only at hr
    generalize (if (common A B (s.orig top).1 iTo (s.orig top).2 fTo).getLast? = some epsilon then 1 else 0) = m at hr
    split at hr
    · rw [List.mem_singleton] at hr
      subst hr
      intro x hx
      obtain ⟨l, h3, rfl⟩ := List.mem_map.1 hx
      rw [List.mem_filter] at h3
      exact ann_eq ((c2 l).1 h3.1).1
    · simp at hr

theorem PAnn.construct (h : HashOrder) {dual et : Bool} {A B : Aut W} (hA : InRange A) (hB : InRange B)
    (hBe : ∀ t ∈ keys B.edges, t.label ≠ epsilon) (k : Nat) (s : PSt W) (hi : PInv dual A B s.prod)
    (hw : s.done = false → ∀ u ∈ s.waiting, u < s.prod.aut.n) (ha : PAnn A s.prod) :
    PAnn A (construct h dual et A B k s).prod := by
  induction k generalizing s with
  | zero => exact ha
  | succ k ih =>
    unfold Product.construct
    cases hd : s.done with
    | true => rw [if_pos rfl]; exact ha
    | false =>
      simp only [Bool.false_eq_true, if_false]
      cases hws : s.waiting with
      | nil => exact ha
      | cons top ws =>
        dsimp only
        have htop : top < s.prod.aut.n := hw hd top (by rw [hws]; simp)
        have hok := edgesFrom_ok h hA hB hi htop
        obtain ⟨i1, i2, i3, i4, i5⟩ := insertAll_spec (et := et) (edgesFrom h A B s.prod top)
          { prod := s.prod, waiting := ws } hi rfl hok
        have hn := PAnn.insertAll (et := et) (edgesFrom h A B s.prod top)
          { prod := s.prod, waiting := ws } hi hok ha (fun r hr => labels_edgesFrom hBe hr)
        refine ih _ i1 ?_ hn
        intro hd1 u hu
        rcases ((i4 hd1).2.1 u).1 hu with h1 | h1
        · exact Nat.lt_of_lt_of_le (hw hd u (by rw [hws]; simp [h1])) i2.n
        · exact h1.2

theorem initProduct_ann (h : HashOrder) {dual et : Bool} {A B : Aut W} (hA : InRange A) (hB : InRange B)
    (hBe : ∀ t ∈ keys B.edges, t.label ≠ epsilon) {s : Product W} (hi : PInv dual A B s) (ha : PAnn A s) :
    PAnn A (initProduct h dual et A B s).1 := by
  unfold initProduct result
  exact PAnn.construct h hA hB hBe _ _ hi (by simp) ha

/-! ## Paths of the product -/

variable {T : Type}

/-- The transitions of an automaton with pairs of traces, with their weights. -/
def pairWts (a : Aut (Trace × T)) : Tr → T → Prop := fun t x => ∃ tr1 tr2, a.getEdge t = some (tr1, tr2, x)

/-- The word a path of a `WAut` spells, without epsilon. -/
def wordOf (p : List (Nat × Nat)) : List Nat := (p.map Prod.fst).filter fun g => g != epsilon

section
variable [AddCommMonoid T] {A B : Aut (Trace × T)} {s : Product (Trace × T)}

theorem mem_keys_pairWts {a : Aut (Trace × T)} {t : Tr} {x : T} (h : pairWts a t x) : t ∈ keys a.edges := by
  obtain ⟨tr1, tr2, h⟩ := h
  by_contra hn
  rw [(getEdge_none_iff a t).2 hn] at h
  cases h

theorem wAut_edge {h : HashOrder} {u l v : Nat} {x : T} :
    (s.wAut h).Edge u l v x ↔ pairWts s.aut ⟨u, l, v⟩ x := by
  unfold WAut.Edge wAut
  constructor
  · rintro ⟨ls, h1, h2⟩
    dsimp only at h1
    rw [List.mem_map] at h1
    obtain ⟨v', h3, h4⟩ := h1
    obtain ⟨rfl, rfl⟩ := Prod.mk.inj h4
    rw [List.mem_map] at h2
    obtain ⟨l', h5, h6⟩ := h2
    obtain ⟨rfl, rfl⟩ := Prod.mk.inj h6
    have hk := ((mem_labelsOf s.aut u v').2 l').1 h5
    exact ⟨_, _, ann_eq hk⟩
  · intro hx
    have hk := mem_keys_pairWts hx
    obtain ⟨tr1, tr2, hx⟩ := hx
    refine ⟨_, List.mem_map.2 ⟨v, (Aut.mem_outTos _ _ _ _).2 ⟨_, hk⟩, rfl⟩, List.mem_map.2 ⟨l, ?_, ?_⟩⟩
    · exact ((mem_labelsOf s.aut u v).2 l).2 hk
    · unfold ann
      rw [hx]
      rfl

theorem CostEPath.snocE {E : Tr → T → Prop} {p q r g : Nat} {w : List Nat} {x y : T} (h : CostEPath E p w x q)
    (he : E ⟨q, g, r⟩ y) : CostEPath E p (w ++ [g].filter fun g => g != epsilon) (x + y) r := by
  induction h with
  | nil q =>
    by_cases hg : g = epsilon
    · subst hg
      simpa [add_comm] using CostEPath.eps he (.nil r)
    · simpa [hg, add_comm] using CostEPath.cons hg he (.nil r)
  | cons h0 h1 _ ih =>
    rw [add_assoc]
    exact .cons h0 h1 (ih he)
  | eps h1 _ ih =>
    rw [add_assoc]
    exact .eps h1 (ih he)

/-- A path of the product is a path of the first automaton of the same weight, and a path of the second. -/
theorem PInv.costPath {h : HashOrder} (hi : PInv false A B s) (ha : PAnn A s)
    (hBe : ∀ t ∈ keys B.edges, t.label ≠ epsilon) {u v : Nat} {p : List (Nat × Nat)} {w : T}
    (hp : (s.wAut h).Path u p v w) :
    CostEPath (pairWts A) (s.orig u).1 (wordOf p) w (s.orig v).1 ∧
    EPath (· ∈ keys B.edges) (s.orig u).2 (wordOf p) (s.orig v).2 ∧
    Path (· ∈ keys s.aut.edges) u (p.map Prod.fst) v := by
  induction hp with
  | nil => exact ⟨.nil _, .nil _, .nil _⟩
  | @snoc v t l p w x hp he ih =>
    obtain ⟨i1, i2, i3⟩ := ih
    rw [wAut_edge] at he
    have hk := mem_keys_pairWts he
    obtain ⟨tr1, tr2, hg⟩ := he
    have hann : pairWts A ⟨(s.orig v).1, l, (s.orig t).1⟩ x := by
      have hm : (⟨v, l, t⟩, tr1, tr2, x) ∈ s.aut.edges := by
        unfold Aut.getEdge at hg
        rw [Option.map_eq_some_iff] at hg
        obtain ⟨e, h1, h2⟩ := hg
        have h3 := List.find?_some h1
        simp only [beq_iff_eq] at h3
        have := List.mem_of_find?_eq_some h1
        rw [show e = (e.1, e.2) from rfl, h3, h2] at this
        exact this
      exact ⟨tr1, tr2, ha _ hm⟩
    have hp' : Path (· ∈ keys s.aut.edges) u ((p ++ [(l, t)]).map Prod.fst) t := by
      rw [List.map_append]
      exact Path.snoc' i3 hk
    refine ⟨?_, ?_, hp'⟩
    · have := CostEPath.snocE i1 hann
      unfold wordOf
      rw [List.map_append, List.filter_append]
      exact this
    · exact (hi.path hp').2

omit [AddCommMonoid T] in
theorem EPath.plain {E : Tr → Prop} (hE : ∀ t, E t → t.label ≠ epsilon) {q f : Nat} {w : List Nat} (h : EPath E q w f) :
    Path E q w f := h.toPath hE

/-- A pair of paths is a path of the product. -/
theorem Complete.costPath {h : HashOrder} (hi : PInv false A B s) (ha : PAnn A s) (hc : Complete A B s (fun _ => True))
    (hBe : ∀ t ∈ keys B.edges, t.label ≠ epsilon) {p1 p2 f1 f2 : Nat} {w : List Nat} {x : T}
    (hA : CostEPath (pairWts A) p1 w x f1) (hB : Path (· ∈ keys B.edges) p2 w f2) {u : Nat} (hu : u < s.aut.n)
    (ho : s.orig u = (p1, p2)) :
    ∃ v p, v < s.aut.n ∧ s.orig v = (f1, f2) ∧ (s.wAut h).Path u p v x ∧ wordOf p = w := by
  have edge : ∀ {u l v : Nat} {y : T}, (⟨u, l, v⟩ : Tr) ∈ keys s.aut.edges →
      pairWts A ⟨(s.orig u).1, l, (s.orig v).1⟩ y → (s.wAut h).Edge u l v y := by
    intro u l v y hk ⟨tr1, tr2, hy⟩
    rw [wAut_edge]
    have hg := getEdge_none_iff s.aut ⟨u, l, v⟩
    rcases hx : s.aut.getEdge ⟨u, l, v⟩ with _ | z
    · exact absurd hk (hg.1 hx)
    · unfold Aut.getEdge at hx
      rw [Option.map_eq_some_iff] at hx
      obtain ⟨e', h3, h4⟩ := hx
      have h5 := List.find?_some h3
      simp only [beq_iff_eq] at h5
      have h6 := ha e' (List.mem_of_find?_eq_some h3)
      rw [h5] at h6
      dsimp only at h6
      rw [hy, h4] at h6
      cases h6
      refine ⟨tr1, tr2, ?_⟩
      unfold Aut.getEdge
      rw [h3, Option.map_some, h4]
  induction hA generalizing p2 f2 u with
  | nil q =>
    cases hB
    exact ⟨u, [], hu, ho, .nil u, rfl⟩
  | @eps p q r w x y he _ ih =>
    obtain ⟨v, h2, h3, h4⟩ := hc u hu trivial epsilon (q, p2) (.inl ⟨rfl, .inl ⟨by rw [ho]; exact mem_keys_pairWts he, by rw [ho]⟩⟩)
    obtain ⟨v', p', h5, h6, h7, h8⟩ := ih hB h2 h3
    refine ⟨v', _, h5, h6, (WAut.Path.single (edge h4 (by rw [ho, h3]; exact he))).append h7, ?_⟩
    unfold wordOf at h8 ⊢
    simp [h8]
  | @cons p g q r w x y h0 he _ ih =>
    cases hB with
    | @cons _ _ q2 _ _ hb hB =>
      obtain ⟨v, h2, h3, h4⟩ := hc u hu trivial g (q, q2) (.inr ⟨h0, by rw [ho]; exact mem_keys_pairWts he, by rw [ho]; exact hb⟩)
      obtain ⟨v', p', h5, h6, h7, h8⟩ := ih hB h2 h3
      refine ⟨v', _, h5, h6, (WAut.Path.single (edge h4 (by rw [ho, h3]; exact he))).append h7, ?_⟩
      unfold wordOf at h8 ⊢
      simp [h8, h0]

/-- The weights of the accepting paths of the first automaton for configurations that the second accepts. -/
def MeetWeights (size : Nat) (A B : Aut (Trace × T)) : Set T :=
  { x | ∃ q w, q < size ∧ x ∈ EPathWeights (pairWts A) (fun q => A.isAcc q = true) (q, w) ∧
    Accepted (· ∈ keys B.edges) (fun q => B.isAcc q = true) (q, w) }

theorem PInv.accepting {h : HashOrder} (hi : PInv false A B s) (ha : PAnn A s) (hc : Complete A B s (fun _ => True))
    (hBe : ∀ t ∈ keys B.edges, t.label ≠ epsilon) (x : T) :
    (∃ i p a, (s.wAut h).Accepting i p a x) ↔ x ∈ MeetWeights s.size A B := by
  constructor
  · rintro ⟨i, p, a, h1, h2, h3⟩
    obtain ⟨h4, h5, _⟩ := hi.costPath ha hBe h2
    have h1 : i < s.size := h1
    rw [orig_lt h1] at h4 h5
    have h6 := (hi.acc a (Aut.isAcc_lt h3)).1 h3
    exact ⟨i, wordOf p, h1, ⟨_, h4, h6.1⟩, ⟨_, h5.toPath hBe, h6.2⟩⟩
  · rintro ⟨q, w, h1, ⟨f1, h2, h3⟩, ⟨f2, h4, h5⟩⟩
    obtain ⟨v, p, h6, h7, h8, _⟩ := hc.costPath (h := h) hi ha hBe h2 h4 (u := q) (by rw [hi.n]; omega) (orig_lt h1)
    exact ⟨q, p, v, h1, h8, (hi.acc v h6).2 (by rw [h7]; exact ⟨h3, h5⟩)⟩

end

end Product

/-! ## get_path_with_loop without a loop -/

namespace FP

open WAut

variable {S T : Type} [AddCommMonoid T] {A : WAut T}

theorem Back.length {s : FP T} {i v i' : Nat} {q q' : List (Nat × Nat)} {w w' : T} (h : Back A s i v q w)
    (h' : Back A s i' v q' w') : q.length = q'.length := by
  induction h generalizing i' q' w' with
  | start h1 _ => cases h' with
    | start _ _ => rfl
    | step h2 _ _ => rw [h1] at h2; cases h2
  | step h1 _ _ ih => cases h' with
    | start h2 _ => rw [h1] at h2; cases h2
    | step h2 _ h3 =>
      rw [h1] at h2
      cases h2
      rw [List.length_append, List.length_append, ih h3]

theorem findLoop_back (f : Nat → S) {s : FP T} {i v : Nat} {q : List (Nat × Nat)} {w : T} (hb : Back A s i v q w) (p r : APath Nat)
    (hr : pathLoop s q.length v p = some r) (seen : List Nat)
    (hs : ∀ x ∈ seen, ∃ i' q' w', Back A s i' x q' w' ∧ q.length ≤ q'.length) {k : Nat} (hk : q.length < k) :
    findLoop f s k seen v (p.map f) = some (none, r.map f) := by
  induction hb generalizing p seen k with
  | start h1 h2 =>
    obtain ⟨k, rfl⟩ : ∃ j, k = j + 1 := ⟨k - 1, by omega⟩
    rw [List.length_nil, pathLoop, if_pos h1] at hr
    cases hr
    unfold findLoop backNext
    simp only [Bool.false_eq_true, if_false, h1]
  | @step v u q w x h1 e hb ih =>
    obtain ⟨k, rfl⟩ : ∃ j, k = j + 1 := ⟨k - 1, by omega⟩
    rw [List.length_append, List.length_singleton] at hr hs hk
    rw [pathLoop, h1] at hr
    unfold findLoop backNext
    simp only [Bool.false_eq_true, if_false, h1]
    have hu : u ∉ seen := by
      intro hm
      obtain ⟨i', q', w', h2, h3⟩ := hs u hm
      have := hb.length h2
      omega
    rw [if_neg hu]
    refine ih (p.emplace u (s.states v).label) hr (u :: seen) ?_ (by omega)
    intro x hx
    rcases List.mem_cons.1 hx with rfl | hx
    · exact ⟨_, _, _, hb, Nat.le_refl _⟩
    · obtain ⟨i', q', w', h2, h3⟩ := hs x hx
      exact ⟨i', q', w', h2, by omega⟩

/-- Without a loop, `get_path_with_loop` returns the path of `get_path`. -/
theorem getPathWithLoop_back (f : Nat → S) {s : FP T} {i a : Nat} {q : List (Nat × Nat)} {w : T} (ha : s.minAcc = some a)
    (hb : Back A s i a q w) {k : Nat} (hk : q.length < k) :
    ∃ r, s.getPath k = some r ∧ s.getPathWithLoop f k = some (r.map f) ∧ r.frontState = i ∧ r.fin = a ∧
      FP.steps r = q := by
  obtain ⟨r, h1, h2, h3, h4⟩ := pathLoop_back hb ⟨a, []⟩ rfl
  refine ⟨r, ?_, ?_, h2, h3, ?_⟩
  · unfold getPath
    rw [ha]
    exact pathLoop_mono h1 (by omega)
  · unfold getPathWithLoop
    rw [ha]
    have := findLoop_back f hb ⟨a, []⟩ r h1 [a] (by
      intro x hx
      rw [List.mem_singleton] at hx
      subst hx
      exact ⟨_, _, _, hb, Nat.le_refl _⟩) hk
    rw [show (⟨a, []⟩ : APath Nat).map f = (⟨f a, []⟩ : APath S) from rfl] at this
    simp only [Option.bind_some, this]
  · rw [h4]
    simp [FP.steps, APath.states, APath.stack_eq]

end FP

end Verif
