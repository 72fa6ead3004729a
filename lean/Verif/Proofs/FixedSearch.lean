import Verif.Proofs.FixedProduct
import Verif.Spec.ShortestPath

/-! # The result of the fixed-point search on a product -/

namespace Verif

open WAut

namespace WAut

variable {T : Type} [AddCommMonoid T] {A : WAut T}

theorem Path.cons_inv {u v l t : Nat} {p : List (Nat × Nat)} {w : T} (h : A.Path u ((l, t) :: p) v w) :
    ∃ x y, A.Edge u l t x ∧ A.Path t p v y ∧ w = x + y := by
  generalize hq : (l, t) :: p = q at h
  induction h generalizing p with
  | nil => cases hq
  | @snoc v' t' l' p' w' x' hp e ih =>
    rcases List.eq_nil_or_concat p with rfl | ⟨p0, z, rfl⟩
    · have hp' : p' = [] := by
        have := congrArg List.length hq
        simp at this
        exact this
      clear ih
      rw [hp'] at hq
      generalize p' = p1 at hp hp'
      cases hp with
      | nil =>
        simp only [List.nil_append, List.cons.injEq, Prod.mk.injEq, and_true] at hq
        obtain ⟨rfl, rfl⟩ := hq
        exact ⟨x', 0, e, .nil _, by rw [zero_add, add_zero]⟩
      | snoc _ _ => simp at hp'
    · rw [List.concat_eq_append, ← List.cons_append] at hq
      obtain ⟨h1, h2⟩ := List.append_inj' hq rfl
      cases h2
      obtain ⟨x, y, h3, h4, rfl⟩ := ih h1
      refine ⟨x, y + x', h3, ?_, by rw [add_assoc]⟩
      rw [List.concat_eq_append]
      exact .snoc h4 e

end WAut

namespace Product

variable {T : Type}

section
variable [AddCommMonoid T] {A B : Aut (Trace × T)} {s : Product (Trace × T)}

/-- The product after `initialize_product` without early termination. -/
structure FixedEnd (size : Nat) (A B : Aut (Trace × T)) (s : Product (Trace × T)) : Prop where
  inv : PInv false A B s
  ann : PAnn A s
  complete : Complete A B s (fun _ => True)
  size : s.size = size

/-- A path of the first automaton to an accepting state, with the sum `w` of the weights of its transitions, for a
configuration that the second automaton accepts. -/
structure MeetPath (size : Nat) (A B : Aut (Trace × T)) (P : APath Nat) (w : T) : Prop where
  start : P.frontState < size
  spells : CostSpells (pairWts A) P.states P.stack w
  acc : A.isAcc P.fin = true
  second : Accepted (· ∈ keys B.edges) (fun q => B.isAcc q = true) (P.frontState, P.stack.filter fun g => decide (g ≠ epsilon))

theorem steps_cons (f : Nat) (l q : Nat) (es : List (Nat × Nat)) :
    FP.steps ⟨f, (l, q) :: es⟩ = (l, APath.frontState ⟨f, es⟩) :: FP.steps ⟨f, es⟩ := by
  exact FP.steps_emplace ⟨f, es⟩ q l

theorem FixedEnd.spells {h : HashOrder} {size : Nat} (hE : FixedEnd size A B s) (fin : Nat) (es : List (Nat × Nat)) (w : T)
    (hp : (s.wAut h).Path (APath.frontState ⟨fin, es⟩) (FP.steps ⟨fin, es⟩) fin w) :
    CostSpells (pairWts A) (APath.states ((⟨fin, es⟩ : APath Nat).map fun q => (s.orig q).1))
      (APath.stack ((⟨fin, es⟩ : APath Nat).map fun q => (s.orig q).1)) w := by
  induction es generalizing w with
  | nil =>
    have : FP.steps ⟨fin, []⟩ = [] := by simp [FP.steps, APath.states, APath.stack_eq]
    rw [this] at hp
    generalize hq : ([] : List (Nat × Nat)) = q at hp
    cases hp with
    | nil =>
      rw [APath.stack_eq]
      unfold APath.states
      exact (rfl : (0 : T) = 0)
    | snoc _ _ => simp at hq
  | cons e es ih =>
    obtain ⟨l, q⟩ := e
    rw [steps_cons] at hp
    obtain ⟨x, y, h1, h2, rfl⟩ := hp.cons_inv
    have h3 := ih y h2
    rw [wAut_edge] at h1
    have hk := mem_keys_pairWts h1
    have hA : pairWts A ⟨(s.orig q).1, l, (s.orig (APath.frontState ⟨fin, es⟩)).1⟩ x := by
      obtain ⟨tr1, tr2, hg⟩ := h1
      unfold Aut.getEdge at hg
      rw [Option.map_eq_some_iff] at hg
      obtain ⟨e, h4, h5⟩ := hg
      have h6 := List.find?_some h4
      simp only [beq_iff_eq] at h6
      have := hE.ann e (List.mem_of_find?_eq_some h4)
      rw [h6, h5] at this
      exact ⟨tr1, tr2, this⟩
    rw [APath.stack_eq] at h3 ⊢
    unfold APath.states APath.map at h3 ⊢
    simp only [List.map_cons, List.cons_append] at h3 ⊢
    have hst : ∃ l, ((es.map fun x => (x.1, (s.orig x.2).1)).map Prod.snd ++ [(s.orig fin).1]) =
        (s.orig (APath.frontState ⟨fin, es⟩)).1 :: l := by
      cases es with
      | nil => exact ⟨_, rfl⟩
      | cons e es => exact ⟨_, rfl⟩
    obtain ⟨l', hl'⟩ := hst
    rw [hl'] at h3 ⊢
    exact ⟨x, y, hA, h3, rfl⟩

end

section
variable [LinearOrder T] [AddCommMonoid T] [IsOrderedAddMonoid T] [OrderTop T] [OrderBot T]
  {A B : Aut (Trace × T)} {s : Product (Trace × T)}

omit [OrderBot T] [IsOrderedAddMonoid T] in
theorem FixedEnd.ok (h : HashOrder) {size : Nat} (hE : FixedEnd size A B s)
    (hw : ∀ t x, pairWts A t x → x ≠ ⊤) : (s.wAut h).OK := by
  refine ⟨?_, ?_, ?_⟩
  · show s.size ≤ s.aut.n
    rw [hE.inv.n]; omega
  · intro u l v x he
    rw [wAut_edge] at he
    exact (hE.inv.edges _ (mem_keys_pairWts he)).2.1
  · intro u l v x he
    rw [wAut_edge] at he
    obtain ⟨tr1, tr2, hg⟩ := he
    unfold Aut.getEdge at hg
    rw [Option.map_eq_some_iff] at hg
    obtain ⟨e, h4, h5⟩ := hg
    have := hE.ann e (List.mem_of_find?_eq_some h4)
    rw [h5] at this
    exact hw _ _ ⟨_, _, this⟩

omit [OrderTop T] [OrderBot T] in
/-- Weights that are not negative make no negative cycles. -/
theorem FixedEnd.nonneg (h : HashOrder) {size : Nat} (hE : FixedEnd size A B s)
    (hw : ∀ t x, pairWts A t x → 0 ≤ x) : (s.wAut h).NoNegativeCycle := by
  intro i v a p c q w x y h1 h2 hc h3 h4
  clear h1 h2 h3 h4
  have key : ∀ {u v : Nat} {c : List (Nat × Nat)} {x : T}, (s.wAut h).Path u c v x → 0 ≤ x := by
    clear hc
    intro u v c x hc
    induction hc with
    | nil => exact le_refl 0
    | snoc _ he ih =>
      refine add_nonneg ih ?_
      rw [wAut_edge] at he
      obtain ⟨tr1, tr2, hg⟩ := he
      unfold Aut.getEdge at hg
      rw [Option.map_eq_some_iff] at hg
      obtain ⟨e, h4, h5⟩ := hg
      have := hE.ann e (List.mem_of_find?_eq_some h4)
      rw [h5] at this
      exact hw _ _ ⟨_, _, this⟩
  exact key hc

omit [OrderTop T] [OrderBot T] [LinearOrder T] [IsOrderedAddMonoid T] in
theorem _root_.Verif.WAut.Path.power {M : WAut T} {v : Nat} {c : List (Nat × Nat)} {x : T} (hc : M.Path v c v x) (k : Nat) :
    ∃ c', M.Path v c' v (k • x) := by
  induction k with
  | zero => exact ⟨[], by rw [zero_nsmul]; exact .nil v⟩
  | succ k ih =>
    obtain ⟨c', h⟩ := ih
    exact ⟨_, by rw [succ_nsmul]; exact h.append hc⟩

omit [OrderBot T] [IsOrderedAddMonoid T] in
/-- If the weights of all accepting paths are bounded below by `m`, then there are no negative cycles. -/
theorem FixedEnd.bounded (h : HashOrder) {size : Nat} (hE : FixedEnd size A B s)
    (hBe : ∀ t ∈ keys B.edges, t.label ≠ epsilon) (hw : ∀ t x, pairWts A t x → x ≠ ⊤) (h0 : (0 : T) ≠ ⊤)
    (hadd : ∀ a b : T, a ≠ ⊤ → b ≠ ⊤ → a + b ≠ ⊤) {m : T} (hm : ∀ x ∈ MeetWeights size A B, m ≤ x)
    (harch : ∀ a x b : T, a ≠ ⊤ → b ≠ ⊤ → (∀ k : Nat, m ≤ a + k • x + b) → 0 ≤ x) : (s.wAut h).NoNegativeCycle := by
  intro i v a p c q w x y hi hp hc hq ha
  refine harch w x y (hp.ne_top (hE.ok h hw) h0 hadd) (hq.ne_top (hE.ok h hw) h0 hadd) ?_
  intro k
  obtain ⟨c', hc'⟩ := hc.power k
  apply hm
  rw [← hE.size]
  exact (hE.inv.accepting (h := h) hE.ann hE.complete hBe _).1 ⟨i, _, a, hi, (hp.append hc').append hq, ha⟩

/-- What `find_path_fixed_point` returns if there is no negative cycle. -/
theorem FixedEnd.find (h : HashOrder) {size : Nat} (hE : FixedEnd size A B s)
    (hBe : ∀ t ∈ keys B.edges, t.label ≠ epsilon) (hw : ∀ t x, pairWts A t x → x ≠ ⊤) (h0 : (0 : T) ≠ ⊤)
    (hadd : ∀ a b : T, a ≠ ⊤ → b ≠ ⊤ → a + b ≠ ⊤) (hN : (s.wAut h).NoNegativeCycle) :
    ∃ fuel0 P w, (∀ fuel, fuel0 ≤ fuel → s.findPathFixedPoint h fuel = some (P, w)) ∧
      ((MeetWeights size A B = ∅ ∧ P = APath.null ∧ w = ⊤) ∨
        IsLeast (MeetWeights size A B) w ∧ MeetPath size A B P w) := by
  obtain ⟨fuel1, r, hr⟩ := FP.run_terminates (A := s.wAut h)
  have hOK := hE.ok h hw
  have hF := FP.run_final hOK hN h0 hadd hr
  have hacc := fun x => hE.inv.accepting (h := h) hE.ann hE.complete hBe x
  rw [hE.size] at hacc
  have hmono : ∀ fuel, fuel1 ≤ fuel → FP.run (s.wAut h) fuel (FP.init (s.wAut h)) = some r := by
    intro fuel hle
    unfold FP.run at hr ⊢
    rcases h1 : FP.loop (s.wAut h) false fuel1 (FP.init (s.wAut h)) with _ | s1
    · rw [h1] at hr; cases hr
    · rw [h1] at hr
      have h2 : FP.loop (s.wAut h) false fuel (FP.init (s.wAut h)) = some s1 := Reducer.whileSome_mono hle h1
      rw [h2]
      exact Reducer.whileSome_mono hle hr
  rcases hm : r.minAcc with _ | a
  · refine ⟨fuel1, APath.null, ⊤, ?_, .inl ⟨?_, rfl, rfl⟩⟩
    · intro fuel hle
      unfold findPathFixedPoint
      rw [hmono fuel hle]
      simp only [Option.bind_some]
      unfold fixedPointPath FP.getWeight
      rw [hm]
      rfl
    · refine Set.ext fun x => ⟨fun hx => ?_, fun hx => hx.elim⟩
      obtain ⟨i, p, a, hp⟩ := (hacc x).2 hx
      exact (hF.noneOk hm i p a x hp).elim
  · obtain ⟨i, q, hq, hb⟩ := hF.path hm
    have hw' : r.getWeight = some (r.d a) := by unfold FP.getWeight; rw [hm]; rfl
    obtain ⟨P, _, _, hP1, hP2, hP3⟩ := FP.getPathWithLoop_back (fun q => (s.orig q).1) hm hb (k := q.length + 1) (by omega)
    refine ⟨max fuel1 (q.length + 1), P.map fun q => (s.orig q).1, r.d a, ?_, .inr ⟨⟨?_, ?_⟩, ?_⟩⟩
    · intro fuel hle
      have hle1 : fuel1 ≤ fuel := by omega
      obtain ⟨P', g1, g2, g3, g4, g5⟩ := FP.getPathWithLoop_back (fun q => (s.orig q).1) hm hb (k := fuel) (by omega)
      have hPP : P' = P := by
        rename_i g0 g0'
        have : r.getPath fuel = some P := by
          unfold FP.getPath at g0 ⊢
          rw [hm] at g0 ⊢
          exact FP.pathLoop_mono g0 (by omega)
        rw [this] at g1
        cases g1
        rfl
      subst hPP
      unfold findPathFixedPoint
      rw [hmono fuel hle1]
      simp only [Option.bind_some]
      unfold fixedPointPath
      rw [hw']
      dsimp only
      by_cases hbot : r.d a = ⊥
      · rw [if_pos hbot, g2, hbot]; rfl
      · rw [if_neg hbot, g1]; rfl
    · exact (hacc _).1 ⟨i, q, a, hq⟩
    · intro x hx
      obtain ⟨i', p', a', hp'⟩ := (hacc x).2 hx
      exact hF.least a hm i' p' a' x hp'
    · obtain ⟨hi, hpath, hfin⟩ := hq
      have hi : i < s.size := hi
      have hpath' : (s.wAut h).Path P.frontState (FP.steps P) P.fin (r.d a) := by rw [hP1, hP2, hP3]; exact hpath
      obtain ⟨_, c2, c3⟩ := hE.inv.costPath hE.ann hBe hpath'
      have hfr : (P.map fun q => (s.orig q).1).frontState = i := by
        rw [APath.frontState_map, hP1, orig_lt hi]
      have hf := (hE.inv.acc a (Aut.isAcc_lt hfin)).1 hfin
      refine ⟨by rw [hfr, ← hE.size]; exact hi, ?_, ?_, ?_⟩
      · obtain ⟨fin, es⟩ := P
        exact hE.spells (h := h) fin es _ hpath'
      · show A.isAcc (s.orig P.fin).1 = true
        rw [hP2]; exact hf.1
      · rw [hfr, APath.stack_map]
        rw [hP1, orig_lt hi, hP2] at c2
        have hword : wordOf (FP.steps P) = P.stack.filter fun g => decide (g ≠ epsilon) := by
          unfold wordOf FP.steps
          rw [List.map_fst_zip]
          · congr 1
            funext g
            by_cases hg : g = epsilon <;> simp [hg]
          · rw [APath.stack_eq]
            unfold APath.states
            simp
        rw [hword] at c2
        exact ⟨_, c2.toPath hBe, hf.2⟩

end

/-- The product that is built on the saturated automaton. -/
theorem initProduct_fixed {T : Type} [AddCommMonoid T] (h : HashOrder) {size : Nat} {a A b : Aut (Trace × T)} (ha : size ≤ a.n) (hle : a.n ≤ A.n)
    (hb : size ≤ b.n) (hA : InRange A) (hB : InRange b) (hBe : ∀ t ∈ keys b.edges, t.label ≠ epsilon)
    (hacc : ∀ q, A.isAcc q = a.isAcc q) :
    FixedEnd size A b ((Product.ofAutomata size a b).initProduct h false false A b).1 ∧
      (((Product.ofAutomata size a b).initProduct h false false A b).2 = true ↔ (MeetWeights size A b).Nonempty) := by
  have heq : Product.ofAutomata size a b = Product.ofAutomata size A b := by
    unfold Product.ofAutomata
    congr 2
    apply List.filter_congr
    intro i _
    rw [hacc]
  rw [heq]
  have hpi := Product.ofAutomata_inv (A := A) (B := b) false (Nat.le_trans ha hle) hb
  obtain ⟨j1, j2⟩ := initProduct_spec (et := false) h hA hB hpi
  have hann := initProduct_ann (et := false) h hA hB hBe hpi (by
    intro e he
    obtain ⟨_, h2, _⟩ := Aut.special_spec (W := Trace × T) size
      (sp := (List.range size).filter fun i => A.isAcc i && b.isAcc i) (by exact (List.pairwise_lt_range).filter _) true
    have he : e ∈ (Aut.special (W := Trace × T) size ((List.range size).filter fun i => A.isAcc i && b.isAcc i) true).edges := he
    rw [h2] at he
    simp at he)
  generalize (Product.ofAutomata size A b).initProduct h false false A b = r at *
  have hE : FixedEnd size A b r.1 := ⟨j1.inv, hann, j1.complete (.inl rfl), j2.size⟩
  refine ⟨hE, ?_⟩
  rw [j1.flag, j1.inv.hasAcc]
  constructor
  · rintro ⟨u, h1, h2, h3⟩
    obtain ⟨q, h4, w, h5⟩ := j1.inv.reach u h1
    have key : ∀ {q w u}, Path (· ∈ keys r.1.aut.edges) q w u → ∃ p x, (r.1.wAut h).Path q p u x := by
      intro q w u hp
      induction hp with
      | nil q => exact ⟨[], 0, .nil q⟩
      | cons he _ ih =>
        obtain ⟨p, x, hx⟩ := ih
        have : pairWts r.1.aut _ _ := ⟨_, _, ann_eq he⟩
        exact ⟨_, _, (WAut.Path.single ((wAut_edge (h := h)).2 this)).append hx⟩
    obtain ⟨p, x, hx⟩ := key h5
    refine ⟨x, ?_⟩
    rw [← hE.size]
    exact (hE.inv.accepting (h := h) hE.ann hE.complete hBe x).1 ⟨q, p, u, h4, hx, (j1.inv.acc u h1).2 ⟨h2, h3⟩⟩
  · rintro ⟨x, hx⟩
    rw [← hE.size] at hx
    obtain ⟨i, p, a, h1, h2, h3⟩ := (hE.inv.accepting (h := h) hE.ann hE.complete hBe x).2 hx
    have := Aut.isAcc_lt h3
    exact ⟨a, this, (hE.inv.acc a this).1 h3⟩

end Product

end Verif
