import Verif.Proofs.FixedSearch
import Verif.Proofs.ShortestPostSearch
import Verif.Props.FixedSat
import Verif.Props.FixedLoop

/-!
# C63: the fixed-point search on a solver instance

`postStarFixedPointAccepts`, `preStarFixedPointAccepts` and `interleavingFixedPointAccepts` are the functions of
`Solver` on an instance with the initial automaton `a` and the final automaton `b`; `findPathFixedPoint` is
`find_path_fixed_point()` of the instance afterwards. As in C47 the order of the weights says which are better, so the
theorems cover `Trace_Type::ShortestFixedPoint` and, with the reversed order, `Trace_Type::Longest`.
-/

namespace Verif.Props

variable {W T : Type} [LinearOrder W] [Zero W] [LinearOrder T] [AddCommMonoid T] [IsOrderedAddMonoid T] [OrderBot T]

/-- The weights of the runs of `p` that lead from a configuration accepted by `a` to one accepted by `b`. -/
def FixRuns (p : Pda W) (val : W → T) (a b : Aut (Trace × T)) : Set T :=
  ConnectWeights p.Has val p.size (· ∈ keys a.edges) (fun q => a.isAcc q = true) (· ∈ keys b.edges) (fun q => b.isAcc q = true)

/-- A path of `A` from a control state to an accepting state, with the sum `w` of the weights of its transitions, for
a configuration that `B` accepts; epsilon labels of the path read nothing. -/
structure AcceptedPath (p : Pda W) (A B : Aut (Trace × T)) (P : APath Nat) (w : T) : Prop where
  start : P.frontState < p.size
  spells : CostSpells (fun t x => ∃ tr1 tr2, A.getEdge t = some (tr1, tr2, x)) P.states P.stack w
  acc : A.isAcc P.fin = true
  second : Accepted (· ∈ keys B.edges) (fun q => B.isAcc q = true) (P.frontState, P.stack.filter fun g => decide (g ≠ epsilon))

/-- What is assumed of the weights: `max()` is not the weight of a rule, and sums do not reach it. -/
structure BelowTop [OrderTop T] (p : Pda W) (val : W → T) : Prop where
  rule : ∀ r, p.Has r → val r.weight ≠ ⊤
  zero : (0 : T) ≠ ⊤
  add : ∀ x y : T, x ≠ ⊤ → y ≠ ⊤ → x + y ≠ ⊤

/-- The weights of the set are bounded below, by a bound for which repeating a weight does not become better and better
unless the weight is below zero. -/
def BoundedBelow [OrderTop T] (R : Set T) : Prop :=
  ∃ m : T, (∀ x ∈ R, m ≤ x) ∧ ∀ x y z : T, x ≠ ⊤ → z ≠ ⊤ → (∀ k : Nat, m ≤ x + k • y + z) → 0 ≤ y

/-- What `find_path_fixed_point()` returns on an instance: for no run the null path and `max()`, otherwise the best
weight of a run, with an accepting path of that weight. -/
def FindsBest [OrderTop T] (h : HashOrder) (p : Pda W) (R : Set T) (A B : Aut (Trace × T)) (s : Product (Trace × T)) : Prop :=
  ∃ fuel0 P w, (∀ fuel, fuel0 ≤ fuel → s.findPathFixedPoint h fuel = some (P, w)) ∧
    ((R = ∅ ∧ P = APath.null ∧ w = ⊤) ∨ IsLeast R w ∧ AcceptedPath p A B P w)

/-- What `find_path_fixed_point()` returns on an instance: for no run the null path and `max()`; `bottom()` with an
accepting path if the weights of the runs are not bounded; otherwise the best weight of a run, with an accepting
path of that weight. -/
def FindsAny [OrderTop T] (h : HashOrder) (p : Pda W) (R : Set T) (A B : Aut (Trace × T)) (s : Product (Trace × T)) : Prop :=
  ∃ fuel0 P w, (∀ fuel, fuel0 ≤ fuel → s.findPathFixedPoint h fuel = some (P, w)) ∧
    ((R = ∅ ∧ P = APath.null ∧ w = ⊤) ∨ IsLeast R w ∧ AcceptedPath p A B P w ∨
      w = ⊥ ∧ Pumped R ∧ ∃ w', AcceptedPath p A B P w')

omit [IsOrderedAddMonoid T] [OrderBot T] [LinearOrder W] [Zero W] in
theorem preDer_ne_top [OrderTop T] {R : URule W → Prop} {val : W → T} {E0 : Tr → Prop} (hr : ∀ r, R r → val r.weight ≠ ⊤)
    (h0 : (0 : T) ≠ ⊤) (hadd : ∀ x y : T, x ≠ ⊤ → y ≠ ⊤ → x + y ≠ ⊤) {t : Tr} {x : T} (h : PreDer R val E0 t x) : x ≠ ⊤ := by
  induction h with
  | init _ => exact h0
  | pop hR _ => exact hr _ hR
  | swap hR _ _ ih => exact hadd _ _ (hr _ hR) ih
  | noop hR _ _ ih => exact hadd _ _ (hr _ hR) ih
  | push hR _ _ _ ih1 ih2 => exact hadd _ _ (hadd _ _ (hr _ hR) ih1) ih2

omit [IsOrderedAddMonoid T] [OrderBot T] [LinearOrder W] [Zero W] in
theorem postDer_ne_top [OrderTop T] {R : URule W → Prop} {val : W → T} {qf : Nat × Nat → Nat} {E0 : Tr → Prop}
    (hr : ∀ r, R r → val r.weight ≠ ⊤) (h0 : (0 : T) ≠ ⊤) (hadd : ∀ x y : T, x ≠ ⊤ → y ≠ ⊤ → x + y ≠ ⊤) {t : Tr} {x : T}
    (h : FPostDer R val qf E0 t x) : x ≠ ⊤ := by
  induction h with
  | init _ => exact h0
  | push1 => exact h0
  | pop hR _ _ ih => exact hadd _ _ ih (hr _ hR)
  | swap hR _ _ ih => exact hadd _ _ ih (hr _ hR)
  | noop hR _ _ ih => exact hadd _ _ ih (hr _ hR)
  | push2 hR _ _ ih => exact hadd _ _ ih (hr _ hR)
  | eps _ _ ih1 ih2 => exact hadd _ _ ih2 ih1

/-- The common part: the product of a saturated automaton `A` and an input automaton `b`. -/
theorem fixed_search (h : HashOrder) {p : Pda W} (hl : p.nLabels ≤ epsilon) {a b A : Aut (Trace × T)} (ha : FixAut p a)
    (hb : FixAut p b) (hle : a.n ≤ A.n) (hA : Product.InRange A) (hacc : ∀ q, A.isAcc q = a.isAcc q) {R : Set T}
    (h1 : ∀ x ∈ Product.MeetWeights p.size A b, x ∈ R) (h2 : ∀ x ∈ R, ∃ y ∈ Product.MeetWeights p.size A b, y ≤ x) :
    let r := (Product.ofAutomata p.size a b).initProduct h false false A b
    (r.2 = true ↔ R.Nonempty) ∧ (∀ [OrderTop T], (∀ t x, Product.pairWts A t x → x ≠ ⊤) → (0 : T) ≠ ⊤ →
        (∀ x y : T, x ≠ ⊤ → y ≠ ⊤ → x + y ≠ ⊤) → Bottomed T → FindsAny h p R A b r.1) ∧
      ∀ [OrderTop T], (∀ t x, Product.pairWts A t x → x ≠ ⊤) → (0 : T) ≠ ⊤ → (∀ x y : T, x ≠ ⊤ → y ≠ ⊤ → x + y ≠ ⊤) →
        BoundedBelow R → FindsBest h p R A b r.1 := by
  intro r
  have hBe : ∀ t ∈ keys b.edges, t.label ≠ epsilon := fun t ht => by have := (hb.valid t ht).2.1; omega
  obtain ⟨hE, hans⟩ := Product.initProduct_fixed h ha.size_le hle hb.size_le hA
    (fun t ht => ⟨(hb.valid t ht).1, (hb.valid t ht).2.2⟩) hBe hacc
  refine ⟨?_, ?_, ?_⟩
  · refine Iff.trans hans ?_
    constructor
    · rintro ⟨x, hx⟩; exact ⟨x, h1 x hx⟩
    · rintro ⟨x, hx⟩; obtain ⟨y, hy, _⟩ := h2 x hx; exact ⟨y, hy⟩
  · intro _ hw h0 hadd hB
    by_cases hN : (r.1.wAut h).NoNegativeCycle
    · obtain ⟨fuel0, P, w, h3, h4⟩ := hE.find h hBe hw h0 hadd hN
      refine ⟨fuel0, P, w, h3, ?_⟩
      rcases h4 with ⟨h5, h6, h7⟩ | ⟨h5, h6⟩
      · refine .inl ⟨Set.ext fun x => ⟨fun hx => ?_, fun hx => hx.elim⟩, h6, h7⟩
        obtain ⟨y, hy, _⟩ := h2 x hx
        rw [h5] at hy
        exact hy.elim
      · exact .inr (.inl ⟨(isLeast_iff_of_below h1 h2 w).1 h5, ⟨h6.start, h6.spells, h6.acc, h6.second⟩⟩)
    · obtain ⟨fuel0, P, w, h3, ⟨x, y, z, hx, hz, hy, hk⟩, h6⟩ := hE.find_neg h hBe hw h0 hadd hB hN
      exact ⟨fuel0, P, ⊥, h3, .inr (.inr ⟨rfl, ⟨x, y, z, hx, hz, hy, fun k => h1 _ (hk k)⟩, w,
        ⟨h6.start, h6.spells, h6.acc, h6.second⟩⟩)⟩
  · rintro _ hw h0 hadd ⟨m, hm, harch⟩
    have hN := hE.bounded h hBe hw h0 hadd (fun x hx => hm x (h1 x hx)) harch
    obtain ⟨fuel0, P, w, h3, h4⟩ := hE.find h hBe hw h0 hadd hN
    refine ⟨fuel0, P, w, h3, ?_⟩
    rcases h4 with ⟨h5, h6, h7⟩ | ⟨h5, h6⟩
    · refine .inl ⟨Set.ext fun x => ⟨fun hx => ?_, fun hx => hx.elim⟩, h6, h7⟩
      obtain ⟨y, hy, _⟩ := h2 x hx
      rw [h5] at hy
      exact hy.elim
    · exact .inr ⟨(isLeast_iff_of_below h1 h2 w).1 h5, ⟨h6.start, h6.spells, h6.acc, h6.second⟩⟩

/-- The end of post*, with what the product needs to know about the saturation. -/
theorem post_end (val : W → T) (h : HashOrder) {p : Pda W} (hp : p.WF) (hl : p.nLabels ≤ epsilon)
    {a b : Aut (Trace × T)} (ha : FixAut p a) (hb : FixAut p b) (s : FPost T)
    (hs : FPostL p val a (fpostQ p a) (fpostN p a) s)
    (h1 : ∀ q w, q < p.size → ∀ x ∈ EPathWeights (fixWeights s) (fun q => s.aut.isAcc q = true) (q, w),
      x ∈ RunWeightsFrom p.Has val p.size (· ∈ keys a.edges) (fun q => a.isAcc q = true) (q, w))
    (h2 : ∀ c, ∀ x ∈ RunWeightsFrom p.Has val p.size (· ∈ keys a.edges) (fun q => a.isAcc q = true) c,
      ∃ y ∈ EPathWeights (fixWeights s) (fun q => s.aut.isAcc q = true) c, y ≤ x) :
    ∃ i ans, (Instance.ofAutomata p.size a b).postFixedEnd h s = some (i, ans) ∧ i.final = b ∧
      (ans = true ↔ (FixRuns p val a b).Nonempty) ∧
      (∀ [OrderTop T], BelowTop p val → Bottomed T → FindsAny h p (FixRuns p val a b) i.initial b i.prod) ∧
      ∀ [OrderTop T], BelowTop p val → BoundedBelow (FixRuns p val a b) →
        FindsBest h p (FixRuns p val a b) i.initial b i.prod := by
  have hc := postCtx hp hl ha.toFAutOK ha.noInto
  obtain ⟨g1, g0, g2⟩ := fixed_search h hl ha hb (A := s.aut) (R := FixRuns p val a b) (by rw [hs.states]; exact hc.le)
    (fun t ht => by have := hs.valid t ht; rw [hs.states]; exact ⟨this.1, this.2.2.1⟩) hs.acc
    (by
      rintro x ⟨q, w, hq, hx, hbq⟩
      obtain ⟨c, hc1, hc2, hc3⟩ := h1 q w hq x hx
      exact ⟨c, (q, w), hc1, hc2, hc3, hbq⟩)
    (by
      rintro x ⟨c, c', hc1, hc2, hc3, hc4⟩
      obtain ⟨y, hy, hle⟩ := h2 c' x ⟨c, hc1, hc2, hc3⟩
      exact ⟨y, ⟨c'.1, c'.2, CostRun.lt hp hc3 hc1, hy, hc4⟩, hle⟩)
  refine ⟨{ initial := s.aut, final := b, prod := ((Product.ofAutomata p.size a b).initProduct h false false s.aut b).1 },
    ((Product.ofAutomata p.size a b).initProduct h false false s.aut b).2, ?_, rfl, g1, ?_, ?_⟩
  · unfold Instance.postFixedEnd
    rw [hs.undef]
    rfl
  · intro _ hT hB
    exact g0 (fun t x ⟨tr1, tr2, hg⟩ => postDer_ne_top hT.rule hT.zero hT.add
      (hs.sound t x (by unfold FixSt.wt; rw [hg]; rfl))) hT.zero hT.add hB
  · intro _ hT hB
    exact g2 (fun t x ⟨tr1, tr2, hg⟩ => postDer_ne_top hT.rule hT.zero hT.add
      (hs.sound t x (by unfold FixSt.wt; rw [hg]; rfl))) hT.zero hT.add hB

/-- The end of pre*, with what the product needs to know about the saturation. -/
theorem pre_end (val : W → T) (h : HashOrder) {p : Pda W} (hl : p.nLabels ≤ epsilon)
    {a b : Aut (Trace × T)} (ha : FixAut p a) (hb : FixAut p b) (s : FPre T) (hs : FPreL p val b s)
    (h1 : ∀ q w, q < p.size → ∀ x ∈ PathWeights (fixWeights s) (fun q => s.aut.isAcc q = true) (q, w),
      x ∈ RunWeightsTo p.Has val (· ∈ keys b.edges) (fun q => b.isAcc q = true) (q, w))
    (h2 : ∀ c, ∀ x ∈ RunWeightsTo p.Has val (· ∈ keys b.edges) (fun q => b.isAcc q = true) c,
      ∃ y ∈ PathWeights (fixWeights s) (fun q => s.aut.isAcc q = true) c, y ≤ x) :
    ∃ i ans, (Instance.ofAutomata p.size a b).preFixedEnd h s = some (i, ans) ∧ i.initial = a ∧
      (ans = true ↔ (FixRuns p val a b).Nonempty) ∧
      (∀ [OrderTop T], BelowTop p val → Bottomed T → FindsAny h p (FixRuns p val a b) i.final a i.prod) ∧
      ∀ [OrderTop T], BelowTop p val → BoundedBelow (FixRuns p val a b) →
        FindsBest h p (FixRuns p val a b) i.final a i.prod := by
  have hn : s.aut.n = b.n := by unfold Aut.n; rw [hs.acc]
  have hEp : ∀ t x, fixWeights s t x → t.label ≠ epsilon := by
    rintro t x ⟨tr1, tr2, hg⟩
    have := (hs.valid t (s.wt_some (x := x) (by unfold FixSt.wt; rw [hg]; rfl))).2.1
    omega
  have hsym : Product.ofAutomata p.size a b = Product.ofAutomata p.size b a := by
    unfold Product.ofAutomata
    simp only [Bool.and_comm]
  have down : ∀ {q w x f}, CostEPath (fixWeights s) q w x f → CostPath (fixWeights s) q w x f := by
    intro q w x f hp
    induction hp with
    | nil q => exact .nil q
    | cons _ he _ ih => exact .cons he ih
    | eps he _ _ => exact absurd rfl (hEp _ _ he)
  have up : ∀ {q w x f}, CostPath (fixWeights s) q w x f → CostEPath (fixWeights s) q w x f := by
    intro q w x f hp
    induction hp with
    | nil q => exact .nil q
    | cons he _ ih => exact .cons (hEp _ _ he) he ih
  obtain ⟨g1, g0, g2⟩ := fixed_search h hl hb ha (A := s.aut) (R := FixRuns p val a b) (Nat.le_of_eq hn.symm)
    (fun t ht => by have := hs.valid t ht; rw [hn]; exact ⟨this.1, this.2.2⟩) (fun q => by unfold Aut.isAcc; rw [hs.acc])
    (by
      rintro x ⟨q, w, hq, ⟨f, hx, hf⟩, hbq⟩
      obtain ⟨c, hc1, hc2⟩ := h1 q w hq x ⟨f, down hx, hf⟩
      exact ⟨(q, w), c, hq, hbq, hc1, hc2⟩)
    (by
      rintro x ⟨c, c', hc1, hc2, hc3, hc4⟩
      obtain ⟨y, ⟨f, hy, hf⟩, hle⟩ := h2 c x ⟨c', hc3, hc4⟩
      exact ⟨y, ⟨c.1, c.2, hc1, ⟨f, up hy, hf⟩, hc2⟩, hle⟩)
  rw [← hsym] at g1 g0 g2
  refine ⟨{ initial := a, final := s.aut, prod := ((Product.ofAutomata p.size a b).initProduct h false false s.aut a).1 },
    ((Product.ofAutomata p.size a b).initProduct h false false s.aut a).2, ?_, rfl, g1, ?_, ?_⟩
  · unfold Instance.preFixedEnd
    rw [hs.undef]
    rfl
  · intro _ hT hB
    exact g0 (fun t x ⟨tr1, tr2, hg⟩ => preDer_ne_top hT.rule hT.zero hT.add
      (hs.sound t x (by unfold FixSt.wt; rw [hg]; rfl))) hT.zero hT.add hB
  · intro _ hT hB
    exact g2 (fun t x ⟨tr1, tr2, hg⟩ => preDer_ne_top hT.rule hT.zero hT.add
      (hs.sound t x (by unfold FixSt.wt; rw [hg]; rfl))) hT.zero hT.add hB

/-! ## The theorems -/

/-- C63 for post*: if the first phase of the saturation stopped because nothing changed, then
`post_star_fixed_point_accepts` returns whether a run leads from the initial to the final automaton, and then
`find_path_fixed_point` returns the best weight of such a run, if the weights of the runs are bounded, with an accepting
path of the saturated automaton of that weight; without a run it returns `max()` and the null path. -/
theorem c63_post (val : W → T) (h : HashOrder) {p : Pda W} (hp : p.WF) (hl : p.nLabels ≤ epsilon)
    {a b : Aut (Trace × T)} (ha : FixAut p a) (hb : FixAut p b) (fuel : Nat) (s : FPost T)
    (hs : fixLoop (fpostStepWith val p) false fuel (fpostInit h p a) = some s) (hd : s.done = true) :
    ∃ i ans, Instance.postStarFixedPointAccepts val h p (Instance.ofAutomata p.size a b) fuel = some (i, ans) ∧
      (ans = true ↔ (FixRuns p val a b).Nonempty) ∧
      ∀ [OrderTop T], BelowTop p val → BoundedBelow (FixRuns p val a b) →
        FindsBest h p (FixRuns p val a b) i.initial b i.prod := by
  obtain ⟨i, ans, h1, _, h2, _, h3⟩ := post_end val h hp hl ha hb s
    (fpost_phase val h (postCtx hp hl ha.toFAutOK ha.noInto) hs)
    (fun q w hq => (c47_post_sound val h hp hl ha fuel s hs q w hq).2) (c47_post_complete val h hp hl ha fuel s hs hd)
  refine ⟨i, ans, ?_, h2, h3⟩
  unfold Instance.postStarFixedPointAccepts
  have : postStarFixedPoint val h p (Instance.ofAutomata p.size a b).initial fuel = some { s with rounds := 0 } :=
    fixRun_of_done _ hs hd
  rw [this]
  exact h1

/-- C63 for pre*, with the proviso that the pre* rule lookup meets every rule (see C24). -/
theorem c63_pre_partial (val : W → T) (h : HashOrder) {p : Pda W} (hp : p.WF) (hk : p.LookupOK) (hl : p.nLabels ≤ epsilon)
    {a b : Aut (Trace × T)} (ha : FixAut p a) (hb : FixAut p b) (fuel : Nat) (s : FPre T)
    (hs : fixLoop (fpreStepWith val p) false fuel (fpreInit val h p b) = some s) (hd : s.done = true) :
    ∃ i ans, Instance.preStarFixedPointAccepts val h p (Instance.ofAutomata p.size a b) fuel = some (i, ans) ∧
      (ans = true ↔ (FixRuns p val a b).Nonempty) ∧
      ∀ [OrderTop T], BelowTop p val → BoundedBelow (FixRuns p val a b) →
        FindsBest h p (FixRuns p val a b) i.final a i.prod := by
  obtain ⟨i, ans, h1, _, h2, _, h3⟩ := pre_end val h hl ha hb s (fpre_phase val h hp hb.toFAutOK hs)
    (fun q w hq => (c47_pre_sound val h hp hb fuel s hs q w hq).2) (c47_pre_complete val h hp hk hb fuel s hs hd)
  refine ⟨i, ans, ?_, h2, h3⟩
  unfold Instance.preStarFixedPointAccepts
  have : preStarFixedPoint val h p (Instance.ofAutomata p.size a b).final fuel = some { s with rounds := 0 } :=
    fixRun_of_done _ hs hd
  rw [this]
  exact h1

theorem interleave_inv (val : W → T) (h : HashOrder) {p : Pda W} (hp : p.WF) (hl : p.nLabels ≤ epsilon)
    {a b : Aut (Trace × T)} (ha : FixAut p a) (hb : FixAut p b) {fuel : Nat} {x : FPre T × FPost T}
    (hs : whileSome (Instance.interleaveStep val p) fuel (fpreInit val h p b, fpostInit h p a) = some x) :
    (FPreL p val b x.1 ∧ FPostL p val a (fpostQ p a) (fpostN p a) x.2) ∧ (x.1.isDone || x.2.isDone) = true := by
  have hc := postCtx hp hl ha.toFAutOK ha.noInto
  obtain ⟨h1, h2⟩ := whileSome_inv
    (I := fun x : FPre T × FPost T => FPreL p val b x.1 ∧ FPostL p val a (fpostQ p a) (fpostN p a) x.2) (by
      rintro s s' ⟨g1, g2⟩ hst
      unfold Instance.interleaveStep at hst
      split at hst
      · cases hst
      · rename_i hd
        cases hst
        rw [Bool.or_eq_true, not_or] at hd
        exact ⟨g1.step hp hb.toFAutOK (by simpa using hd.1), g2.step hc (by simpa using hd.2)⟩)
    (show _ from ⟨(fpreInit_inv h hp hb.toFAutOK).1, (fpostInit_inv h hc).1⟩) hs
  refine ⟨h1, ?_⟩
  unfold Instance.interleaveStep at h2
  split at h2
  · rename_i hd; exact hd
  · cases h2

omit [Zero W] [LinearOrder W] [IsOrderedAddMonoid T] [AddCommMonoid T] in
theorem fixFinalize_of_done {X : Type} (stepWith : Bool → FixSt T X → Tr → FixSt T X) (fuel : Nat) {s : FixSt T X}
    (hd : s.done = true) : fixFinalize stepWith fuel s = some { s with rounds := 0 } := by
  unfold fixFinalize fixLoop
  have : (if ({ s with rounds := 0 } : FixSt T X).isDone = true then none
      else some (fixStep stepWith true { s with rounds := 0 })) = none := by
    rw [if_pos]
    unfold FixSt.isDone
    simp [hd]
  cases fuel <;> rw [whileSome] <;> rw [this]

/-- C63 for the interleaved search, with the proviso of C24 for pre*: the two saturations take turns until one of them
has stopped; if it stopped because nothing changed, then `interleaving_fixed_point_accepts` returns whether a run leads
from the initial to the final automaton, and `find_path_fixed_point` on the instance it has used is as after pre* or
after post*. -/
theorem c63_interleaving_partial (val : W → T) (h : HashOrder) {p : Pda W} (hp : p.WF) (hk : p.LookupOK)
    (hl : p.nLabels ≤ epsilon) {a b : Aut (Trace × T)} (ha : FixAut p a) (hb : FixAut p b) (fuel : Nat)
    (x : FPre T × FPost T)
    (hs : whileSome (Instance.interleaveStep val p) fuel (fpreInit val h p b, fpostInit h p a) = some x)
    (hd1 : x.1.isDone = true → x.1.done = true) (hd2 : x.1.isDone = false → x.2.done = true) :
    ∃ i ans byPre, Instance.interleavingFixedPointAccepts val h p (Instance.ofAutomata p.size a b)
        (Instance.ofAutomata p.size a b) fuel = some ((i, ans), byPre) ∧
      (ans = true ↔ (FixRuns p val a b).Nonempty) ∧
      ∀ [OrderTop T], BelowTop p val → BoundedBelow (FixRuns p val a b) →
        if byPre then i.initial = a ∧ FindsBest h p (FixRuns p val a b) i.final a i.prod
        else i.final = b ∧ FindsBest h p (FixRuns p val a b) i.initial b i.prod := by
  have hc := postCtx hp hl ha.toFAutOK ha.noInto
  obtain ⟨⟨g1, g2⟩, _⟩ := interleave_inv val h hp hl ha hb hs
  rcases hx : x.1.isDone with _ | _
  · have hd := hd2 hx
    obtain ⟨e1, e2⟩ := g2.fin hd
    obtain ⟨i, ans, h1, h4, h2, _, h3⟩ := post_end val h hp hl ha hb x.2 g2 (fpostL_sound ha hc g2) (fpostL_complete ha hc g2 e1 e2)
    refine ⟨i, ans, false, ?_, h2, fun hT hB => ?_⟩
    · unfold Instance.interleavingFixedPointAccepts
      have hs' : whileSome (Instance.interleaveStep val p) fuel
        (fpreInit val h p (Instance.ofAutomata p.size a b).final, fpostInit h p (Instance.ofAutomata p.size a b).initial) = some x := hs
      rw [hs']
      simp only [Option.bind_some, hx, Bool.false_eq_true, if_false]
      rw [fixFinalize_of_done _ _ hd]
      have : (Instance.ofAutomata p.size a b).postFixedEnd h { x.2 with rounds := 0 } = some (i, ans) := h1
      simp only [Option.bind_some, this, Option.map_some]
    · rw [if_neg (by decide)]
      exact ⟨h4, h3 hT hB⟩
  · have hd := hd1 hx
    obtain ⟨e1, e2⟩ := g1.fin hd
    obtain ⟨i, ans, h1, h4, h2, _, h3⟩ := pre_end val h hl ha hb x.1 g1 (fpreL_sound hp hb g1) (fpreL_complete hp hk g1 e1 e2)
    refine ⟨i, ans, true, ?_, h2, fun hT hB => ?_⟩
    · unfold Instance.interleavingFixedPointAccepts
      have hs' : whileSome (Instance.interleaveStep val p) fuel
        (fpreInit val h p (Instance.ofAutomata p.size a b).final, fpostInit h p (Instance.ofAutomata p.size a b).initial) = some x := hs
      rw [hs']
      simp only [Option.bind_some, hx, if_true]
      rw [fixFinalize_of_done _ _ hd]
      have : (Instance.ofAutomata p.size a b).preFixedEnd h { x.1 with rounds := 0 } = some (i, ans) := h1
      simp only [Option.bind_some, this, Option.map_some]
    · rw [if_pos rfl]
      exact ⟨h4, h3 hT hB⟩

/-- C63 for post* with `Trace_Type::Longest`: the weights are compared the other way round, `max()` is the least
element and `bottom()` the greatest; the weight that is returned is the greatest weight of a run. -/
theorem c63_post_longest [OrderTop T] (val : W → T) (h : HashOrder) {p : Pda W} (hp : p.WF) (hl : p.nLabels ≤ epsilon)
    {a b : Aut (Trace × Tᵒᵈ)} (ha : FixAut p a) (hb : FixAut p b) (fuel : Nat) (s : FPost Tᵒᵈ)
    (hs : fixLoop (fpostStepWith (T := Tᵒᵈ) val p) false fuel (fpostInit h p a) = some s) (hd : s.done = true)
    (hT : BelowTop (T := Tᵒᵈ) p val) (hB : BoundedBelow (T := Tᵒᵈ) (FixRuns (T := Tᵒᵈ) p val a b)) :
    ∃ i ans, Instance.postStarFixedPointAccepts (T := Tᵒᵈ) val h p (Instance.ofAutomata p.size a b) fuel = some (i, ans) ∧
      (ans = true ↔ (FixRuns (T := T) p val a b).Nonempty) ∧
      ∃ (fuel0 : Nat) (P : APath Nat) (w : T),
        (∀ fuel, fuel0 ≤ fuel → i.prod.findPathFixedPoint (T := Tᵒᵈ) h fuel = some (P, w)) ∧
        ((FixRuns (T := T) p val a b = ∅ ∧ P = APath.null ∧ w = ⊥) ∨
          IsGreatest (FixRuns (T := T) p val a b) w ∧ AcceptedPath (T := T) p i.initial b P w) := by
  obtain ⟨i, ans, h1, h2, h3⟩ := c63_post (T := Tᵒᵈ) val h hp hl ha hb fuel s hs hd
  exact ⟨i, ans, h1, h2, h3 hT hB⟩

/-! ## Non-vacuity -/

/-- Integers are as `BoundedBelow` requires. -/
theorem boundedBelow_int (m : ℤ) (R : Set ExWeight) (h : ∀ x ∈ R, exVal m ≤ x) : BoundedBelow R := by
  refine ⟨exVal m, h, ?_⟩
  have hbot : ∀ z : ExWeight, z ≠ ⊤ → (((⊥ : WithBot ℤ) : ExWeight) + z) = ((⊥ : WithBot ℤ) : ExWeight) := by
    intro z hz
    induction z using WithTop.recTopCoe with
    | top => exact absurd rfl hz
    | coe z => exact congrArg (WithTop.some) (WithBot.bot_add z)
  have hnb : ¬ exVal m ≤ ((⊥ : WithBot ℤ) : ExWeight) := by
    unfold exVal
    rw [WithTop.coe_le_coe]
    exact not_le_of_gt (WithBot.bot_lt_coe m)
  intro x y z hx hz hk
  induction y using WithTop.recTopCoe with
  | top => exact le_top
  | coe y =>
    induction y using WithBot.recBotCoe with
    | bot =>
      exfalso
      have := hk 1
      rw [one_nsmul, add_comm x, hbot x hx, hbot z hz] at this
      exact hnb this
    | coe y =>
      induction x using WithTop.recTopCoe with
      | top => exact absurd rfl hx
      | coe x =>
        induction z using WithTop.recTopCoe with
        | top => exact absurd rfl hz
        | coe z =>
          have hsm : ∀ k : Nat, k • (((y : ℤ) : WithBot ℤ) : ExWeight) = exVal (k * y) := by
            intro k
            induction k with
            | zero => rw [zero_nsmul]; simp [exVal]
            | succ k ih =>
              rw [succ_nsmul, ih]
              show exVal (k * y + y) = _
              congr 1
              rw [Int.natCast_add, Int.add_mul]
              simp
          induction x using WithBot.recBotCoe with
          | bot =>
            have := hk 0
            rw [zero_nsmul, add_zero] at this
            exact absurd ((hbot _ hz) ▸ this) hnb
          | coe x =>
            induction z using WithBot.recBotCoe with
            | bot =>
              have := hk 0
              rw [add_comm] at this
              have h2 : ((x : ℤ) : ExWeight) + 0 • (((y : ℤ) : WithBot ℤ) : ExWeight) ≠ ⊤ := by
                rw [zero_nsmul, add_zero]; exact WithTop.coe_ne_top
              exact absurd ((hbot _ h2) ▸ this) hnb
            | coe z =>
              show exVal 0 ≤ exVal y
              have key : ∀ k : Nat, m ≤ x + k * y + z := by
                intro k
                have := hk k
                rw [hsm] at this
                have : exVal m ≤ exVal (x + k * y + z) := this
                unfold exVal at this
                rwa [WithTop.coe_le_coe, WithBot.coe_le_coe] at this
              unfold exVal
              rw [WithTop.coe_le_coe, WithBot.coe_le_coe]
              by_contra hn
              have h1 := key (x + z - m + 1).toNat
              have h2 := key 0
              simp only [Int.ofNat_zero, Int.zero_mul, Int.add_zero, Nat.cast_zero] at h2
              have h3 : ((x + z - m + 1).toNat : ℤ) = x + z - m + 1 := Int.toNat_of_nonneg (by omega)
              rw [h3] at h1
              have h4 : (x + z - m + 1) * y ≤ (x + z - m + 1) * (-1) := Int.mul_le_mul_of_nonneg_left (by omega) (by omega)
              omega

/-- Accepts ⟨1, 1⟩. -/
def fixFinal : Aut (Trace × ExWeight) := { acc := [false, false, true], edges := [(⟨1, 1, 2⟩, {}, {}, 0)] }

/-- The weights of the runs of the PDA of C47 are at least -1 although a rule has a negative weight. -/
theorem fixRuns_bounded (a b : Aut (Trace × ExWeight)) : BoundedBelow (FixRuns (Pda.build 2 fixCalls) exVal a b) := by
  have hOK : ∀ c ∈ fixCalls, c.OK 2 := by simp [fixCalls, PdaCall.OK, WSorted]
  have key : ∀ {c x c'}, CostRun (Pda.build 2 fixCalls).Has exVal c x c' →
      ∃ z : ℤ, x = exVal z ∧ (c.1 = 0 → 0 ≤ z) ∧ -1 ≤ z := by
    intro c x c' hr
    induction hr with
    | nil c => exact ⟨0, rfl, fun _ => le_refl 0, by decide⟩
    | cons r w x c hr _ ih =>
      obtain ⟨z, rfl, h1, h2⟩ := ih
      refine ⟨r.weight + z, rfl, ?_⟩
      have hcase : (r.src = 0 ∧ 2 ≤ r.weight) ∨ (r.src = 1 ∧ r.dst = 0 ∧ -1 ≤ r.weight) := by
        obtain ⟨c, hm, hadd⟩ := (c23_rules 2 fixCalls hOK r).1 hr
        simp only [fixCalls, List.mem_cons, List.not_mem_nil, or_false] at hm
        rcases hm with rfl | rfl | rfl | rfl <;> simp only [Adds] at hadd <;> obtain ⟨g1, g2, _, _, g3, _⟩ := hadd <;>
          rw [g1, g2, g3] <;> decide
      rcases hcase with ⟨h3, h4⟩ | ⟨h3, h4, h5⟩
      · exact ⟨fun _ => by omega, by omega⟩
      · have := h1 h4
        exact ⟨fun h6 => by dsimp only at h6; omega, by omega⟩
  refine boundedBelow_int (-1) _ ?_
  rintro x ⟨c, c', _, _, hr, _⟩
  obtain ⟨z, rfl, _, h⟩ := key hr
  unfold exVal
  rw [WithTop.coe_le_coe, WithBot.coe_le_coe]
  exact h

theorem exWeight_belowTop (p : Pda ℤ) : BelowTop p exVal :=
  ⟨fun _ _ => WithTop.coe_ne_top, WithTop.coe_ne_top, fun x y hx hy => by
    induction x using WithTop.recTopCoe with
    | top => exact absurd rfl hx
    | coe x =>
      induction y using WithTop.recTopCoe with
      | top => exact absurd rfl hy
      | coe y => exact WithTop.coe_ne_top⟩

/-- Non-vacuity of C63: all hypotheses hold for the PDA of C47, which has a rule of negative weight, and the automata
for ⟨0, 0 1⟩ and ⟨1, 1⟩; the three searches answer yes and find the weight 2. -/
example : (Pda.build 2 fixCalls).WF ∧ (Pda.build 2 fixCalls).LookupOK ∧ (Pda.build 2 fixCalls).nLabels ≤ epsilon ∧
    FixAut (Pda.build 2 fixCalls) fixInput ∧ FixAut (Pda.build 2 fixCalls) fixFinal ∧
    BelowTop (Pda.build 2 fixCalls) exVal ∧ BoundedBelow (FixRuns (Pda.build 2 fixCalls) exVal fixInput fixFinal) ∧
    (fixLoop (fpreStepWith exVal (Pda.build 2 fixCalls)) false 100
      (fpreInit exVal HashOrder.id (Pda.build 2 fixCalls) fixFinal)).map (·.done) = some true ∧
    (whileSome (Instance.interleaveStep exVal (Pda.build 2 fixCalls)) 100
      (fpreInit exVal HashOrder.id (Pda.build 2 fixCalls) fixFinal, fpostInit HashOrder.id (Pda.build 2 fixCalls) fixInput)).map
        (fun x => (x.1.isDone, x.1.done)) = some (true, true) ∧
    ((Instance.postStarFixedPointAccepts exVal HashOrder.id (Pda.build 2 fixCalls)
        (Instance.ofAutomata (Pda.build 2 fixCalls).size fixInput fixFinal) 100).bind fun r =>
      (r.1.prod.findPathFixedPoint HashOrder.id 100).map fun x => (r.2, x.1.states, x.1.stack, decide (x.2 = exVal 2))) =
        some (true, [1, 3], [1], true) ∧
    ((Instance.preStarFixedPointAccepts exVal HashOrder.id (Pda.build 2 fixCalls)
        (Instance.ofAutomata (Pda.build 2 fixCalls).size fixInput fixFinal) 100).bind fun r =>
      (r.1.prod.findPathFixedPoint HashOrder.id 100).map fun x => (r.2, x.1.states, x.1.stack, decide (x.2 = exVal 2))) =
        some (true, [0, 1, 2], [0, 1], true) ∧
    ((Instance.interleavingFixedPointAccepts exVal HashOrder.id (Pda.build 2 fixCalls)
        (Instance.ofAutomata (Pda.build 2 fixCalls).size fixInput fixFinal)
        (Instance.ofAutomata (Pda.build 2 fixCalls).size fixInput fixFinal) 100).bind fun r =>
      (r.1.1.prod.findPathFixedPoint HashOrder.id 100).map fun x => (r.1.2, r.2, decide (x.2 = exVal 2))) =
        some (true, true, true) := by
  have hOK : ∀ c ∈ fixCalls, c.OK 2 := by simp [fixCalls, PdaCall.OK, WSorted]
  have hsize : (Pda.build 2 fixCalls).size = 2 := by decide +kernel
  have hlab : (Pda.build 2 fixCalls).nLabels = 2 := by decide +kernel
  refine ⟨Pda.WF_build 2 _ hOK, lookupOK_build 2 _ hOK ?_, by decide +kernel, fixAut_example _ hlab hsize,
    ⟨⟨by rw [hsize]; decide, ?_, by simp [keys, fixFinal], by simp [fixFinal]⟩, ?_⟩, exWeight_belowTop _, fixRuns_bounded _ _,
    by decide +kernel, by decide +kernel, by decide +kernel, by decide +kernel, by decide +kernel⟩
  · intro src r wc pre hm h1 h2
    simp only [fixCalls, List.mem_cons, List.not_mem_nil, or_false, PdaCall.rule.injEq] at hm
    rcases hm with ⟨_, rfl, _⟩ | ⟨_, rfl, _⟩ | ⟨_, rfl, _⟩ | ⟨_, rfl, _⟩ <;> simp_all
  · intro t ht
    simp only [keys, fixFinal, List.map_cons, List.map_nil, List.mem_cons, List.not_mem_nil, or_false] at ht
    subst ht
    simp [Valid, Aut.n, hlab, fixFinal]
  · intro t ht
    simp only [keys, fixFinal, List.map_cons, List.map_nil, List.mem_cons, List.not_mem_nil, or_false] at ht
    subst ht
    simp [hsize]

end Verif.Props
