import Verif.Proofs.FixedNoPump
import Verif.Props.FixedRun
import Verif.Props.FixedAny

/-!
# C47 and C63 for weights that cannot be improved again and again

Here nothing is assumed about what the saturation has done or returns: if the weights of the runs cannot be improved
again and again, then both phases end, nothing undefined happens and all weights are right, also if the first phase ends
because of its limit on the number of rounds.
-/

namespace Verif.Props

variable {W T : Type} [LinearOrder W] [Zero W] [LinearOrder T] [AddCommMonoid T] [IsOrderedAddMonoid T] [OrderBot T]

omit [AddCommMonoid T] [IsOrderedAddMonoid T] in
theorem fixRun_more {X : Type} {stepWith : Bool → FixSt T X → Tr → FixSt T X} {fuel fuel' : Nat} (hf : fuel ≤ fuel')
    {s r : FixSt T X} (h : fixRun stepWith fuel s = some r) : fixRun stepWith fuel' s = some r := by
  unfold fixRun at h ⊢
  rw [Option.bind_eq_some_iff] at h ⊢
  obtain ⟨s1, h1, h2⟩ := h
  exact ⟨s1, Reducer.whileSome_mono hf h1, Reducer.whileSome_mono hf h2⟩

theorem pre_bounded_end (val : W → T) (h : HashOrder) {p : Pda W} (hp : p.WF) {a : Aut (Trace × T)} (ha : FixAut p a)
    (hU : UnpumpedTo p.Has val p.size (· ∈ keys a.edges)) :
    ∃ fuel0 r, (∀ fuel, fuel0 ≤ fuel → preStarFixedPoint val h p a fuel = some r) ∧ FPreL p val a r ∧
      r.workset = [] ∧ r.next = [] := by
  obtain ⟨fuel0, r, hr⟩ := fpre_terminates val hp ha.toFAutOK h
  exact ⟨fuel0, r, fun fuel hf => fixRun_more hf hr,
    preStarFixedPoint_nopump hp ha.toFAutOK ha.noInto (noPump_pre (Has_lt hp) ha.noInto hU) h hr⟩

omit [Zero W] in
theorem post_bounded_end (val : W → T) (h : HashOrder) {p : Pda W} (hp : p.WF) (hl : p.nLabels ≤ epsilon) {a : Aut (Trace × T)}
    (ha : FixAut p a) (hU : UnpumpedFrom p.Has val p.size (· ∈ keys a.edges)) :
    ∃ fuel0 r, (∀ fuel, fuel0 ≤ fuel → postStarFixedPoint val h p a fuel = some r) ∧
      FPostL p val a (fpostQ p a) (fpostN p a) r ∧ r.workset = [] ∧ r.next = [] := by
  have hc := postCtx hp hl ha.toFAutOK ha.noInto
  obtain ⟨fuel0, r, hr⟩ := fpost_terminates h val hc
  exact ⟨fuel0, r, fun fuel hf => fixRun_more hf hr, postStarFixedPoint_nopump hc (noPump_post hc hU) h hr⟩

/-- C47 for pre*, with the proviso that the pre* rule lookup meets every rule (see C24): if no weight can be improved
again and again, `pre_star_fixed_point` ends, nothing undefined happens, and for every configuration the best weight of an
accepting path is the best weight over all runs to the input language; there is one whenever there is a run. -/
theorem c47_pre_bounded_partial (val : W → T) (h : HashOrder) {p : Pda W} (hp : p.WF) (hk : p.LookupOK)
    {a : Aut (Trace × T)} (ha : FixAut p a) (hU : UnpumpedTo p.Has val p.size (· ∈ keys a.edges)) :
    ∃ fuel0 r, (∀ fuel, fuel0 ≤ fuel → preStarFixedPoint val h p a fuel = some r) ∧ r.undef = false ∧
      ∀ q w, q < p.size →
        (∀ m, IsLeast (PathWeights (fixWeights r) (fun q => r.aut.isAcc q = true) (q, w)) m ↔
          IsLeast (RunWeightsTo p.Has val (· ∈ keys a.edges) (fun q => a.isAcc q = true) (q, w)) m) ∧
        ((∃ x, x ∈ RunWeightsTo p.Has val (· ∈ keys a.edges) (fun q => a.isAcc q = true) (q, w)) →
          ∃ m, IsLeast (PathWeights (fixWeights r) (fun q => r.aut.isAcc q = true) (q, w)) m) := by
  obtain ⟨fuel0, r, hr, hi, h1, h2⟩ := pre_bounded_end val h hp ha hU
  refine ⟨fuel0, r, hr, hi.undef, fun q w hq => ⟨?_, ?_⟩⟩
  · exact isLeast_iff_of_below (fpreL_sound hp ha hi q w hq) (fpreL_complete hp hk hi h1 h2 (q, w))
  · rintro ⟨x, hx⟩
    obtain ⟨y, hy, _⟩ := fpreL_complete hp hk hi h1 h2 (q, w) x hx
    obtain ⟨l, hl⟩ := costPath_list _ (fixWeights_list r) w q
    exact exists_isLeast_of_list _ l (fun x ⟨f, hf, _⟩ => hl x f hf) ⟨y, hy⟩

omit [Zero W] in
/-- C47 for post*: if no weight can be improved again and again, `post_star_fixed_point` ends, nothing undefined happens,
and for every configuration the best weight of an accepting path, in which epsilon transitions read nothing, is the best
weight over all runs from the input language; there is one whenever there is a run. -/
theorem c47_post_bounded (val : W → T) (h : HashOrder) {p : Pda W} (hp : p.WF) (hl : p.nLabels ≤ epsilon)
    {a : Aut (Trace × T)} (ha : FixAut p a) (hU : UnpumpedFrom p.Has val p.size (· ∈ keys a.edges)) :
    ∃ fuel0 r, (∀ fuel, fuel0 ≤ fuel → postStarFixedPoint val h p a fuel = some r) ∧ r.undef = false ∧
      ∀ q w, q < p.size →
        (∀ m, IsLeast (EPathWeights (fixWeights r) (fun q => r.aut.isAcc q = true) (q, w)) m ↔
          IsLeast (RunWeightsFrom p.Has val p.size (· ∈ keys a.edges) (fun q => a.isAcc q = true) (q, w)) m) ∧
        ((∃ x, x ∈ RunWeightsFrom p.Has val p.size (· ∈ keys a.edges) (fun q => a.isAcc q = true) (q, w)) →
          ∃ m, IsLeast (EPathWeights (fixWeights r) (fun q => r.aut.isAcc q = true) (q, w)) m) := by
  have hc := postCtx hp hl ha.toFAutOK ha.noInto
  obtain ⟨fuel0, r, hr, hi, h1, h2⟩ := post_bounded_end val h hp hl ha hU
  have hcl := hi.closed hc h1 h2
  refine ⟨fuel0, r, hr, hi.undef, fun q w hq => ⟨?_, ?_⟩⟩
  · exact isLeast_iff_of_below (fpostL_sound ha hc hi q w hq) (fpostL_complete ha hc hi h1 h2 (q, w))
  · rintro ⟨x, hx⟩
    obtain ⟨y, hy, _⟩ := fpostL_complete ha hc hi h1 h2 (q, w) x hx
    obtain ⟨l, hl⟩ := costEPath_list _ (fixWeights_list r) (fun f m q x y hx hy => by
      rw [fixWeights_iff] at hx hy
      have h3 := hcl.into _ _ hx
      have h4 := hcl.eps _ _ hy rfl
      dsimp only at h3 h4
      omega) w q
    exact exists_isLeast_of_list _ l (fun x ⟨f, hf, _⟩ => hl x f hf) ⟨y, hy⟩

/-- C47 for pre* with `Trace_Type::Longest`. -/
theorem c47_pre_bounded_longest_partial [OrderTop T] (val : W → T) (h : HashOrder) {p : Pda W} (hp : p.WF) (hk : p.LookupOK)
    {a : Aut (Trace × Tᵒᵈ)} (ha : FixAut p a) (hU : UnpumpedTo (T := Tᵒᵈ) p.Has val p.size (· ∈ keys a.edges)) :
    ∃ fuel0 r, (∀ fuel, fuel0 ≤ fuel → preStarFixedPoint (T := Tᵒᵈ) val h p a fuel = some r) ∧ r.undef = false ∧
      ∀ q w, q < p.size →
        (∀ m, IsGreatest (PathWeights (T := T) (fixWeights r) (fun q => r.aut.isAcc q = true) (q, w)) m ↔
          IsGreatest (RunWeightsTo (T := T) p.Has val (· ∈ keys a.edges) (fun q => a.isAcc q = true) (q, w)) m) ∧
        ((∃ x, x ∈ RunWeightsTo (T := T) p.Has val (· ∈ keys a.edges) (fun q => a.isAcc q = true) (q, w)) →
          ∃ m, IsGreatest (PathWeights (T := T) (fixWeights r) (fun q => r.aut.isAcc q = true) (q, w)) m) :=
  c47_pre_bounded_partial (T := Tᵒᵈ) val h hp hk ha hU

/-- C47 for post* with `Trace_Type::Longest`. -/
theorem c47_post_bounded_longest [OrderTop T] (val : W → T) (h : HashOrder) {p : Pda W} (hp : p.WF) (hl : p.nLabels ≤ epsilon)
    {a : Aut (Trace × Tᵒᵈ)} (ha : FixAut p a) (hU : UnpumpedFrom (T := Tᵒᵈ) p.Has val p.size (· ∈ keys a.edges)) :
    ∃ fuel0 r, (∀ fuel, fuel0 ≤ fuel → postStarFixedPoint (T := Tᵒᵈ) val h p a fuel = some r) ∧ r.undef = false ∧
      ∀ q w, q < p.size →
        (∀ m, IsGreatest (EPathWeights (T := T) (fixWeights r) (fun q => r.aut.isAcc q = true) (q, w)) m ↔
          IsGreatest (RunWeightsFrom (T := T) p.Has val p.size (· ∈ keys a.edges) (fun q => a.isAcc q = true) (q, w)) m) ∧
        ((∃ x, x ∈ RunWeightsFrom (T := T) p.Has val p.size (· ∈ keys a.edges) (fun q => a.isAcc q = true) (q, w)) →
          ∃ m, IsGreatest (EPathWeights (T := T) (fixWeights r) (fun q => r.aut.isAcc q = true) (q, w)) m) :=
  c47_post_bounded (T := Tᵒᵈ) val h hp hl ha hU

/-! ## C63 -/

/-- C63 for post*: if no weight can be improved again and again, `post_star_fixed_point_accepts` returns whether a run
leads from the initial to the final automaton, and then `find_path_fixed_point` returns the best weight of such a run, if
the weights of the runs are bounded, with an accepting path of that weight; without a run it returns `max()` and the null
path. -/
theorem c63_post_bounded (val : W → T) (h : HashOrder) {p : Pda W} (hp : p.WF) (hl : p.nLabels ≤ epsilon)
    {a b : Aut (Trace × T)} (ha : FixAut p a) (hb : FixAut p b) (hU : UnpumpedFrom p.Has val p.size (· ∈ keys a.edges)) :
    ∃ fuel0 i ans, (∀ fuel, fuel0 ≤ fuel →
        Instance.postStarFixedPointAccepts val h p (Instance.ofAutomata p.size a b) fuel = some (i, ans)) ∧
      (ans = true ↔ (FixRuns p val a b).Nonempty) ∧
      ∀ [OrderTop T], BelowTop p val → BoundedBelow (FixRuns p val a b) →
        FindsBest h p (FixRuns p val a b) i.initial b i.prod := by
  have hc := postCtx hp hl ha.toFAutOK ha.noInto
  obtain ⟨fuel0, r, hr, hi, h1, h2⟩ := post_bounded_end val h hp hl ha hU
  obtain ⟨i, ans, g1, _, g3, _, g4⟩ := post_end val h hp hl ha hb r hi (fpostL_sound ha hc hi) (fpostL_complete ha hc hi h1 h2)
  refine ⟨fuel0, i, ans, fun fuel hf => ?_, g3, g4⟩
  unfold Instance.postStarFixedPointAccepts
  rw [show postStarFixedPoint val h p (Instance.ofAutomata p.size a b).initial fuel = some r from hr fuel hf]
  exact g1

/-- C63 for pre*, with the proviso that the pre* rule lookup meets every rule (see C24). -/
theorem c63_pre_bounded_partial (val : W → T) (h : HashOrder) {p : Pda W} (hp : p.WF) (hk : p.LookupOK)
    (hl : p.nLabels ≤ epsilon) {a b : Aut (Trace × T)} (ha : FixAut p a) (hb : FixAut p b)
    (hU : UnpumpedTo p.Has val p.size (· ∈ keys b.edges)) :
    ∃ fuel0 i ans, (∀ fuel, fuel0 ≤ fuel →
        Instance.preStarFixedPointAccepts val h p (Instance.ofAutomata p.size a b) fuel = some (i, ans)) ∧
      (ans = true ↔ (FixRuns p val a b).Nonempty) ∧
      ∀ [OrderTop T], BelowTop p val → BoundedBelow (FixRuns p val a b) →
        FindsBest h p (FixRuns p val a b) i.final a i.prod := by
  obtain ⟨fuel0, r, hr, hi, h1, h2⟩ := pre_bounded_end val h hp hb hU
  obtain ⟨i, ans, g1, _, g3, _, g4⟩ := pre_end val h hl ha hb r hi (fpreL_sound hp hb hi) (fpreL_complete hp hk hi h1 h2)
  refine ⟨fuel0, i, ans, fun fuel hf => ?_, g3, g4⟩
  unfold Instance.preStarFixedPointAccepts
  rw [show preStarFixedPoint val h p (Instance.ofAutomata p.size a b).final fuel = some r from hr fuel hf]
  exact g1

/-- C63 for the interleaved search, with the proviso of C24 for pre*. -/
theorem c63_interleaving_bounded_partial (val : W → T) (h : HashOrder) {p : Pda W} (hp : p.WF) (hk : p.LookupOK)
    (hl : p.nLabels ≤ epsilon) {a b : Aut (Trace × T)} (ha : FixAut p a) (hb : FixAut p b)
    (hUa : UnpumpedFrom p.Has val p.size (· ∈ keys a.edges)) (hUb : UnpumpedTo p.Has val p.size (· ∈ keys b.edges)) :
    ∃ fuel0 i ans byPre, (∀ fuel, fuel0 ≤ fuel → Instance.interleavingFixedPointAccepts val h p
        (Instance.ofAutomata p.size a b) (Instance.ofAutomata p.size a b) fuel = some ((i, ans), byPre)) ∧
      (ans = true ↔ (FixRuns p val a b).Nonempty) ∧
      ∀ [OrderTop T], BelowTop p val → BoundedBelow (FixRuns p val a b) →
        if byPre then i.initial = a ∧ FindsBest h p (FixRuns p val a b) i.final a i.prod
        else i.final = b ∧ FindsBest h p (FixRuns p val a b) i.initial b i.prod := by
  have hc := postCtx hp hl ha.toFAutOK ha.noInto
  have hBa := noPump_post hc hUa
  have hBb := noPump_pre (Has_lt hp) hb.noInto hUb
  obtain ⟨fuel1, r1, hr1⟩ := fpre_terminates val hp hb.toFAutOK h
  unfold preStarFixedPoint fixRun at hr1
  rw [Option.bind_eq_some_iff] at hr1
  obtain ⟨s1, hs1, _⟩ := hr1
  obtain ⟨x, hx⟩ := whileSome_pair (g := Instance.interleaveStep val p) (fun s s2 hn => by
      unfold Instance.interleaveStep
      split at hn
      · rename_i hd
        rw [if_pos (by rw [Bool.or_eq_true]; exact .inl hd)]
      · cases hn) (fun s s2 s' x hf hg => by
      unfold Instance.interleaveStep at hg
      split at hg
      · cases hg
      · split at hf
        · cases hf
        · cases hf; cases hg; rfl) hs1 (fpostInit h p a)
  have hI := whileSome_inv (I := fun x : FPre T × FPost T => FPreH p val b x.1 ∧ FPostH p val a x.2) (by
    rintro s s' ⟨g1, g2⟩ hst
    unfold Instance.interleaveStep at hst
    split at hst
    · cases hst
    · rename_i hd
      cases hst
      rw [Bool.or_eq_true, not_or] at hd
      exact ⟨g1.step hp hb.toFAutOK hBb (by simpa using hd.1), g2.step hc hBa (by simpa using hd.2)⟩)
    ⟨fpreInit_hist hp hb.toFAutOK hb.noInto h, fpostInit_hist hc h⟩ hx
  obtain ⟨⟨hI1, hI2⟩, hend⟩ := hI
  have hdone : (x.1.isDone || x.2.isDone) = true := by
    unfold Instance.interleaveStep at hend
    split at hend
    · assumption
    · cases hend
  have hrun : ∀ fuel, max fuel1 1 ≤ fuel →
      whileSome (Instance.interleaveStep val p) fuel (fpreInit val h p b, fpostInit h p a) = some x :=
    fun fuel hf => Reducer.whileSome_mono (by omega) hx
  rcases hd : x.1.isDone with _ | _
  · have hi2 := hI2.idle (by rw [hd, Bool.false_or] at hdone; exact hdone)
    obtain ⟨r, hr⟩ := fixFinalize_idle (fpostStepWith val p) hi2.1 hi2.2
    obtain ⟨hi, k1, k2⟩ := FPostL.finalize_idle hI2.toFPostL hi2 (hr 1 (Nat.le_refl _))
    obtain ⟨i, ans, g1, g2, g3, _, g4⟩ := post_end val h hp hl ha hb r hi (fpostL_sound ha hc hi) (fpostL_complete ha hc hi k1 k2)
    refine ⟨max fuel1 1, i, ans, false, fun fuel hf => ?_, g3, fun hT hB => by rw [if_neg (by decide)]; exact ⟨g2, g4 hT hB⟩⟩
    unfold Instance.interleavingFixedPointAccepts
    rw [show whileSome (Instance.interleaveStep val p) fuel (fpreInit val h p (Instance.ofAutomata p.size a b).final,
      fpostInit h p (Instance.ofAutomata p.size a b).initial) = some x from hrun fuel hf]
    simp only [Option.bind_some, hd, Bool.false_eq_true, if_false]
    rw [hr fuel (by omega), Option.bind_some, g1]
    rfl
  · have hi1 := hI1.idle hd
    obtain ⟨r, hr⟩ := fixFinalize_idle (fpreStepWith val p) hi1.1 hi1.2
    obtain ⟨hi, k1, k2⟩ := FPreL.finalize_idle hI1.toFPreL hi1 (hr 1 (Nat.le_refl _))
    obtain ⟨i, ans, g1, g2, g3, _, g4⟩ := pre_end val h hl ha hb r hi (fpreL_sound hp hb hi) (fpreL_complete hp hk hi k1 k2)
    refine ⟨max fuel1 1, i, ans, true, fun fuel hf => ?_, g3, fun hT hB => by rw [if_pos rfl]; exact ⟨g2, g4 hT hB⟩⟩
    unfold Instance.interleavingFixedPointAccepts
    rw [show whileSome (Instance.interleaveStep val p) fuel (fpreInit val h p (Instance.ofAutomata p.size a b).final,
      fpostInit h p (Instance.ofAutomata p.size a b).initial) = some x from hrun fuel hf]
    simp only [Option.bind_some, hd, if_true]
    rw [hr fuel (by omega), Option.bind_some, g1]
    rfl

/-- C63, a disagreement found: if a weight can be improved again and again somewhere, `pre_star_fixed_point_accepts` reads
the weight of a transition that does not exist, although no run leads from the initial to the final automaton, so that the
weights of those runs are bounded. This is why the theorems above ask that no weight can be improved again and again. -/
theorem c63_pre_undefined :
    let p : Pda ℤ := Pda.build 3 [.rule 2 ⟨2, .noop, -1, 0⟩ false [0], .rule 1 ⟨2, .swap, 0, 0⟩ false [1],
      .rule 0 ⟨1, .swap, 0, 1⟩ false [2]]
    let a : Aut (Trace × ExWeight) := { acc := [false, false, false, true], edges := [(⟨0, 0, 3⟩, {}, {}, 0)] }
    let b : Aut (Trace × ExWeight) := { acc := [false, false, false, true], edges := [(⟨2, 0, 3⟩, {}, {}, 0)] }
    p.WF ∧ p.LookupOK ∧ FixAut p a ∧ FixAut p b ∧ FixRuns p exVal a b = ∅ ∧
      ∃ r, preStarFixedPoint exVal HashOrder.id p (Instance.ofAutomata p.size a b).final 100 = some r ∧ r.undef = true := by
  intro p a b
  have hOK : ∀ c ∈ ([.rule 2 ⟨2, .noop, -1, 0⟩ false [0], .rule 1 ⟨2, .swap, 0, 0⟩ false [1],
      .rule 0 ⟨1, .swap, 0, 1⟩ false [2]] : List (PdaCall ℤ)), c.OK 3 := by simp [PdaCall.OK, WSorted]
  have hund := c47_finalize_undefined
  refine ⟨Pda.WF_build 3 _ hOK, hund.1, fixAut_of (by decide +kernel), hund.2.1, ?_, hund.2.2⟩
  refine Set.eq_empty_of_forall_notMem ?_
  rintro x ⟨c, c', hc, ⟨f, hpath, hf⟩, hr, ⟨f', hpath', hf'⟩⟩
  have hsize : p.size = 3 := by decide +kernel
  obtain ⟨c1, cw⟩ := c
  rw [hsize] at hc
  dsimp only at hc hpath
  cases hpath with
  | nil =>
    have : f = 0 ∨ f = 1 ∨ f = 2 := by omega
    rcases this with rfl | rfl | rfl <;> cases hf
  | @cons _ g q w _ he _ =>
    have he' : (⟨c1, g, q⟩ : Tr) = ⟨0, 0, 3⟩ := List.mem_singleton.1 he
    cases he'
    generalize hcc : ((0, 0 :: w) : Config) = cc at hr
    cases hr with
    | nil =>
      subst hcc
      dsimp only at hpath'
      cases hpath' with
      | @cons _ _ q' _ _ he2 _ =>
        have he' : (⟨0, 0, q'⟩ : Tr) = ⟨2, 0, 3⟩ := List.mem_singleton.1 he2
        cases he'
    | cons r w' x c hr _ =>
      have h1 : 0 = r.src := congrArg Prod.fst hcc
      have h2 : 0 :: w = r.pre :: w' := congrArg Prod.snd hcc
      rw [List.cons.injEq] at h2
      obtain ⟨c, hm, hadd⟩ := (c23_rules 3 _ hOK r).1 hr
      simp only [List.mem_cons, List.not_mem_nil, or_false] at hm
      rcases hm with rfl | rfl | rfl <;> simp only [Adds] at hadd <;> obtain ⟨g1, _, _, _, _, g2⟩ := hadd <;> simp at g2 <;> omega

/-! ## Non-vacuity -/

omit [IsOrderedAddMonoid T] [OrderBot T] in
/-- Bounded weights cannot be improved again and again. -/
theorem BoundedBelow.unpumped [OrderTop T] {R : Set T} (h : BoundedBelow R) (h0 : (0 : T) ≠ ⊤) (ht : ∀ x ∈ R, x ≠ ⊤) :
    Unpumped R := by
  obtain ⟨m, h1, h2⟩ := h
  intro x y hx
  refine h2 x y 0 ?_ h0 fun k => ?_
  · have := ht _ (hx 0)
    rwa [zero_nsmul, add_zero] at this
  · rw [add_zero]; exact h1 _ (hx k)

/-- The weight of a run of the example depends on its ends only. -/
theorem turn_run {c c' : Config} {x : ExWeight} (hr : CostRun (Pda.build 2 turnCalls).Has exVal c x c') :
    ∃ z : ℤ, x = exVal z ∧ -6 ≤ z := by
  have hOK : ∀ c ∈ turnCalls, c.OK 2 := by simp [turnCalls, PdaCall.OK, WSorted]
  suffices h : ∃ z : ℤ, x = exVal z ∧ z = (if c'.1 = 1 then 3 else 0) - (if c.1 = 1 then 3 else 0) by
    obtain ⟨z, h1, h2⟩ := h
    refine ⟨z, h1, ?_⟩
    split at h2 <;> split at h2 <;> omega
  induction hr with
  | nil c => exact ⟨0, rfl, by omega⟩
  | cons r w x c hr _ ih =>
    obtain ⟨z, rfl, h1⟩ := ih
    refine ⟨r.weight + z, rfl, ?_⟩
    have hcase : (r.src = 0 ∧ r.dst = 1 ∧ r.weight = 3) ∨ (r.src = 1 ∧ r.dst = 0 ∧ r.weight = -3) := by
      obtain ⟨c, hm, hadd⟩ := (c23_rules 2 turnCalls hOK r).1 hr
      simp only [turnCalls, List.mem_cons, List.not_mem_nil, or_false] at hm
      rcases hm with rfl | rfl <;> simp only [Adds] at hadd <;> obtain ⟨g1, g2, _, _, g3, _⟩ := hadd <;>
        rw [g1, g2, g3] <;> decide
    rcases hcase with ⟨h3, h4, h5⟩ | ⟨h3, h4, h5⟩ <;> simp [h4] at h1 <;> simp [h3, h5] <;> omega

theorem turn_unpumped (R : Set ExWeight) (h : ∀ x ∈ R, ∃ c c', CostRun (Pda.build 2 turnCalls).Has exVal c x c') : Unpumped R := by
  refine BoundedBelow.unpumped (boundedBelow_int (-6) R ?_) WithTop.coe_ne_top ?_
  · intro x hx
    obtain ⟨c, c', hr⟩ := h x hx
    obtain ⟨z, rfl, hz⟩ := turn_run hr
    unfold exVal
    rw [WithTop.coe_le_coe, WithBot.coe_le_coe]
    exact hz
  · intro x hx
    obtain ⟨c, c', hr⟩ := h x hx
    obtain ⟨z, rfl, hz⟩ := turn_run hr
    exact WithTop.coe_ne_top

/-- Non-vacuity: the example of C47 in which both saturations reach the limit of rounds has weights that cannot be
improved again and again, although it has a rule of negative weight on a cycle. -/
example : (Pda.build 2 turnCalls).WF ∧ (Pda.build 2 turnCalls).LookupOK ∧ (Pda.build 2 turnCalls).nLabels ≤ epsilon ∧
    FixAut (Pda.build 2 turnCalls) turnFrom ∧ FixAut (Pda.build 2 turnCalls) turnTo ∧
    UnpumpedFrom (Pda.build 2 turnCalls).Has exVal (Pda.build 2 turnCalls).size (· ∈ keys turnFrom.edges) ∧
    UnpumpedTo (Pda.build 2 turnCalls).Has exVal (Pda.build 2 turnCalls).size (· ∈ keys turnTo.edges) ∧
    BelowTop (Pda.build 2 turnCalls) exVal ∧ BoundedBelow (FixRuns (Pda.build 2 turnCalls) exVal turnFrom turnTo) ∧
    (fixLoop (fpreStepWith exVal (Pda.build 2 turnCalls)) false 100
      (fpreInit exVal HashOrder.id (Pda.build 2 turnCalls) turnTo)).map (·.done) = some false ∧
    (fixLoop (fpostStepWith exVal (Pda.build 2 turnCalls)) false 100
      (fpostInit HashOrder.id (Pda.build 2 turnCalls) turnFrom)).map (·.done) = some false := by
  have hOK : ∀ c ∈ turnCalls, c.OK 2 := by simp [turnCalls, PdaCall.OK, WSorted]
  refine ⟨Pda.WF_build 2 _ hOK, lookupOK_build 2 _ hOK ?_, by decide +kernel, fixAut_of (by decide +kernel),
    fixAut_of (by decide +kernel), ?_, ?_, exWeight_belowTop _, boundedBelow_int (-6) _ ?_, by decide +kernel, by decide +kernel⟩
  · intro src r wc pre hm h1 h2
    simp only [turnCalls, List.mem_cons, List.not_mem_nil, or_false, PdaCall.rule.injEq] at hm
    rcases hm with ⟨_, rfl, _⟩ | ⟨_, rfl, _⟩ <;> simp_all
  · intro q w f _
    refine turn_unpumped _ ?_
    rintro x ⟨c, _, _, hr⟩
    exact ⟨_, _, hr⟩
  · intro q g f _
    refine turn_unpumped _ ?_
    rintro x ⟨c, hr, _⟩
    exact ⟨_, _, hr⟩
  · rintro x ⟨c, c', _, _, hr, _⟩
    obtain ⟨z, rfl, hz⟩ := turn_run hr
    unfold exVal
    rw [WithTop.coe_le_coe, WithBot.coe_le_coe]
    exact hz

end Verif.Props
