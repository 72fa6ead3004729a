import Verif.Proofs.FixedPreTrace
import Verif.Proofs.FixedPostTrace
import Verif.Props.FixedBounded

/-!
# C71: the trace after a fixed-point search is a run of the reported weight

`getTraceFixedPoint` is `Solver::get_trace<Trace_Type::ShortestFixedPoint>(instance)`, and with the reversed order of the
weights `get_trace<Trace_Type::Longest>(instance)`. The traces in the saturated automaton are overwritten whenever a weight
gets better, so it has to be shown that following them ends, and that the rules met on the way add up to the weight that
was reported.
-/

namespace Verif.Props

variable {W T : Type} [LinearOrder W] [Zero W] [LinearOrder T] [AddCommMonoid T] [IsOrderedAddMonoid T] [OrderBot T]

/-- What `get_trace` returns on an instance: without a run the empty trace and `max()`. Otherwise the best weight of a
run. If that weight is `bottom()`, and the weight type is not unsigned, the trace is empty. In all other cases the trace is a
run of that weight from a configuration of `a` to one of `b`. -/
def TracesBest [OrderTop T] (h : HashOrder) (p : Pda W) (val : W → T) (a b : Aut (Trace × T)) (unsig swap : Bool)
    (i : Instance (Trace × T)) : Prop :=
  ∃ fuel0 cs x, (∀ fuel, fuel0 ≤ fuel → i.getTraceFixedPoint h p unsig swap fuel = some (cs, x)) ∧
    ((FixRuns p val a b = ∅ ∧ cs = [] ∧ x = ⊤) ∨
      IsLeast (FixRuns p val a b) x ∧ ((unsig = false ∧ x = ⊥ ∧ cs = []) ∨
        CostTrace p.Has val cs x ∧ ∃ c c', cs.head? = some c ∧ cs.getLast? = some c' ∧
          c.1 < p.size ∧ Accepted (· ∈ keys a.edges) (fun q => a.isAcc q = true) c ∧
          Accepted (· ∈ keys b.edges) (fun q => b.isAcc q = true) c'))

omit [IsOrderedAddMonoid T] [Zero W] in
theorem traces_of_find [OrderTop T] {h : HashOrder} {p : Pda W} {val : W → T} {a b A B : Aut (Trace × T)} {unsig swap : Bool}
    {i : Instance (Trace × T)} (h0 : (0 : T) ≠ ⊤) (hi : i.automaton swap = A) (hf : FindsBest h p (FixRuns p val a b) A B i.prod)
    (ht : ∀ P w, AcceptedPath p A B P w → ∃ cs c c', getTrace p A.lastTraces P = some cs ∧ CostTrace p.Has val cs w ∧
      cs.head? = some c ∧ cs.getLast? = some c' ∧ c.1 < p.size ∧ Accepted (· ∈ keys a.edges) (fun q => a.isAcc q = true) c ∧
      Accepted (· ∈ keys b.edges) (fun q => b.isAcc q = true) c') :
    TracesBest h p val a b unsig swap i := by
  obtain ⟨fuel0, P, w, h1, h2⟩ := hf
  rcases h2 with ⟨h3, rfl, rfl⟩ | ⟨h3, h4⟩
  · refine ⟨fuel0, [], ⊤, fun fuel hle => ?_, .inl ⟨h3, rfl, rfl⟩⟩
    unfold Instance.getTraceFixedPoint
    have hne : (⊤ : T) ≠ ⊥ := by
      intro he
      have h5 : (0 : T) ≤ ⊥ := he ▸ le_top
      exact h0 ((le_antisymm h5 bot_le).trans he.symm)
    rw [h1 fuel hle, Option.bind_some, if_pos (by simp [hne])]
    rfl
  · obtain ⟨cs, c, c', k1, k2, k3⟩ := ht P w h4
    by_cases hc : (unsig || decide (w ≠ ⊥)) = true
    · refine ⟨fuel0, cs, w, fun fuel hle => ?_, .inr ⟨h3, .inr ⟨k2, c, c', k3⟩⟩⟩
      unfold Instance.getTraceFixedPoint
      rw [h1 fuel hle, Option.bind_some, if_pos hc, hi, k1]
      rfl
    · refine ⟨fuel0, [], w, fun fuel hle => ?_, .inr ⟨h3, .inl ?_⟩⟩
      · unfold Instance.getTraceFixedPoint
        rw [h1 fuel hle, Option.bind_some, if_neg hc]
      · rw [Bool.or_eq_true, decide_eq_true_eq, not_or, not_not] at hc
        exact ⟨by simpa using hc.1, hc.2, rfl⟩

omit [LinearOrder W] [Zero W] [LinearOrder T] [IsOrderedAddMonoid T] [OrderBot T] in
theorem fixAut_annot {p : Pda W} {a : Aut (Trace × T)} (ha : FixAut p a) (h0 : Untraced a.lastTraces) :
    ∀ e ∈ a.edges, e.2.2 = (Trace.null, 0) := by
  intro e he
  have h1 := h0 (e.1, e.2.2) (List.mem_map.2 ⟨e, he, rfl⟩)
  have h2 := ha.zero e he
  exact Prod.ext h1 h2

/-- The accepting paths of the automaton of pre* have traces. -/
theorem pre_paths {p : Pda W} (hp : p.WF) (hk : p.LookupOK) (hl : p.nLabels ≤ epsilon) {val : W → T} {a b : Aut (Trace × T)}
    (hb : FixAut p b) (hn : b.n ≤ sizeMax) {s : FPre T} (hs : FPreT p val b s)
    (hi : s.workset = [] ∧ s.next = []) (P : APath Nat) (w : T) (hP : AcceptedPath p s.aut a P w) :
    ∃ cs c c', getTrace p s.aut.lastTraces P = some cs ∧ CostTrace p.Has val cs w ∧
      cs.head? = some c ∧ cs.getLast? = some c' ∧ c.1 < p.size ∧ Accepted (· ∈ keys a.edges) (fun q => a.isAcc q = true) c ∧
      Accepted (· ∈ keys b.edges) (fun q => b.isAcc q = true) c' := by
  obtain ⟨E0, L, h1, h2, h3, h4, h5⟩ := hs.tr.built hp hk hs.toFPreR hi.1 hi.2
  obtain ⟨k1, k2⟩ := spells_last P hP.spells
  obtain ⟨cs, c', m1, m2, m3, m4, m5⟩ := preLast_trace hp hl hb.toFAutOK hb.noInto hn hs.valid
    (fun q => by unfold Aut.isAcc; rw [hs.acc]) h1 h3 h2 h4 h5 P k1 hP.start hP.acc
  rw [k2] at m2
  refine ⟨cs, _, c', m1, m2, m3, m4, hP.start, ?_, m5⟩
  have hf : P.stack.filter (fun g => decide (g ≠ epsilon)) = P.stack := by
    rw [List.filter_eq_self]
    intro g hg
    have := trs_labels (P := fun g => g ≠ epsilon) (fun t ht => by have := (hs.valid t (k1 t ht)).2.1; omega) g hg
    simpa using this
  have := hP.second
  rwa [hf] at this

omit [Zero W] in
/-- The accepting paths of the automaton of post* have traces. -/
theorem post_paths {p : Pda W} (hp : p.WF) (hl : p.nLabels < epsilon) {val : W → T} {a b : Aut (Trace × T)}
    (ha : FixAut p a) {s : FPost T} (hn : s.aut.n ≤ sizeMax) (hs : FPostT p val a s)
    (hi : s.workset = [] ∧ s.next = []) (P : APath Nat) (w : T) (hP : AcceptedPath p s.aut b P w) :
    ∃ cs c c', getTrace p s.aut.lastTraces P = some cs ∧ CostTrace p.Has val cs w ∧
      cs.head? = some c ∧ cs.getLast? = some c' ∧ c.1 < p.size ∧ Accepted (· ∈ keys a.edges) (fun q => a.isAcc q = true) c ∧
      Accepted (· ∈ keys b.edges) (fun q => b.isAcc q = true) c' := by
  have hc := postCtx hp (Nat.le_of_lt hl) ha.toFAutOK ha.noInto
  obtain ⟨E0, L, h1, h2, h3, h4, h5⟩ := hs.built hc hi.1 hi.2
  obtain ⟨k1, k2⟩ := spells_last P hP.spells
  obtain ⟨cs, c, m1, m2, m3, m4, m5, m6⟩ := postLast_trace hc hl (by rw [← hs.states]; exact hn) hs.valid hs.acc h1 h3 h2 h4 h5
    P k1 hP.start hP.acc
  rw [k2] at m2
  exact ⟨cs, c, _, m1, m2, m3, m6, m4, m5, hP.second⟩

/-- C71 for post*: if no weight can be improved again and again and the weights of the runs are bounded,
`get_trace` after `post_star_fixed_point_accepts` returns a run of the best weight. -/
theorem c71_post [OrderTop T] (val : W → T) (h : HashOrder) {p : Pda W} (hp : p.WF) (hl : p.nLabels < epsilon)
    {a b : Aut (Trace × T)} (ha : FixAut p a) (hb : FixAut p b) (h0 : Untraced a.lastTraces)
    (hU : UnpumpedFrom p.Has val p.size (· ∈ keys a.edges)) (hT : BelowTop p val) (hB : BoundedBelow (FixRuns p val a b)) :
    ∃ fuel0 i ans, (∀ fuel, fuel0 ≤ fuel →
        Instance.postStarFixedPointAccepts val h p (Instance.ofAutomata p.size a b) fuel = some (i, ans)) ∧
      (i.initial.n ≤ sizeMax → ∀ unsig, TracesBest h p val a b unsig false i) := by
  have hc := postCtx hp (Nat.le_of_lt hl) ha.toFAutOK ha.noInto
  have hBa := noPump_post hc hU
  obtain ⟨fuel0, r, hr⟩ := fpost_terminates h val hc
  obtain ⟨hi, h1, h2⟩ := postStarFixedPoint_nopump hc hBa h hr
  obtain ⟨i, ans, g1, _, g3, _, g4⟩ := post_end val h hp (Nat.le_of_lt hl) ha hb r hi (fpostL_sound ha hc hi)
    (fpostL_complete ha hc hi h1 h2)
  have hi' : i.initial = r.aut := by
    unfold Instance.postFixedEnd at g1
    rw [hi.undef] at g1
    cases g1
    rfl
  refine ⟨fuel0, i, ans, fun fuel hf => ?_, fun hn unsig => ?_⟩
  · unfold Instance.postStarFixedPointAccepts
    rw [show postStarFixedPoint val h p (Instance.ofAutomata p.size a b).initial fuel = some r from fixRun_more hf hr]
    exact g1
  · have g5 := g4 hT hB
    rw [hi'] at g5 hn
    refine traces_of_find hT.zero (A := r.aut) (B := b) hi' g5 ?_
    unfold postStarFixedPoint fixRun at hr
    rw [Option.bind_eq_some_iff] at hr
    obtain ⟨s, hs, hr⟩ := hr
    obtain ⟨hsT, hend⟩ := whileSome_inv (I := FPostT p val a) (fun s s' hs hst => by
      split at hst
      · cases hst
      · rename_i hd
        cases hst
        exact hs.step hc hBa (by simpa using hd)) (fpostInit_traced hc (fixAut_annot ha h0) h) hs
    have hidle := hsT.toFPostH.idle (by
      split at hend
      · assumption
      · cases hend)
    have haut := fixFinalize_aut _ hidle hr
    rw [haut] at hn ⊢
    exact fun P w hP => post_paths hp hl ha hn hsT hidle P w hP

/-- C71 for pre*, with the proviso that the pre* rule lookup meets every rule (see C24). -/
theorem c71_pre_partial [OrderTop T] (val : W → T) (h : HashOrder) {p : Pda W} (hp : p.WF) (hk : p.LookupOK)
    (hl : p.nLabels ≤ epsilon) {a b : Aut (Trace × T)} (ha : FixAut p a) (hb : FixAut p b) (h0 : Untraced b.lastTraces)
    (hn : b.n ≤ sizeMax) (hU : UnpumpedTo p.Has val p.size (· ∈ keys b.edges)) (hT : BelowTop p val)
    (hB : BoundedBelow (FixRuns p val a b)) :
    ∃ fuel0 i ans, (∀ fuel, fuel0 ≤ fuel →
        Instance.preStarFixedPointAccepts val h p (Instance.ofAutomata p.size a b) fuel = some (i, ans)) ∧
      ∀ unsig, TracesBest h p val a b unsig true i := by
  have hBb := noPump_pre (Has_lt hp) hb.noInto hU
  obtain ⟨fuel0, r, hr⟩ := fpre_terminates val hp hb.toFAutOK h
  obtain ⟨hi, h1, h2⟩ := preStarFixedPoint_nopump hp hb.toFAutOK hb.noInto hBb h hr
  obtain ⟨i, ans, g1, _, g3, _, g4⟩ := pre_end val h hl ha hb r hi (fpreL_sound hp hb hi) (fpreL_complete hp hk hi h1 h2)
  have hi' : i.final = r.aut := by
    unfold Instance.preFixedEnd at g1
    rw [hi.undef] at g1
    cases g1
    rfl
  refine ⟨fuel0, i, ans, fun fuel hf => ?_, fun unsig => ?_⟩
  · unfold Instance.preStarFixedPointAccepts
    rw [show preStarFixedPoint val h p (Instance.ofAutomata p.size a b).final fuel = some r from fixRun_more hf hr]
    exact g1
  · have g5 := g4 hT hB
    rw [hi'] at g5
    refine traces_of_find hT.zero (A := r.aut) (B := a) hi' g5 ?_
    unfold preStarFixedPoint fixRun at hr
    rw [Option.bind_eq_some_iff] at hr
    obtain ⟨s, hs, hr⟩ := hr
    obtain ⟨hsT, hend⟩ := whileSome_inv (I := FPreT p val b) (fun s s' hs hst => by
      split at hst
      · cases hst
      · rename_i hd
        cases hst
        exact hs.step hp hb.toFAutOK hBb (by simpa using hd))
      (fpreInit_traced hp hb.toFAutOK hb.noInto hBb (fixAut_annot hb h0) h) hs
    have hidle := hsT.toFPreH.idle (by
      split at hend
      · assumption
      · cases hend)
    rw [fixFinalize_aut _ hidle hr]
    exact fun P w hP => pre_paths hp hk hl hb hn hsT hidle P w hP

/-- C71 for the interleaved search, with the proviso of C24 for pre*; `byPre` tells whether pre* has given the answer, and
with it which of the two automata `get_trace` reads. -/
theorem c71_interleaving_partial [OrderTop T] (val : W → T) (h : HashOrder) {p : Pda W} (hp : p.WF) (hk : p.LookupOK)
    (hl : p.nLabels < epsilon) {a b : Aut (Trace × T)} (ha : FixAut p a) (hb : FixAut p b) (h0 : Untraced a.lastTraces)
    (h0' : Untraced b.lastTraces) (hn : b.n ≤ sizeMax)
    (hUa : UnpumpedFrom p.Has val p.size (· ∈ keys a.edges)) (hUb : UnpumpedTo p.Has val p.size (· ∈ keys b.edges))
    (hT : BelowTop p val) (hB : BoundedBelow (FixRuns p val a b)) :
    ∃ fuel0 i ans byPre, (∀ fuel, fuel0 ≤ fuel → Instance.interleavingFixedPointAccepts val h p
        (Instance.ofAutomata p.size a b) (Instance.ofAutomata p.size a b) fuel = some ((i, ans), byPre)) ∧
      (i.initial.n ≤ sizeMax → ∀ unsig, TracesBest h p val a b unsig byPre i) := by
  have hle := Nat.le_of_lt hl
  have hc := postCtx hp hle ha.toFAutOK ha.noInto
  have hBa := noPump_post hc hUa
  have hBb := noPump_pre (Has_lt hp) hb.noInto hUb
  obtain ⟨fuel1, r1, hr1⟩ := fpre_terminates val hp hb.toFAutOK h
  unfold preStarFixedPoint fixRun at hr1
  rw [Option.bind_eq_some_iff] at hr1
  obtain ⟨s1, hs1, _⟩ := hr1
  obtain ⟨x, hx⟩ := whileSome_pair (g := Instance.interleaveStep val p) (fun s s2 hn => by
      unfold Instance.interleaveStep
      split at hn
      · rename_i hd
        rw [if_pos (by rw [Bool.or_eq_true]; exact .inl hd)]
      · cases hn) (fun s s2 s' x hf hg => by
      unfold Instance.interleaveStep at hg
      split at hg
      · cases hg
      · split at hf
        · cases hf
        · cases hf; cases hg; rfl) hs1 (fpostInit h p a)
  have hI := whileSome_inv (I := fun x : FPre T × FPost T => FPreT p val b x.1 ∧ FPostT p val a x.2) (by
    rintro s s' ⟨g1, g2⟩ hst
    unfold Instance.interleaveStep at hst
    split at hst
    · cases hst
    · rename_i hd
      cases hst
      rw [Bool.or_eq_true, not_or] at hd
      exact ⟨g1.step hp hb.toFAutOK hBb (by simpa using hd.1), g2.step hc hBa (by simpa using hd.2)⟩)
    ⟨fpreInit_traced hp hb.toFAutOK hb.noInto hBb (fixAut_annot hb h0') h, fpostInit_traced hc (fixAut_annot ha h0) h⟩ hx
  obtain ⟨⟨hI1, hI2⟩, hend⟩ := hI
  have hdone : (x.1.isDone || x.2.isDone) = true := by
    unfold Instance.interleaveStep at hend
    split at hend
    · assumption
    · cases hend
  have hrun : ∀ fuel, max fuel1 1 ≤ fuel →
      whileSome (Instance.interleaveStep val p) fuel (fpreInit val h p b, fpostInit h p a) = some x :=
    fun fuel hf => Reducer.whileSome_mono (by omega) hx
  rcases hd : x.1.isDone with _ | _
  · have hi2 := hI2.toFPostH.idle (by rw [hd, Bool.false_or] at hdone; exact hdone)
    obtain ⟨r, hr⟩ := fixFinalize_idle (fpostStepWith val p) hi2.1 hi2.2
    obtain ⟨hi, k1, k2⟩ := FPostL.finalize_idle hI2.toFPostL hi2 (hr 1 (Nat.le_refl _))
    obtain ⟨i, ans, g1, g2, g3, _, g4⟩ := post_end val h hp hle ha hb r hi (fpostL_sound ha hc hi) (fpostL_complete ha hc hi k1 k2)
    refine ⟨max fuel1 1, i, ans, false, fun fuel hf => ?_, fun hn unsig => ?_⟩
    · unfold Instance.interleavingFixedPointAccepts
      rw [show whileSome (Instance.interleaveStep val p) fuel (fpreInit val h p (Instance.ofAutomata p.size a b).final,
        fpostInit h p (Instance.ofAutomata p.size a b).initial) = some x from hrun fuel hf]
      simp only [Option.bind_some, hd, Bool.false_eq_true, if_false]
      rw [hr fuel (by omega), Option.bind_some, g1]
      rfl
    · have hi' : i.initial = r.aut := by
        unfold Instance.postFixedEnd at g1
        rw [hi.undef] at g1
        cases g1
        rfl
      have g5 := g4 hT hB
      rw [hi'] at g5 hn
      refine traces_of_find hT.zero (A := r.aut) (B := b) hi' g5 ?_
      have haut := fixFinalize_aut _ hi2 (hr 1 (Nat.le_refl _))
      rw [haut] at hn ⊢
      exact fun P w hP => post_paths hp hl ha hn hI2 hi2 P w hP
  · have hi1 := hI1.toFPreH.idle hd
    obtain ⟨r, hr⟩ := fixFinalize_idle (fpreStepWith val p) hi1.1 hi1.2
    obtain ⟨hi, k1, k2⟩ := FPreL.finalize_idle hI1.toFPreL hi1 (hr 1 (Nat.le_refl _))
    obtain ⟨i, ans, g1, g2, g3, _, g4⟩ := pre_end val h hle ha hb r hi (fpreL_sound hp hb hi) (fpreL_complete hp hk hi k1 k2)
    refine ⟨max fuel1 1, i, ans, true, fun fuel hf => ?_, fun _ unsig => ?_⟩
    · unfold Instance.interleavingFixedPointAccepts
      rw [show whileSome (Instance.interleaveStep val p) fuel (fpreInit val h p (Instance.ofAutomata p.size a b).final,
        fpostInit h p (Instance.ofAutomata p.size a b).initial) = some x from hrun fuel hf]
      simp only [Option.bind_some, hd, if_true]
      rw [hr fuel (by omega), Option.bind_some, g1]
      rfl
    · have hi' : i.final = r.aut := by
        unfold Instance.preFixedEnd at g1
        rw [hi.undef] at g1
        cases g1
        rfl
      have g5 := g4 hT hB
      rw [hi'] at g5
      refine traces_of_find hT.zero (A := r.aut) (B := a) hi' g5 ?_
      rw [fixFinalize_aut _ hi1 (hr 1 (Nat.le_refl _))]
      exact fun P w hP => pre_paths hp hk hle hb hn hI1 hi1 P w hP

/-- C71 for post* with `Trace_Type::Longest`. -/
theorem c71_post_longest [OrderTop T] (val : W → T) (h : HashOrder) {p : Pda W} (hp : p.WF) (hl : p.nLabels < epsilon)
    {a b : Aut (Trace × Tᵒᵈ)} (ha : FixAut p a) (hb : FixAut p b) (h0 : Untraced a.lastTraces)
    (hU : UnpumpedFrom (T := Tᵒᵈ) p.Has val p.size (· ∈ keys a.edges)) (hT : BelowTop (T := Tᵒᵈ) p val)
    (hB : BoundedBelow (T := Tᵒᵈ) (FixRuns (T := Tᵒᵈ) p val a b)) :
    ∃ fuel0 i ans, (∀ fuel, fuel0 ≤ fuel →
        Instance.postStarFixedPointAccepts (T := Tᵒᵈ) val h p (Instance.ofAutomata p.size a b) fuel = some (i, ans)) ∧
      (i.initial.n ≤ sizeMax → ∃ (fuel0 : Nat) (cs : List Config) (x : T),
        (∀ fuel, fuel0 ≤ fuel → i.getTraceFixedPoint (T := Tᵒᵈ) h p false false fuel = some (cs, x)) ∧
        ((FixRuns (T := T) p val a b = ∅ ∧ cs = [] ∧ x = ⊥) ∨
          IsGreatest (FixRuns (T := T) p val a b) x ∧ ((x = ⊤ ∧ cs = []) ∨
            CostTrace (T := T) p.Has val cs x ∧ ∃ c c', cs.head? = some c ∧ cs.getLast? = some c' ∧
              c.1 < p.size ∧ Accepted (· ∈ keys a.edges) (fun q => a.isAcc q = true) c ∧
              Accepted (· ∈ keys b.edges) (fun q => b.isAcc q = true) c'))) := by
  obtain ⟨fuel0, i, ans, h1, h2⟩ := c71_post (T := Tᵒᵈ) val h hp hl ha hb h0 hU hT hB
  refine ⟨fuel0, i, ans, h1, fun hn => ?_⟩
  obtain ⟨fuel1, cs, x, h3, h4⟩ := h2 hn false
  refine ⟨fuel1, cs, x, h3, ?_⟩
  rcases h4 with h4 | ⟨h4, ⟨_, h5⟩ | h5⟩
  · exact .inl h4
  · exact .inr ⟨h4, .inl h5⟩
  · exact .inr ⟨h4, .inr h5⟩

/-- Non-vacuity: the example of C63 meets the hypotheses (those on weights and rules are shown in `Props/FixedBounded`). Its
rules have the weights 3 and -3 and form a cycle, and the trace is the step of weight 3. -/
example : Untraced turnFrom.lastTraces ∧ Untraced turnTo.lastTraces ∧ (Pda.build 2 turnCalls).nLabels < epsilon ∧ turnTo.n ≤ sizeMax ∧
    ((Instance.postStarFixedPointAccepts exVal HashOrder.id (Pda.build 2 turnCalls)
      (Instance.ofAutomata (Pda.build 2 turnCalls).size turnFrom turnTo) 300).map fun r => r.1.initial.n) = some 3 ∧
    ((Instance.postStarFixedPointAccepts exVal HashOrder.id (Pda.build 2 turnCalls)
      (Instance.ofAutomata (Pda.build 2 turnCalls).size turnFrom turnTo) 300).bind fun r =>
        r.1.getTraceFixedPoint HashOrder.id (Pda.build 2 turnCalls) false false 300) = some ([(0, [0]), (1, [1])], exVal 3) ∧
    ((Instance.preStarFixedPointAccepts exVal HashOrder.id (Pda.build 2 turnCalls)
      (Instance.ofAutomata (Pda.build 2 turnCalls).size turnFrom turnTo) 300).bind fun r =>
        r.1.getTraceFixedPoint HashOrder.id (Pda.build 2 turnCalls) false true 300) = some ([(0, [0]), (1, [1])], exVal 3) := by
  refine ⟨?_, ?_, by decide +kernel, by decide +kernel, by decide +kernel, by decide +kernel, by decide +kernel⟩ <;>
    · unfold Untraced; decide +kernel

end Verif.Props
