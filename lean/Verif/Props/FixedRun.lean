import Verif.Proofs.FixedRun
import Verif.Props.FixedProduct

/-!
# C47 and C63 in terms of the result of the saturation

The first phase of a fixed-point saturation stops when nothing changes or after as many rounds as there are transitions;
the second phase sets every weight that can still be improved to `bottom()`. Here nothing is assumed about how the first
phase stopped: if no weight in the result is `bottom()`, all of them are right.
-/

namespace Verif.Props

variable {W T : Type} [LinearOrder W] [Zero W] [LinearOrder T] [AddCommMonoid T] [IsOrderedAddMonoid T] [OrderBot T]

/-- Nothing undefined has happened in the saturation, and no transition of its automaton has the weight `bottom()`. -/
def NoBottom {X : Type} (s : FixSt T X) : Prop := s.undef = false ∧ ∀ t x, fixWeights s t x → x ≠ ⊥

omit [AddCommMonoid T] [IsOrderedAddMonoid T] in
theorem NoBottom.clean {X : Type} {s : FixSt T X} (h : NoBottom s) : ¬ s.Dirty := by
  rintro (h1 | ⟨t, h1⟩)
  · rw [h.1] at h1; cases h1
  · refine h.2 t ⊥ ?_ rfl
    rw [fixWeights_iff]; exact h1

/-- C47 for pre*, with the proviso that the pre* rule lookup meets every rule (see C24): if the result of
`pre_star_fixed_point` has no weight `bottom()`, then for every configuration the best weight of an accepting path is the
best weight over all runs to the input language; there is one whenever there is a run. -/
theorem c47_pre_observed_partial (val : W → T) (h : HashOrder) {p : Pda W} (hp : p.WF) (hk : p.LookupOK)
    {a : Aut (Trace × T)} (ha : FixAut p a) (fuel : Nat) (r : FPre T)
    (hr : preStarFixedPoint val h p a fuel = some r) (hb : NoBottom r) (q : Nat) (w : List Nat) (hq : q < p.size) :
    (∀ m, IsLeast (PathWeights (fixWeights r) (fun q => r.aut.isAcc q = true) (q, w)) m ↔
      IsLeast (RunWeightsTo p.Has val (· ∈ keys a.edges) (fun q => a.isAcc q = true) (q, w)) m) ∧
    ((∃ x, x ∈ RunWeightsTo p.Has val (· ∈ keys a.edges) (fun q => a.isAcc q = true) (q, w)) →
      ∃ m, IsLeast (PathWeights (fixWeights r) (fun q => r.aut.isAcc q = true) (q, w)) m) := by
  obtain ⟨hi, h1, h2⟩ := preStarFixedPoint_clean hp ha.toFAutOK ha.noInto h hr hb.clean
  refine ⟨?_, ?_⟩
  · exact isLeast_iff_of_below (fpreL_sound hp ha hi q w hq) (fpreL_complete hp hk hi h1 h2 (q, w))
  · rintro ⟨x, hx⟩
    obtain ⟨y, hy, _⟩ := fpreL_complete hp hk hi h1 h2 (q, w) x hx
    obtain ⟨l, hl⟩ := costPath_list _ (fixWeights_list r) w q
    exact exists_isLeast_of_list _ l (fun x ⟨f, hf, _⟩ => hl x f hf) ⟨y, hy⟩

omit [Zero W] in
/-- C47 for post*: if the result of `post_star_fixed_point` has no weight `bottom()`, then for every configuration the
best weight of an accepting path, in which epsilon transitions read nothing, is the best weight over all runs from the
input language; there is one whenever there is a run. -/
theorem c47_post_observed (val : W → T) (h : HashOrder) {p : Pda W} (hp : p.WF) (hl : p.nLabels ≤ epsilon)
    {a : Aut (Trace × T)} (ha : FixAut p a) (fuel : Nat) (r : FPost T)
    (hr : postStarFixedPoint val h p a fuel = some r) (hb : NoBottom r) (q : Nat) (w : List Nat) (hq : q < p.size) :
    (∀ m, IsLeast (EPathWeights (fixWeights r) (fun q => r.aut.isAcc q = true) (q, w)) m ↔
      IsLeast (RunWeightsFrom p.Has val p.size (· ∈ keys a.edges) (fun q => a.isAcc q = true) (q, w)) m) ∧
    ((∃ x, x ∈ RunWeightsFrom p.Has val p.size (· ∈ keys a.edges) (fun q => a.isAcc q = true) (q, w)) →
      ∃ m, IsLeast (EPathWeights (fixWeights r) (fun q => r.aut.isAcc q = true) (q, w)) m) := by
  have hc := postCtx hp hl ha.toFAutOK ha.noInto
  obtain ⟨hi, h1, h2⟩ := postStarFixedPoint_clean h hc hr hb.clean
  have hcl := hi.closed hc h1 h2
  refine ⟨?_, ?_⟩
  · exact isLeast_iff_of_below (fpostL_sound ha hc hi q w hq) (fpostL_complete ha hc hi h1 h2 (q, w))
  · rintro ⟨x, hx⟩
    obtain ⟨y, hy, _⟩ := fpostL_complete ha hc hi h1 h2 (q, w) x hx
    obtain ⟨l, hl⟩ := costEPath_list _ (fixWeights_list r) (fun f m q x y hx hy => by
      rw [fixWeights_iff] at hx hy
      have h3 := hcl.into _ _ hx
      have h4 := hcl.eps _ _ hy rfl
      dsimp only at h3 h4
      omega) w q
    exact exists_isLeast_of_list _ l (fun x ⟨f, hf, _⟩ => hl x f hf) ⟨y, hy⟩

/-- C47 for pre* with `Trace_Type::Longest`, where `bottom()` is the greatest weight. -/
theorem c47_pre_observed_longest_partial [OrderTop T] (val : W → T) (h : HashOrder) {p : Pda W} (hp : p.WF) (hk : p.LookupOK)
    {a : Aut (Trace × Tᵒᵈ)} (ha : FixAut p a) (fuel : Nat) (r : FPre Tᵒᵈ)
    (hr : preStarFixedPoint (T := Tᵒᵈ) val h p a fuel = some r) (hb : r.undef = false ∧ ∀ t (x : T), fixWeights r t x → x ≠ ⊤)
    (q : Nat) (w : List Nat) (hq : q < p.size) :
    (∀ m, IsGreatest (PathWeights (T := T) (fixWeights r) (fun q => r.aut.isAcc q = true) (q, w)) m ↔
      IsGreatest (RunWeightsTo (T := T) p.Has val (· ∈ keys a.edges) (fun q => a.isAcc q = true) (q, w)) m) ∧
    ((∃ x, x ∈ RunWeightsTo (T := T) p.Has val (· ∈ keys a.edges) (fun q => a.isAcc q = true) (q, w)) →
      ∃ m, IsGreatest (PathWeights (T := T) (fixWeights r) (fun q => r.aut.isAcc q = true) (q, w)) m) :=
  c47_pre_observed_partial (T := Tᵒᵈ) val h hp hk ha fuel r hr hb q w hq

/-- C47 for post* with `Trace_Type::Longest`. -/
theorem c47_post_observed_longest [OrderTop T] (val : W → T) (h : HashOrder) {p : Pda W} (hp : p.WF) (hl : p.nLabels ≤ epsilon)
    {a : Aut (Trace × Tᵒᵈ)} (ha : FixAut p a) (fuel : Nat) (r : FPost Tᵒᵈ)
    (hr : postStarFixedPoint (T := Tᵒᵈ) val h p a fuel = some r) (hb : r.undef = false ∧ ∀ t (x : T), fixWeights r t x → x ≠ ⊤)
    (q : Nat) (w : List Nat) (hq : q < p.size) :
    (∀ m, IsGreatest (EPathWeights (T := T) (fixWeights r) (fun q => r.aut.isAcc q = true) (q, w)) m ↔
      IsGreatest (RunWeightsFrom (T := T) p.Has val p.size (· ∈ keys a.edges) (fun q => a.isAcc q = true) (q, w)) m) ∧
    ((∃ x, x ∈ RunWeightsFrom (T := T) p.Has val p.size (· ∈ keys a.edges) (fun q => a.isAcc q = true) (q, w)) →
      ∃ m, IsGreatest (EPathWeights (T := T) (fixWeights r) (fun q => r.aut.isAcc q = true) (q, w)) m) :=
  c47_post_observed (T := Tᵒᵈ) val h hp hl ha fuel r hr hb q w hq

/-! ## C63 -/

/-- No transition of the automaton has the weight `bottom()`. -/
def AutNoBottom (A : Aut (Trace × T)) : Prop := ∀ t tr1 tr2 x, A.getEdge t = some (tr1, tr2, x) → x ≠ ⊥

theorem post_observed_end (val : W → T) (h : HashOrder) {p : Pda W} (hp : p.WF) (hl : p.nLabels ≤ epsilon)
    {a b : Aut (Trace × T)} (ha : FixAut p a) (hb : FixAut p b) (fuel : Nat) (i : Instance (Trace × T)) (ans : Bool)
    (hr : Instance.postStarFixedPointAccepts val h p (Instance.ofAutomata p.size a b) fuel = some (i, ans))
    (hn : AutNoBottom i.initial) :
    (ans = true ↔ (FixRuns p val a b).Nonempty) ∧
      (∀ [OrderTop T], BelowTop p val → Bottomed T → FindsAny h p (FixRuns p val a b) i.initial b i.prod) ∧
      ∀ [OrderTop T], BelowTop p val → BoundedBelow (FixRuns p val a b) →
        FindsBest h p (FixRuns p val a b) i.initial b i.prod := by
  have hc := postCtx hp hl ha.toFAutOK ha.noInto
  unfold Instance.postStarFixedPointAccepts at hr
  rw [Option.bind_eq_some_iff] at hr
  obtain ⟨r, hr, he⟩ := hr
  have hb' : NoBottom r := by
    unfold Instance.postFixedEnd at he
    split at he
    · cases he
    · rename_i hu
      cases he
      exact ⟨by simpa using hu, fun t x ⟨tr1, tr2, hx⟩ => hn t tr1 tr2 x hx⟩
  obtain ⟨hi, h1, h2⟩ := postStarFixedPoint_clean h hc hr hb'.clean
  obtain ⟨i', ans', g1, _, g3, g5, g4⟩ := post_end val h hp hl ha hb r hi (fpostL_sound ha hc hi) (fpostL_complete ha hc hi h1 h2)
  rw [g1] at he
  cases he
  exact ⟨g3, g5, g4⟩

/-- C63 for post*: if `post_star_fixed_point_accepts` returns and leaves no weight `bottom()` in the initial automaton,
then it has returned whether a run leads from the initial to the final automaton, and then `find_path_fixed_point`
returns the best weight of such a run, if the weights of the runs are bounded, with an accepting path of that weight;
without a run it returns `max()` and the null path. -/
theorem c63_post_observed (val : W → T) (h : HashOrder) {p : Pda W} (hp : p.WF) (hl : p.nLabels ≤ epsilon)
    {a b : Aut (Trace × T)} (ha : FixAut p a) (hb : FixAut p b) (fuel : Nat) (i : Instance (Trace × T)) (ans : Bool)
    (hr : Instance.postStarFixedPointAccepts val h p (Instance.ofAutomata p.size a b) fuel = some (i, ans))
    (hn : AutNoBottom i.initial) :
    (ans = true ↔ (FixRuns p val a b).Nonempty) ∧
      ∀ [OrderTop T], BelowTop p val → BoundedBelow (FixRuns p val a b) →
        FindsBest h p (FixRuns p val a b) i.initial b i.prod :=
  have g := post_observed_end val h hp hl ha hb fuel i ans hr hn
  ⟨g.1, fun {_} => g.2.2⟩

theorem pre_observed_end (val : W → T) (h : HashOrder) {p : Pda W} (hp : p.WF) (hk : p.LookupOK)
    (hl : p.nLabels ≤ epsilon) {a b : Aut (Trace × T)} (ha : FixAut p a) (hb : FixAut p b) (fuel : Nat)
    (i : Instance (Trace × T)) (ans : Bool)
    (hr : Instance.preStarFixedPointAccepts val h p (Instance.ofAutomata p.size a b) fuel = some (i, ans))
    (hn : AutNoBottom i.final) :
    (ans = true ↔ (FixRuns p val a b).Nonempty) ∧
      (∀ [OrderTop T], BelowTop p val → Bottomed T → FindsAny h p (FixRuns p val a b) i.final a i.prod) ∧
      ∀ [OrderTop T], BelowTop p val → BoundedBelow (FixRuns p val a b) →
        FindsBest h p (FixRuns p val a b) i.final a i.prod := by
  unfold Instance.preStarFixedPointAccepts at hr
  rw [Option.bind_eq_some_iff] at hr
  obtain ⟨r, hr, he⟩ := hr
  have hb' : NoBottom r := by
    unfold Instance.preFixedEnd at he
    split at he
    · cases he
    · rename_i hu
      cases he
      exact ⟨by simpa using hu, fun t x ⟨tr1, tr2, hx⟩ => hn t tr1 tr2 x hx⟩
  obtain ⟨hi, h1, h2⟩ := preStarFixedPoint_clean hp hb.toFAutOK hb.noInto h hr hb'.clean
  obtain ⟨i', ans', g1, _, g3, g5, g4⟩ := pre_end val h hl ha hb r hi (fpreL_sound hp hb hi) (fpreL_complete hp hk hi h1 h2)
  rw [g1] at he
  cases he
  exact ⟨g3, g5, g4⟩

/-- C63 for pre*, with the proviso that the pre* rule lookup meets every rule (see C24). -/
theorem c63_pre_observed_partial (val : W → T) (h : HashOrder) {p : Pda W} (hp : p.WF) (hk : p.LookupOK)
    (hl : p.nLabels ≤ epsilon) {a b : Aut (Trace × T)} (ha : FixAut p a) (hb : FixAut p b) (fuel : Nat)
    (i : Instance (Trace × T)) (ans : Bool)
    (hr : Instance.preStarFixedPointAccepts val h p (Instance.ofAutomata p.size a b) fuel = some (i, ans))
    (hn : AutNoBottom i.final) :
    (ans = true ↔ (FixRuns p val a b).Nonempty) ∧
      ∀ [OrderTop T], BelowTop p val → BoundedBelow (FixRuns p val a b) →
        FindsBest h p (FixRuns p val a b) i.final a i.prod :=
  have g := pre_observed_end val h hp hk hl ha hb fuel i ans hr hn
  ⟨g.1, fun {_} => g.2.2⟩

theorem interleaving_observed_end (val : W → T) (h : HashOrder) {p : Pda W} (hp : p.WF) (hk : p.LookupOK)
    (hl : p.nLabels ≤ epsilon) {a b : Aut (Trace × T)} (ha : FixAut p a) (hb : FixAut p b) (fuel : Nat)
    (i : Instance (Trace × T)) (ans byPre : Bool)
    (hr : Instance.interleavingFixedPointAccepts val h p (Instance.ofAutomata p.size a b)
        (Instance.ofAutomata p.size a b) fuel = some ((i, ans), byPre))
    (hn : AutNoBottom (if byPre then i.final else i.initial)) :
    (ans = true ↔ (FixRuns p val a b).Nonempty) ∧
      (∀ [OrderTop T], BelowTop p val → Bottomed T →
        if byPre then i.initial = a ∧ FindsAny h p (FixRuns p val a b) i.final a i.prod
        else i.final = b ∧ FindsAny h p (FixRuns p val a b) i.initial b i.prod) ∧
      ∀ [OrderTop T], BelowTop p val → BoundedBelow (FixRuns p val a b) →
        if byPre then i.initial = a ∧ FindsBest h p (FixRuns p val a b) i.final a i.prod
        else i.final = b ∧ FindsBest h p (FixRuns p val a b) i.initial b i.prod := by
  have hc := postCtx hp hl ha.toFAutOK ha.noInto
  unfold Instance.interleavingFixedPointAccepts at hr
  rw [Option.bind_eq_some_iff] at hr
  obtain ⟨x, hx, hr⟩ := hr
  have hI : FPreR p val b x.1 ∧ FPostR p val a x.2 := by
    refine (whileSome_inv (I := fun x : FPre T × FPost T => FPreR p val b x.1 ∧ FPostR p val a x.2) ?_
      ⟨fpreInit_run hp hb.toFAutOK hb.noInto h, fpostInit_run h hc⟩ hx).1
    rintro s s' ⟨g1, g2⟩ hst
    unfold Instance.interleaveStep at hst
    split at hst
    · cases hst
    · rename_i hd
      cases hst
      rw [Bool.or_eq_true, not_or] at hd
      exact ⟨g1.step hp hb.toFAutOK (by simpa using hd.1), g2.step hc (by simpa using hd.2)⟩
  split at hr
  · rw [Option.map_eq_some_iff] at hr
    obtain ⟨_, hr, he⟩ := hr
    cases he
    rw [Option.bind_eq_some_iff] at hr
    obtain ⟨r, hr, he⟩ := hr
    rw [if_pos rfl] at hn
    have hb' : NoBottom r := by
      unfold Instance.preFixedEnd at he
      split at he
      · cases he
      · rename_i hu
        cases he
        exact ⟨by simpa using hu, fun t x ⟨tr1, tr2, hx⟩ => hn t tr1 tr2 x hx⟩
    obtain ⟨hi, h1, h2⟩ := hI.1.finalize hp hb.toFAutOK hr hb'.clean
    obtain ⟨i', ans', g1, g2, g3, g5, g4⟩ := pre_end val h hl ha hb r hi (fpreL_sound hp hb hi) (fpreL_complete hp hk hi h1 h2)
    rw [g1] at he
    cases he
    exact ⟨g3, fun hT hB => by rw [if_pos rfl]; exact ⟨g2, g5 hT hB⟩, fun hT hB => by rw [if_pos rfl]; exact ⟨g2, g4 hT hB⟩⟩
  · rw [Option.map_eq_some_iff] at hr
    obtain ⟨_, hr, he⟩ := hr
    cases he
    rw [Option.bind_eq_some_iff] at hr
    obtain ⟨r, hr, he⟩ := hr
    rw [if_neg (by decide)] at hn
    have hb' : NoBottom r := by
      unfold Instance.postFixedEnd at he
      split at he
      · cases he
      · rename_i hu
        cases he
        exact ⟨by simpa using hu, fun t x ⟨tr1, tr2, hx⟩ => hn t tr1 tr2 x hx⟩
    obtain ⟨hi, h1, h2⟩ := hI.2.finalize hc hr hb'.clean
    obtain ⟨i', ans', g1, g2, g3, g5, g4⟩ := post_end val h hp hl ha hb r hi (fpostL_sound ha hc hi) (fpostL_complete ha hc hi h1 h2)
    rw [g1] at he
    cases he
    exact ⟨g3, fun hT hB => by rw [if_neg (by decide)]; exact ⟨g2, g5 hT hB⟩,
      fun hT hB => by rw [if_neg (by decide)]; exact ⟨g2, g4 hT hB⟩⟩

/-- C63 for the interleaved search, with the proviso of C24 for pre*. -/
theorem c63_interleaving_observed_partial (val : W → T) (h : HashOrder) {p : Pda W} (hp : p.WF) (hk : p.LookupOK)
    (hl : p.nLabels ≤ epsilon) {a b : Aut (Trace × T)} (ha : FixAut p a) (hb : FixAut p b) (fuel : Nat)
    (i : Instance (Trace × T)) (ans byPre : Bool)
    (hr : Instance.interleavingFixedPointAccepts val h p (Instance.ofAutomata p.size a b)
        (Instance.ofAutomata p.size a b) fuel = some ((i, ans), byPre))
    (hn : AutNoBottom (if byPre then i.final else i.initial)) :
    (ans = true ↔ (FixRuns p val a b).Nonempty) ∧
      ∀ [OrderTop T], BelowTop p val → BoundedBelow (FixRuns p val a b) →
        if byPre then i.initial = a ∧ FindsBest h p (FixRuns p val a b) i.final a i.prod
        else i.final = b ∧ FindsBest h p (FixRuns p val a b) i.initial b i.prod :=
  have g := interleaving_observed_end val h hp hk hl ha hb fuel i ans byPre hr hn
  ⟨g.1, fun {_} => g.2.2⟩

/-! ## Non-vacuity -/

theorem autNoBottom_of_all (A : Aut (Trace × ExWeight)) (h : A.edges.all (fun e => decide (e.2.2.2 ≠ ⊥)) = true) : AutNoBottom A := by
  intro t tr1 tr2 x hx
  unfold Aut.getEdge at hx
  rw [Option.map_eq_some_iff] at hx
  obtain ⟨e, h1, h2⟩ := hx
  have := List.all_eq_true.1 h e (List.mem_of_find?_eq_some h1)
  rw [decide_eq_true_iff, h2] at this
  exact this

/-- ⟨0, a⟩ → ⟨1, b⟩ with weight 3 and ⟨1, b⟩ → ⟨0, a⟩ with weight -3, a cycle of weight zero. -/
def turnCalls : List (PdaCall ℤ) := [.rule 0 ⟨1, .swap, 3, 1⟩ false [0], .rule 1 ⟨0, .swap, -3, 0⟩ false [1]]

def turnFrom : Aut (Trace × ExWeight) := { acc := [false, false, true], edges := [(⟨0, 0, 2⟩, {}, {}, 0)] }

def turnTo : Aut (Trace × ExWeight) := { acc := [false, false, true], edges := [(⟨1, 1, 2⟩, {}, {}, 0)] }

/-- Non-vacuity: in this example the first phase of both saturations reaches its round limit, so it does not stop
because nothing changes, and no weight in the result is `bottom()`; all three searches return, and the weight of the
best run is 3. -/
example : (Pda.build 2 turnCalls).WF ∧ (Pda.build 2 turnCalls).LookupOK ∧ (Pda.build 2 turnCalls).nLabels ≤ epsilon ∧
    FixAut (Pda.build 2 turnCalls) turnFrom ∧ FixAut (Pda.build 2 turnCalls) turnTo ∧
    (fixLoop (fpreStepWith exVal (Pda.build 2 turnCalls)) false 100
      (fpreInit exVal HashOrder.id (Pda.build 2 turnCalls) turnTo)).map (·.done) = some false ∧
    (fixLoop (fpostStepWith exVal (Pda.build 2 turnCalls)) false 100
      (fpostInit HashOrder.id (Pda.build 2 turnCalls) turnFrom)).map (·.done) = some false ∧
    (∃ r, preStarFixedPoint exVal HashOrder.id (Pda.build 2 turnCalls) turnTo 100 = some r ∧ NoBottom r) ∧
    (∃ r, postStarFixedPoint exVal HashOrder.id (Pda.build 2 turnCalls) turnFrom 100 = some r ∧ NoBottom r) ∧
    (∃ i, Instance.postStarFixedPointAccepts exVal HashOrder.id (Pda.build 2 turnCalls)
        (Instance.ofAutomata (Pda.build 2 turnCalls).size turnFrom turnTo) 100 = some (i, true) ∧ AutNoBottom i.initial ∧
      (i.prod.findPathFixedPoint HashOrder.id 100).map (fun x => decide (x.2 = exVal 3)) = some true) ∧
    (∃ i, Instance.preStarFixedPointAccepts exVal HashOrder.id (Pda.build 2 turnCalls)
        (Instance.ofAutomata (Pda.build 2 turnCalls).size turnFrom turnTo) 100 = some (i, true) ∧ AutNoBottom i.final ∧
      (i.prod.findPathFixedPoint HashOrder.id 100).map (fun x => decide (x.2 = exVal 3)) = some true) ∧
    ∃ i byPre, Instance.interleavingFixedPointAccepts exVal HashOrder.id (Pda.build 2 turnCalls)
        (Instance.ofAutomata (Pda.build 2 turnCalls).size turnFrom turnTo)
        (Instance.ofAutomata (Pda.build 2 turnCalls).size turnFrom turnTo) 100 = some ((i, true), byPre) ∧
      AutNoBottom (if byPre then i.final else i.initial) := by
  have hOK : ∀ c ∈ turnCalls, c.OK 2 := by simp [turnCalls, PdaCall.OK, WSorted]
  have hsize : (Pda.build 2 turnCalls).size = 2 := by decide +kernel
  have hlab : (Pda.build 2 turnCalls).nLabels = 2 := by decide +kernel
  have nb : ∀ {X : Type} (r : FixSt ExWeight X), (!r.undef && r.aut.edges.all (fun e => decide (e.2.2.2 ≠ ⊥))) = true →
      NoBottom r := by
    intro X r h
    rw [Bool.and_eq_true] at h
    exact ⟨by simpa using h.1, fun t x ⟨tr1, tr2, hx⟩ => autNoBottom_of_all r.aut h.2 t tr1 tr2 x hx⟩
  have ex : ∀ {A : Type} (x : Option A) (f : A → Bool), x.map f = some true → ∃ r, x = some r ∧ f r = true := by
    intro A x f h
    rw [Option.map_eq_some_iff] at h
    exact h
  refine ⟨Pda.WF_build 2 _ hOK, lookupOK_build 2 _ hOK ?_, by decide +kernel,
    ⟨⟨by rw [hsize]; decide, ?_, by simp [keys, turnFrom], by simp [turnFrom]⟩, ?_⟩,
    ⟨⟨by rw [hsize]; decide, ?_, by simp [keys, turnTo], by simp [turnTo]⟩, ?_⟩,
    by decide +kernel, by decide +kernel, ?_, ?_, ?_, ?_, ?_⟩
  · intro src r wc pre hm h1 h2
    simp only [turnCalls, List.mem_cons, List.not_mem_nil, or_false, PdaCall.rule.injEq] at hm
    rcases hm with ⟨_, rfl, _⟩ | ⟨_, rfl, _⟩ <;> simp_all
  · intro t ht
    simp only [keys, turnFrom, List.map_cons, List.map_nil, List.mem_cons, List.not_mem_nil, or_false] at ht
    subst ht
    simp [Valid, Aut.n, hlab, turnFrom]
  · intro t ht
    simp only [keys, turnFrom, List.map_cons, List.map_nil, List.mem_cons, List.not_mem_nil, or_false] at ht
    subst ht
    simp [hsize]
  · intro t ht
    simp only [keys, turnTo, List.map_cons, List.map_nil, List.mem_cons, List.not_mem_nil, or_false] at ht
    subst ht
    simp [Valid, Aut.n, hlab, turnTo]
  · intro t ht
    simp only [keys, turnTo, List.map_cons, List.map_nil, List.mem_cons, List.not_mem_nil, or_false] at ht
    subst ht
    simp [hsize]
  · obtain ⟨r, h1, h2⟩ := ex (preStarFixedPoint exVal HashOrder.id (Pda.build 2 turnCalls) turnTo 100)
      (fun r => !r.undef && r.aut.edges.all (fun e => decide (e.2.2.2 ≠ ⊥))) (by decide +kernel)
    exact ⟨r, h1, nb r h2⟩
  · obtain ⟨r, h1, h2⟩ := ex (postStarFixedPoint exVal HashOrder.id (Pda.build 2 turnCalls) turnFrom 100)
      (fun r => !r.undef && r.aut.edges.all (fun e => decide (e.2.2.2 ≠ ⊥))) (by decide +kernel)
    exact ⟨r, h1, nb r h2⟩
  · obtain ⟨⟨i, ans⟩, h1, h2⟩ := ex (Instance.postStarFixedPointAccepts exVal HashOrder.id (Pda.build 2 turnCalls)
        (Instance.ofAutomata (Pda.build 2 turnCalls).size turnFrom turnTo) 100)
      (fun r => r.2 && (r.1.initial.edges.all (fun e => decide (e.2.2.2 ≠ ⊥)) &&
        decide ((r.1.prod.findPathFixedPoint HashOrder.id 100).map (fun x => decide (x.2 = exVal 3)) = some true))) (by decide +kernel)
    simp only [Bool.and_eq_true, decide_eq_true_eq] at h2
    obtain ⟨rfl, h2, h3⟩ := h2
    exact ⟨i, h1, autNoBottom_of_all _ h2, h3⟩
  · obtain ⟨⟨i, ans⟩, h1, h2⟩ := ex (Instance.preStarFixedPointAccepts exVal HashOrder.id (Pda.build 2 turnCalls)
        (Instance.ofAutomata (Pda.build 2 turnCalls).size turnFrom turnTo) 100)
      (fun r => r.2 && (r.1.final.edges.all (fun e => decide (e.2.2.2 ≠ ⊥)) &&
        decide ((r.1.prod.findPathFixedPoint HashOrder.id 100).map (fun x => decide (x.2 = exVal 3)) = some true))) (by decide +kernel)
    simp only [Bool.and_eq_true, decide_eq_true_eq] at h2
    obtain ⟨rfl, h2, h3⟩ := h2
    exact ⟨i, h1, autNoBottom_of_all _ h2, h3⟩
  · obtain ⟨⟨⟨i, ans⟩, byPre⟩, h1, h2⟩ := ex (Instance.interleavingFixedPointAccepts exVal HashOrder.id (Pda.build 2 turnCalls)
        (Instance.ofAutomata (Pda.build 2 turnCalls).size turnFrom turnTo)
        (Instance.ofAutomata (Pda.build 2 turnCalls).size turnFrom turnTo) 100)
      (fun r => r.1.2 && (if r.2 then r.1.1.final else r.1.1.initial).edges.all (fun e => decide (e.2.2.2 ≠ ⊥))) (by decide +kernel)
    simp only [Bool.and_eq_true] at h2
    obtain ⟨rfl, h2⟩ := h2
    exact ⟨i, byPre, h1, autNoBottom_of_all _ h2⟩

end Verif.Props
