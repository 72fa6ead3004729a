import Verif.Props.FixedRun

/-!
# C70 for the solver: `find_path_fixed_point()` when the weights of the runs are not bounded

As C63, without the assumption that the weights of the runs from the initial to the final automaton are bounded: a run
may be repeated with ever better weights because the automata accept stacks of any height.
-/

namespace Verif.Props

variable {W T : Type} [LinearOrder W] [Zero W] [LinearOrder T] [AddCommMonoid T] [IsOrderedAddMonoid T] [OrderBot T] [OrderTop T]

/-- C70 for post*: if `post_star_fixed_point_accepts` returns and leaves no weight `bottom()` in the initial automaton,
then `find_path_fixed_point` returns the null path and `max()` if there is no run, or the best weight of a run with an
accepting path of that weight, or `bottom()` with an accepting path, and in this case the weights of the runs have no
lower bound. -/
theorem c70_post (hT : Bottomed T) (val : W → T) (h : HashOrder) {p : Pda W} (hp : p.WF) (hl : p.nLabels ≤ epsilon)
    (hv : BelowTop p val) {a b : Aut (Trace × T)} (ha : FixAut p a) (hb : FixAut p b) (fuel : Nat)
    (i : Instance (Trace × T)) (ans : Bool)
    (hr : Instance.postStarFixedPointAccepts val h p (Instance.ofAutomata p.size a b) fuel = some (i, ans))
    (hn : AutNoBottom i.initial) : FindsAny h p (FixRuns p val a b) i.initial b i.prod :=
  (post_observed_end val h hp hl ha hb fuel i ans hr hn).2.1 hv hT

/-- C70 for pre*, with the proviso that the pre* rule lookup meets every rule (see C24). -/
theorem c70_pre_partial (hT : Bottomed T) (val : W → T) (h : HashOrder) {p : Pda W} (hp : p.WF) (hk : p.LookupOK)
    (hl : p.nLabels ≤ epsilon) (hv : BelowTop p val) {a b : Aut (Trace × T)} (ha : FixAut p a) (hb : FixAut p b)
    (fuel : Nat) (i : Instance (Trace × T)) (ans : Bool)
    (hr : Instance.preStarFixedPointAccepts val h p (Instance.ofAutomata p.size a b) fuel = some (i, ans))
    (hn : AutNoBottom i.final) : FindsAny h p (FixRuns p val a b) i.final a i.prod :=
  (pre_observed_end val h hp hk hl ha hb fuel i ans hr hn).2.1 hv hT

/-- C70 for the interleaved search, with the proviso of C24 for pre*. -/
theorem c70_interleaving_partial (hT : Bottomed T) (val : W → T) (h : HashOrder) {p : Pda W} (hp : p.WF)
    (hk : p.LookupOK) (hl : p.nLabels ≤ epsilon) (hv : BelowTop p val) {a b : Aut (Trace × T)} (ha : FixAut p a)
    (hb : FixAut p b) (fuel : Nat) (i : Instance (Trace × T)) (ans byPre : Bool)
    (hr : Instance.interleavingFixedPointAccepts val h p (Instance.ofAutomata p.size a b)
        (Instance.ofAutomata p.size a b) fuel = some ((i, ans), byPre))
    (hn : AutNoBottom (if byPre then i.final else i.initial)) :
    if byPre then i.initial = a ∧ FindsAny h p (FixRuns p val a b) i.final a i.prod
    else i.final = b ∧ FindsAny h p (FixRuns p val a b) i.initial b i.prod :=
  (interleaving_observed_end val h hp hk hl ha hb fuel i ans byPre hr hn).2.1 hv hT

/-! ## Non-vacuity -/

/-- Integers with `bottom()` and `max()` are as the theorems require. -/
theorem exWeight_bottomed : Bottomed ExWeight := by
  refine ⟨?_, ?_⟩
  · intro z hz
    induction z using WithTop.recTopCoe with
    | top => exact absurd rfl hz
    | coe z => exact congrArg (WithTop.some) (WithBot.bot_add z)
  · intro a x h1 h2 hx
    induction a using WithTop.recTopCoe with
    | top => exact absurd rfl h2
    | coe a =>
      induction a using WithBot.recBotCoe with
      | bot => exact absurd rfl h1
      | coe a =>
        induction x using WithTop.recTopCoe with
        | top => exact absurd hx not_top_lt
        | coe x =>
          induction x using WithBot.recBotCoe with
          | bot => exact WithTop.coe_lt_coe.2 (show ((a : ℤ) : WithBot ℤ) + ⊥ < a by rw [WithBot.add_bot]; exact WithBot.bot_lt_coe a)
          | coe x =>
            have hx' : x < 0 := WithBot.coe_lt_coe.1 (WithTop.coe_lt_coe.1 hx)
            exact WithTop.coe_lt_coe.2 (WithBot.coe_lt_coe.2 (show a + x < a by omega))

/-- Two states, a loop of weight -1 at the first and an edge from it to the second. -/
def sinkAut : WAut ExWeight where
  n := 2
  m := 1
  accepting s := s == 1
  edges s := if s = 0 then [(0, [(7, exVal (-1))]), (1, [(8, exVal 5)])] else []

/-- Non-vacuity: the weight found for this automaton is `bottom()`, and the path found goes around the loop. -/
example : sinkAut.OK ∧ ¬ sinkAut.NoNegativeCycle ∧
    ∃ r, FP.run sinkAut 100 (FP.init sinkAut) = some r ∧ r.notAccepting = false ∧ r.getWeight = some ⊥ ∧
      (r.getPathWithLoop id 100).map (fun p => (p.states, p.stack)) = some ([0, 0, 0, 1], [7, 7, 8]) := by
  have he : ∀ u l v x, sinkAut.Edge u l v x → v < 2 ∧ x ≠ ⊤ := by
    rintro u l v x ⟨ls, h1, h2⟩
    unfold sinkAut at h1
    dsimp only at h1
    split at h1
    · simp only [List.mem_cons, Prod.mk.injEq, List.not_mem_nil, or_false] at h1
      rcases h1 with ⟨rfl, rfl⟩ | ⟨rfl, rfl⟩ <;>
        simp only [List.mem_cons, Prod.mk.injEq, List.not_mem_nil, or_false] at h2 <;>
        obtain ⟨_, rfl⟩ := h2 <;> exact ⟨by decide, WithTop.coe_ne_top⟩
    · cases h1
  refine ⟨⟨by decide, fun u l v x h => (he u l v x h).1, fun u l v x h => (he u l v x h).2⟩, ?_, ?_⟩
  · intro hN
    have e1 : sinkAut.Edge 0 7 0 (exVal (-1)) := ⟨[(7, exVal (-1))], List.mem_cons_self .., List.mem_singleton.2 rfl⟩
    have e2 : sinkAut.Edge 0 8 1 (exVal 5) :=
      ⟨[(8, exVal 5)], List.mem_cons_of_mem _ (List.mem_singleton.2 rfl), List.mem_singleton.2 rfl⟩
    have := hN 0 0 1 _ _ _ _ _ _ (show 0 < sinkAut.m by decide) (.nil 0) (.snoc (.nil 0) e1) (.snoc (.nil 0) e2) rfl
    revert this
    decide +kernel
  · have ex : ∀ {A : Type} (x : Option A) (f : A → Bool), x.map f = some true → ∃ r, x = some r ∧ f r = true := by
      intro A x f h
      rw [Option.map_eq_some_iff] at h
      exact h
    obtain ⟨r, h1, h2⟩ := ex (FP.run sinkAut 100 (FP.init sinkAut)) (fun r => (!r.notAccepting && decide (r.getWeight = some ⊥)) &&
      decide ((r.getPathWithLoop id 100).map (fun p => (p.states, p.stack)) = some ([0, 0, 0, 1], [7, 7, 8]))) (by decide +kernel)
    simp only [Bool.and_eq_true, decide_eq_true_eq, Bool.not_eq_true'] at h2
    exact ⟨r, h1, h2.1.1, h2.1.2, h2.2⟩

/-- ⟨0, a⟩ → ⟨0, ⟩ with weight -1. -/
def eatCalls : List (PdaCall ℤ) := [.rule 0 ⟨0, .pop, -1, 0⟩ false [0]]

/-- The configurations ⟨0, a … a b⟩ with at least one `a`. -/
def eatFrom : Aut (Trace × ExWeight) :=
  { acc := [false, false, true], edges := [(⟨0, 0, 1⟩, {}, {}, 0), (⟨1, 0, 1⟩, {}, {}, 0), (⟨1, 1, 2⟩, {}, {}, 0)] }

/-- The configuration ⟨0, b⟩. -/
def eatTo : Aut (Trace × ExWeight) := { acc := [false, true], edges := [(⟨0, 1, 1⟩, {}, {}, 0)] }

/-- ⟨0, a⟩ → ⟨0, a a⟩ with weight -1. -/
def growCalls : List (PdaCall ℤ) := [.rule 0 ⟨0, .push, -1, 0⟩ false [0]]

/-- The configuration ⟨0, a⟩. -/
def growFrom : Aut (Trace × ExWeight) := { acc := [false, true], edges := [(⟨0, 0, 1⟩, {}, {}, 0)] }

/-- The configurations ⟨0, a … a⟩ with at least one `a`. -/
def growTo : Aut (Trace × ExWeight) := { acc := [false, true], edges := [(⟨0, 0, 1⟩, {}, {}, 0), (⟨1, 0, 1⟩, {}, {}, 0)] }

/-- A test for `FixAut`. -/
def fixAutTest (p : Pda ℤ) (a : Aut (Trace × ExWeight)) : Bool :=
  decide (p.size ≤ a.n) && (decide (keys a.edges).Nodup && a.edges.all fun e => decide (e.2.2.2 = 0) &&
    (decide (e.1.src < a.n) && (decide (e.1.label < p.nLabels) && (decide (e.1.dst < a.n) && decide (p.size ≤ e.1.dst)))))

theorem fixAut_of {p : Pda ℤ} {a : Aut (Trace × ExWeight)} (h : fixAutTest p a = true) : FixAut p a := by
  simp only [fixAutTest, Bool.and_eq_true, decide_eq_true_eq, List.all_eq_true] at h
  obtain ⟨h1, h2, h3⟩ := h
  refine ⟨⟨h1, ?_, h2, fun e he => (h3 e he).1⟩, ?_⟩
  · intro t ht
    obtain ⟨e, he, rfl⟩ := List.mem_map.1 ht
    have := h3 e he
    exact ⟨this.2.1, this.2.2.1, this.2.2.2.1⟩
  · intro t ht
    obtain ⟨e, he, rfl⟩ := List.mem_map.1 ht
    exact (h3 e he).2.2.2.2

/-- Non-vacuity for pre* and the interleaved search: all hypotheses hold, and what is found is `bottom()` with a path
that reads three times `a` and then `b`. -/
example : (Pda.build 2 eatCalls).WF ∧ (Pda.build 2 eatCalls).LookupOK ∧ (Pda.build 2 eatCalls).nLabels ≤ epsilon ∧
    BelowTop (Pda.build 2 eatCalls) exVal ∧ FixAut (Pda.build 2 eatCalls) eatFrom ∧ FixAut (Pda.build 2 eatCalls) eatTo ∧
    (∃ i, Instance.preStarFixedPointAccepts exVal HashOrder.id (Pda.build 2 eatCalls)
        (Instance.ofAutomata (Pda.build 2 eatCalls).size eatFrom eatTo) 100 = some (i, true) ∧ AutNoBottom i.final ∧
      (i.prod.findPathFixedPoint HashOrder.id 100).map (fun x => (x.1.stack, decide (x.2 = ⊥))) = some ([0, 0, 0, 1], true)) ∧
    ∃ i byPre, Instance.interleavingFixedPointAccepts exVal HashOrder.id (Pda.build 2 eatCalls)
        (Instance.ofAutomata (Pda.build 2 eatCalls).size eatFrom eatTo)
        (Instance.ofAutomata (Pda.build 2 eatCalls).size eatFrom eatTo) 100 = some ((i, true), byPre) ∧
      AutNoBottom (if byPre then i.final else i.initial) ∧
      (i.prod.findPathFixedPoint HashOrder.id 100).map (fun x => (x.1.stack, decide (x.2 = ⊥))) = some ([0, 0, 0, 1], true) := by
  have hOK : ∀ c ∈ eatCalls, c.OK 2 := by simp [eatCalls, PdaCall.OK, WSorted]
  have ex : ∀ {A : Type} (x : Option A) (f : A → Bool), x.map f = some true → ∃ r, x = some r ∧ f r = true := by
    intro A x f h
    rw [Option.map_eq_some_iff] at h
    exact h
  refine ⟨Pda.WF_build 2 _ hOK, lookupOK_build 2 _ hOK ?_, by decide +kernel, exWeight_belowTop _,
    fixAut_of (by decide +kernel), fixAut_of (by decide +kernel), ?_, ?_⟩
  · intro src r wc pre hm h1 h2
    simp only [eatCalls, List.mem_cons, List.not_mem_nil, or_false, PdaCall.rule.injEq] at hm
    obtain ⟨_, rfl, _⟩ := hm
    simp_all
  · obtain ⟨⟨i, ans⟩, h1, h2⟩ := ex (Instance.preStarFixedPointAccepts exVal HashOrder.id (Pda.build 2 eatCalls)
        (Instance.ofAutomata (Pda.build 2 eatCalls).size eatFrom eatTo) 100)
      (fun r => r.2 && (r.1.final.edges.all (fun e => decide (e.2.2.2 ≠ ⊥)) &&
        decide ((r.1.prod.findPathFixedPoint HashOrder.id 100).map (fun x => (x.1.stack, decide (x.2 = ⊥))) =
          some ([0, 0, 0, 1], true)))) (by decide +kernel)
    simp only [Bool.and_eq_true, decide_eq_true_eq] at h2
    obtain ⟨rfl, h2, h3⟩ := h2
    exact ⟨i, h1, autNoBottom_of_all _ h2, h3⟩
  · obtain ⟨⟨⟨i, ans⟩, byPre⟩, h1, h2⟩ := ex (Instance.interleavingFixedPointAccepts exVal HashOrder.id (Pda.build 2 eatCalls)
        (Instance.ofAutomata (Pda.build 2 eatCalls).size eatFrom eatTo)
        (Instance.ofAutomata (Pda.build 2 eatCalls).size eatFrom eatTo) 100)
      (fun r => r.1.2 && ((if r.2 then r.1.1.final else r.1.1.initial).edges.all (fun e => decide (e.2.2.2 ≠ ⊥)) &&
        decide ((r.1.1.prod.findPathFixedPoint HashOrder.id 100).map (fun x => (x.1.stack, decide (x.2 = ⊥))) =
          some ([0, 0, 0, 1], true)))) (by decide +kernel)
    simp only [Bool.and_eq_true, decide_eq_true_eq] at h2
    obtain ⟨rfl, h2, h3⟩ := h2
    exact ⟨i, byPre, h1, autNoBottom_of_all _ h2, h3⟩

/-- Non-vacuity for post*: the path found reads four times `a`. -/
example : (Pda.build 1 growCalls).WF ∧ (Pda.build 1 growCalls).nLabels ≤ epsilon ∧
    BelowTop (Pda.build 1 growCalls) exVal ∧ FixAut (Pda.build 1 growCalls) growFrom ∧ FixAut (Pda.build 1 growCalls) growTo ∧
    ∃ i, Instance.postStarFixedPointAccepts exVal HashOrder.id (Pda.build 1 growCalls)
        (Instance.ofAutomata (Pda.build 1 growCalls).size growFrom growTo) 100 = some (i, true) ∧ AutNoBottom i.initial ∧
      (i.prod.findPathFixedPoint HashOrder.id 100).map (fun x => (x.1.stack, decide (x.2 = ⊥))) = some ([0, 0, 0, 0], true) := by
  have hOK : ∀ c ∈ growCalls, c.OK 1 := by simp [growCalls, PdaCall.OK, WSorted]
  have ex : ∀ {A : Type} (x : Option A) (f : A → Bool), x.map f = some true → ∃ r, x = some r ∧ f r = true := by
    intro A x f h
    rw [Option.map_eq_some_iff] at h
    exact h
  refine ⟨Pda.WF_build 1 _ hOK, by decide +kernel, exWeight_belowTop _,
    fixAut_of (by decide +kernel), fixAut_of (by decide +kernel), ?_⟩
  obtain ⟨⟨i, ans⟩, h1, h2⟩ := ex (Instance.postStarFixedPointAccepts exVal HashOrder.id (Pda.build 1 growCalls)
      (Instance.ofAutomata (Pda.build 1 growCalls).size growFrom growTo) 100)
    (fun r => r.2 && (r.1.initial.edges.all (fun e => decide (e.2.2.2 ≠ ⊥)) &&
      decide ((r.1.prod.findPathFixedPoint HashOrder.id 100).map (fun x => (x.1.stack, decide (x.2 = ⊥))) =
        some ([0, 0, 0, 0], true)))) (by decide +kernel)
  simp only [Bool.and_eq_true, decide_eq_true_eq] at h2
  obtain ⟨rfl, h2, h3⟩ := h2
  exact ⟨i, h1, autNoBottom_of_all _ h2, h3⟩

end Verif.Props
