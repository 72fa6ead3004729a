import Verif.Model.ShortestProduct
import Verif.Props.ShortestPost

/-!
# C57-C60: where the solver goes wrong with `Trace_Type::Shortest`

Concrete instances on which the model of the code returns a wrong answer or a wrong weight. The theorems about all
instances are in `Props/ShortestPre` and `Props/ShortestProduct`.
-/

namespace Verif.Props

variable {W T : Type} [LinearOrder W] [LinearOrder T] [AddCommMonoid T]

/-- The weights of the runs of `p` that lead from a configuration accepted by `a` to one accepted by `b`. -/
def RunsBetween (p : Pda W) (val : W → T) (a b : Aut T) : Set T :=
  ConnectWeights p.Has val p.size (· ∈ keys a.edges) (fun q => a.isAcc q = true) (· ∈ keys b.edges) (fun q => b.isAcc q = true)

/-- The answer, the path of `find_path<Shortest>` and its weight. -/
def outcome (r : Option (SInstance T × Bool)) : Option (Bool × APath Nat × WithTop T) :=
  r.map fun x => (x.2, x.1.prod.findFirst)

/-- ⟨0,0⟩ → ⟨1,2 0⟩ (weight 0), ⟨0,1⟩ → ⟨1,2 1⟩ (10), ⟨1,2⟩ → ⟨2,3⟩ (5). -/
def lateCalls : List (PdaCall ℤ) :=
  [.rule 0 ⟨1, .push, 0, 2⟩ false [0], .rule 0 ⟨1, .push, 10, 2⟩ false [1], .rule 1 ⟨2, .swap, 5, 3⟩ false [2]]

def latePda : Pda ℤ := Pda.build 4 lateCalls

/-- Accepts ⟨0,0⟩ and ⟨0,1⟩. -/
def lateFrom : Aut ℤ :=
  { acc := [false, false, false, true], edges := [(⟨0, 0, 3⟩, {}, 0), (⟨0, 1, 3⟩, {}, 0)] }

/-- Accepts ⟨2,3 1⟩. -/
def lateTo : Aut ℤ :=
  { acc := [false, false, false, false, true], edges := [(⟨2, 3, 3⟩, {}, 0), (⟨3, 1, 4⟩, {}, 0)] }

theorem late_connected : (15 : ℤ) ∈ RunsBetween latePda id lateFrom lateTo := by
  refine ⟨(0, [1]), (2, [3, 1]), by decide +kernel, ⟨3, .cons (q := 3) (by decide) (.nil _), by decide⟩, ?_,
    ⟨4, .cons (q := 3) (by decide) (.cons (q := 4) (by decide) (.nil _)), by decide⟩⟩
  exact CostRun.cons (R := latePda.Has) (val := id) ⟨0, 1, 1, .push, 2, 10⟩ [] _ _ (by unfold Pda.Has; decide +kernel)
    (CostRun.cons (R := latePda.Has) (val := id) ⟨1, 2, 2, .swap, 3, 5⟩ [1] _ _ (by unfold Pda.Has; decide +kernel)
      (CostRun.nil _))

/-- C58, a disagreement found: `post_star_accepts<Shortest>` answers no although a configuration of the final automaton
can be reached. The last element in the queue has the key 10; the path found has the weight 15, which is more, and
nobody asks again after the queue is empty. The path itself, with its weight, is there. -/
theorem c58_post_answer_wrong :
    outcome ((SInstance.postStarAccepts id (Heap.first ShElem.key) (Heap.first Prod.fst) HashOrder.id latePda
      (SInstance.ofAutomata latePda.size lateFrom lateTo fun _ => 0) 100).toOption.bind id) =
      some (false, ⟨3, [(3, 2), (1, 4)]⟩, ((15 : ℤ) : WithTop ℤ)) ∧ (15 : ℤ) ∈ RunsBetween latePda id lateFrom lateTo :=
  ⟨by decide +kernel, late_connected⟩

/-! ## pre* with early termination -/

/-- ⟨0,0⟩ → ⟨1,ε⟩ (weight 1), ⟨1,1⟩ → ⟨2,2⟩ (10), ⟨2,2⟩ → ⟨2,3⟩ (1), ⟨1,1⟩ → ⟨2,3⟩ (20), ⟨1,3⟩ → ⟨2,3⟩ (0). -/
def staleCalls : List (PdaCall ℤ) :=
  [.rule 0 ⟨1, .pop, 1, 0⟩ false [0], .rule 1 ⟨2, .swap, 10, 2⟩ false [1], .rule 2 ⟨2, .swap, 1, 3⟩ false [2],
    .rule 1 ⟨2, .swap, 20, 3⟩ false [1], .rule 1 ⟨2, .swap, 0, 3⟩ false [3]]

def stalePda : Pda ℤ := Pda.build 4 staleCalls

/-- Accepts ⟨0,0 1⟩. -/
def staleFrom : Aut ℤ :=
  { acc := [false, false, false, false, true], edges := [(⟨0, 0, 3⟩, {}, 0), (⟨3, 1, 4⟩, {}, 0)] }

/-- Accepts ⟨2,3⟩. -/
def staleTo : Aut ℤ := { acc := [false, false, false, true], edges := [(⟨2, 3, 3⟩, {}, 0)] }

theorem stale_connected : (12 : ℤ) ∈ RunsBetween stalePda id staleFrom staleTo := by
  refine ⟨(0, [0, 1]), (2, [3]), by decide +kernel,
    ⟨4, .cons (q := 3) (by decide) (.cons (q := 4) (by decide) (.nil _)), by decide⟩, ?_,
    ⟨3, .cons (q := 3) (by decide) (.nil _), by decide⟩⟩
  exact CostRun.cons (R := stalePda.Has) (val := id) ⟨0, 0, 1, .pop, 0, 1⟩ [1] _ _ (by unfold Pda.Has; decide +kernel)
    (CostRun.cons (R := stalePda.Has) (val := id) ⟨1, 1, 2, .swap, 2, 10⟩ [] _ _ (by unfold Pda.Has; decide +kernel)
      (CostRun.cons (R := stalePda.Has) (val := id) ⟨2, 2, 2, .swap, 3, 1⟩ [] _ _ (by unfold Pda.Has; decide +kernel)
        (CostRun.nil _)))

/-- C59, a disagreement found: `pre_star_accepts<Shortest>` answers no although the final automaton can be reached. The
code asks once more with the weight `max()` when the queue has run empty (internal/PdaSaturation.h:322-327), but not if
the last element of the queue was out of date, because then it has returned before. The path is there. -/
theorem c59_pre_answer_wrong :
    outcome (SInstance.preStarAccepts id (Heap.first ShElem.key) (Heap.first Prod.fst) HashOrder.id (fun _ => false) stalePda
      (SInstance.ofAutomata stalePda.size staleFrom staleTo fun _ => 0) 100) =
      some (false, ⟨3, [(0, 0), (1, 1)]⟩, ((12 : ℤ) : WithTop ℤ)) ∧ (12 : ℤ) ∈ RunsBetween stalePda id staleFrom staleTo :=
  ⟨by decide +kernel, stale_connected⟩

/-- Accepts ⟨0,0⟩. -/
def sameAut : Aut ℤ := { acc := [false, false, false, true], edges := [(⟨0, 0, 3⟩, {}, 0)] }

/-- C59, a disagreement found: if the two automata have a configuration in common, `pre_star_accepts<Shortest>` answers
yes at once, after `initialize_product` without a trace type, which sets no back edges. The path that
`find_path<Shortest>` returns has no edges, although the least accepted stack has one symbol, and its weight is
whatever the uninitialized member `_best_weight` holds. -/
theorem c59_pre_weight_junk (junk : ℤ) (hj : junk = -5 ∨ junk = 5) :
    outcome (SInstance.preStarAccepts id (Heap.first ShElem.key) (Heap.first Prod.fst) HashOrder.id (fun _ => false) latePda
      (SInstance.ofAutomata latePda.size sameAut sameAut fun _ => junk) 100) =
      some (true, ⟨3, []⟩, (junk : WithTop ℤ)) ∧ (0 : ℤ) ∈ RunsBetween latePda id sameAut sameAut := by
  refine ⟨by rcases hj with rfl | rfl <;> decide +kernel, (0, [0]), (0, [0]), by decide +kernel, ⟨3, .cons (q := 3) (by decide) (.nil _), by decide⟩, CostRun.nil _,
    ⟨3, .cons (q := 3) (by decide) (.nil _), by decide⟩⟩

/-- C58, a disagreement found: if ⟨0,ε⟩ is accepted by both automata, the weight reported after
`post_star_accepts<Shortest>` is what the uninitialized member `_best_weight` holds; it should be zero. If that
value is positive, the answer is no. -/
theorem c58_post_empty_stack :
    let a : Aut ℤ := { acc := [true, false, false], edges := [] }
    (∀ junk : ℤ, junk = -5 ∨ junk = 5 → outcome ((SInstance.postStarAccepts id (Heap.first ShElem.key) (Heap.first Prod.fst)
      HashOrder.id latePda (SInstance.ofAutomata latePda.size a a fun _ => junk) 100).toOption.bind id) =
      some (decide (junk ≤ 0), ⟨0, []⟩, (junk : WithTop ℤ))) ∧ (0 : ℤ) ∈ RunsBetween latePda id a a := by
  refine ⟨?_, (0, []), (0, []), by decide +kernel, ⟨0, .nil _, by decide⟩, CostRun.nil _, ⟨0, .nil _, by decide⟩⟩
  rintro junk (rfl | rfl) <;> decide +kernel

/-! ## dual search -/

/-- Accepts ⟨2,3 1⟩, among others. -/
def dualTo : Aut ℤ :=
  { acc := [false, false, false, false, true],
    edges := [(⟨2, 3, 3⟩, {}, 0), (⟨3, 1, 4⟩, {}, 0), (⟨1, 3, 3⟩, {}, 0), (⟨0, 3, 3⟩, {}, 0), (⟨2, 2, 3⟩, {}, 0),
      (⟨2, 1, 3⟩, {}, 0), (⟨2, 0, 3⟩, {}, 0)] }

/-- C60, a disagreement found: `dual_search_accepts<Shortest>` answers no although the final automaton can be reached,
when the queue of post* is the first to run empty. -/
theorem c60_dual_answer_wrong :
    outcome ((SInstance.dualSearchAccepts id (Heap.first ShElem.key) (Heap.first Prod.fst) HashOrder.id (fun _ => false) latePda
      (SInstance.ofAutomata latePda.size lateFrom dualTo fun _ => 0) 100).toOption.bind id) =
      some (false, ⟨3, [(3, 2), (1, 4)]⟩, ((15 : ℤ) : WithTop ℤ)) ∧ (15 : ℤ) ∈ RunsBetween latePda id lateFrom dualTo := by
  refine ⟨by decide +kernel, ?_⟩
  obtain ⟨c, c', h1, h2, h3, f, h4, h5⟩ := late_connected
  refine ⟨(0, [1]), (2, [3, 1]), by decide +kernel, ⟨3, .cons (q := 3) (by decide) (.nil _), by decide⟩, ?_,
    ⟨4, .cons (q := 3) (by decide) (.cons (q := 4) (by decide) (.nil _)), by decide⟩⟩
  exact CostRun.cons (R := latePda.Has) (val := id) ⟨0, 1, 1, .push, 2, 10⟩ [] _ _ (by unfold Pda.Has; decide +kernel)
    (CostRun.cons (R := latePda.Has) (val := id) ⟨1, 2, 2, .swap, 3, 5⟩ [1] _ _ (by unfold Pda.Has; decide +kernel)
      (CostRun.nil _))

/-- C60, a disagreement found: as in `c59_pre_weight_junk`. -/
theorem c60_dual_weight_junk (junk : ℤ) (hj : junk = -5 ∨ junk = 5) :
    outcome ((SInstance.dualSearchAccepts id (Heap.first ShElem.key) (Heap.first Prod.fst) HashOrder.id (fun _ => false) latePda
      (SInstance.ofAutomata latePda.size sameAut sameAut fun _ => junk) 100).toOption.bind id) =
      some (true, ⟨3, []⟩, (junk : WithTop ℤ)) ∧ (0 : ℤ) ∈ RunsBetween latePda id sameAut sameAut := by
  refine ⟨by rcases hj with rfl | rfl <;> decide +kernel, (0, [0]), (0, [0]), by decide +kernel, ⟨3, .cons (q := 3) (by decide) (.nil _), by decide⟩, CostRun.nil _,
    ⟨3, .cons (q := 3) (by decide) (.nil _), by decide⟩⟩

/-! ## The saturation -/

/-- ⟨0,0⟩ → ⟨0,1⟩ (weight 5), ⟨0,1⟩ → ⟨0,2⟩ (7). -/
def chainPda : Pda ℤ := Pda.build 3 [.rule 0 ⟨0, .swap, 5, 1⟩ false [0], .rule 0 ⟨0, .swap, 7, 2⟩ false [1]]

/-- Accepts ⟨0,2⟩ and ⟨0,2 2⟩. -/
def chainTo : Aut ℤ := { acc := [false, true], edges := [(⟨0, 2, 1⟩, {}, 0), (⟨1, 2, 1⟩, {}, 0)] }

/-- C57, a disagreement found: without early termination, which is the default, `pre_star<Shortest>` takes the weight of
every transition to be zero, so that it discards each new transition of positive weight as out of date. The
configuration ⟨0,0⟩ reaches the language with the weight 12, but no transition for it is added, and
`pre_star_accepts<Shortest>(automaton, 0, {0, 2})` answers no. With early termination the weight is there. -/
theorem c57_no_early_termination :
    ((preStarShortest id (Heap.first ShElem.key) HashOrder.id noSCb false (fun _ => false) chainPda chainTo () 100).map
      fun s => (s.aut.wt ⟨0, 1, 1⟩, s.aut.wt ⟨0, 0, 1⟩)) = some (some (7 : ℤ), none) ∧
    ((preStarShortest id (Heap.first ShElem.key) HashOrder.id noSCb true (fun _ => false) chainPda chainTo () 100).map
      fun s => (s.aut.wt ⟨0, 1, 1⟩, s.aut.wt ⟨0, 0, 1⟩)) = some (some (7 : ℤ), some (12 : ℤ)) ∧
    ((preStarShortestAccepts id (Heap.first ShElem.key) HashOrder.id (fun _ => false) chainPda chainTo 0 [0, 2] 100).map
      Prod.snd) = some false ∧
    (12 : ℤ) ∈ RunWeightsTo chainPda.Has id (· ∈ keys chainTo.edges) (fun q => chainTo.isAcc q = true) (0, [0, 2]) := by
  refine ⟨by decide +kernel, by decide +kernel, by decide +kernel, (0, [2, 2]), ?_,
    ⟨1, .cons (q := 1) (by decide) (.cons (q := 1) (by decide) (.nil _)), by decide⟩⟩
  exact CostRun.cons (R := chainPda.Has) (val := id) ⟨0, 0, 0, .swap, 1, 5⟩ [2] _ _ (by unfold Pda.Has; decide +kernel)
    (CostRun.cons (R := chainPda.Has) (val := id) ⟨0, 1, 0, .swap, 2, 7⟩ [2] _ _ (by unfold Pda.Has; decide +kernel)
      (CostRun.nil _))

/-- ⟨0,0⟩ → ⟨1,ε⟩ (weight 3), ⟨2,1⟩ → ⟨0,0⟩ (0), ⟨1,3⟩ → ⟨3,2⟩ (1). -/
def popPda : Pda ℤ :=
  Pda.build 4 [.rule 0 ⟨1, .pop, 3, 0⟩ false [0], .rule 2 ⟨0, .swap, 0, 0⟩ false [1], .rule 1 ⟨3, .swap, 1, 2⟩ false [3]]

/-- Accepts ⟨1,ε⟩ and ⟨3,2⟩. -/
def popTo : Aut ℤ := { acc := [false, true, false, false, true], edges := [(⟨3, 2, 4⟩, {}, 0)] }

/-- C57, a disagreement found: if a control state accepts and has no transitions, the keys of the transitions into it
are computed from `_minpath`, which is still `max()`. An assertion fails; without assertions the saturation goes on and
discards them as out of date: the configuration ⟨2,1⟩ reaches ⟨1,ε⟩ with the weight 3 and is not found. -/
theorem c57_accepting_control_state :
    ((preStarShortest id (Heap.first ShElem.key) HashOrder.id noSCb true (fun _ => false) popPda popTo () 100).map
      fun s => (s.failed, s.aut.wt ⟨0, 0, 1⟩, s.aut.wt ⟨2, 1, 1⟩)) = some (true, some (3 : ℤ), none) ∧
    (3 : ℤ) ∈ RunWeightsTo popPda.Has id (· ∈ keys popTo.edges) (fun q => popTo.isAcc q = true) (2, [1]) := by
  refine ⟨by decide +kernel, (1, []), ?_, ⟨1, .nil _, by decide⟩⟩
  exact CostRun.cons (R := popPda.Has) (val := id) ⟨2, 1, 0, .swap, 0, 0⟩ [] _ _ (by unfold Pda.Has; decide +kernel)
    (CostRun.cons (R := popPda.Has) (val := id) ⟨0, 0, 1, .pop, 0, 3⟩ [] _ _ (by unfold Pda.Has; decide +kernel)
      (CostRun.nil _))

/-- C57, a disagreement found: for a transition that leaves a state of the automaton that is not a control state, the
code reads behind the end of the vector `_popped`. -/
theorem c57_popped_out_of_range :
    (preStarShortest id (Heap.first ShElem.key) HashOrder.id noSCb true (fun _ => false) chainPda chainTo () 100).map
      (fun s => s.oob) = some true := by decide +kernel

/-! ## Traces -/

/-- The answer, the result of `get_trace<Shortest>` and its weight. -/
def tracedOutcome (p : Pda ℤ) (swap : Bool) (r : Option (SInstance ℤ × Bool)) : Option (Bool × Option (List Config) × WithTop ℤ) :=
  r.map fun x => (x.2, x.1.getTrace p swap)

/-- ⟨0,0⟩ → ⟨1,1⟩ (weight 10), ⟨0,0⟩ → ⟨2,2⟩ (0), ⟨2,2⟩ → ⟨1,1⟩ (1). -/
def detourPda : Pda ℤ :=
  Pda.build 3 [.rule 0 ⟨1, .swap, 10, 1⟩ false [0], .rule 0 ⟨2, .swap, 0, 2⟩ false [0], .rule 2 ⟨1, .swap, 1, 1⟩ false [2]]

/-- Accepts ⟨1,1⟩. -/
def detourTo : Aut ℤ := { acc := [false, false, false, true], edges := [(⟨1, 1, 3⟩, {}, 0)] }

local instance : DecidableEq (Option (List Config) × WithTop ℤ) := inferInstance

/-- C59, a disagreement found: when pre* finds a lighter derivation of a transition it already has, it lowers the weight
and keeps the old trace. After `pre_star_accepts<Shortest>` the reported weight is 1, while the returned trace has one
step, whose only rule weighs 10. -/
theorem c59_pre_trace_heavier :
    tracedOutcome detourPda true
      (SInstance.preStarAccepts id (Heap.first ShElem.key) (Heap.first Prod.fst) HashOrder.id (fun _ => false) detourPda
        (SInstance.ofAutomata detourPda.size sameAut detourTo fun _ => 0) 100) =
        some (true, some [(0, [0]), (1, [1])], ((1 : ℤ) : WithTop ℤ)) ∧
    ∀ r, detourPda.Has r → r.src = 0 → r.dst = 1 → r.weight = 10 := by
  refine ⟨by decide +kernel, ?_⟩
  have : ∀ r ∈ detourPda.allRules, r.src = 0 → r.dst = 1 → r.weight = 10 := by decide +kernel
  exact this

end Verif.Props
