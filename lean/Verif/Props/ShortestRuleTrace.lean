import Verif.Proofs.ShortestRuleTrace
import Verif.Props.ShortestSearchTrace

/-!
# C84: the rules, stacks and paths of a shortest trace

`getRuleTrace p swap` is `get_rule_trace_and_paths<Trace_Type::Shortest>(instance)`, with `swap` set after
`pre_star_accepts<Shortest>`. The hypotheses are those of C62 for post* and those of C68 for pre*.
-/

namespace Verif.Props

open Verif.Product

variable {W T : Type}

/-- The states and the labels form an accepting path of the automaton from the state `q`. -/
structure AlongPath (a : Aut T) (qs w : List Nat) (q : Nat) : Prop where
  spells : Spells (· ∈ keys a.edges) qs w
  head : qs.head? = some q
  last : ∃ f, qs.getLast? = some f ∧ a.isAcc f = true

/-- The rules lead from a configuration that `a` accepts along the first path to one that `b` accepts along the second
path. -/
structure IsRulePaths (p : Pda W) (a b : Aut T) (t : RuleTrace W) : Prop where
  run : ∃ q', Run (t.state, t.initialStack) t.rules (q', t.finalStack) ∧ AlongPath b t.finalPath t.finalStack q'
  initial : AlongPath a t.initialPath t.initialStack t.state
  state : t.state < p.size

theorem AlongPath.accepted {a : Aut T} {qs w : List Nat} {q : Nat} (h : AlongPath a qs w q) :
    Accepted (· ∈ keys a.edges) (fun q => a.isAcc q = true) (q, w) := by
  obtain ⟨f, h1, h2⟩ := h.last
  exact ⟨f, h.spells.path h.head h1, h2⟩

/-- The sum of the weights of the rules. -/
def ruleSum [AddCommMonoid T] (val : W → T) (rs : List (URule W)) : T := (rs.map fun r => val r.weight).sum

section
variable [LinearOrder W] [LinearOrder T] [AddCommMonoid T] [IsOrderedCancelAddMonoid T]

theorem alongPath_second {A b : Aut T} {s : Product T} {dual : Bool} (hi : PInv dual A b s)
    (hB : ∀ t ∈ keys b.edges, t.label ≠ epsilon) {P : APath Nat} (hP : AcceptingPath s.aut s.size P) :
    AlongPath b (P.map fun q => (s.orig q).2).pathAndStack.1 (P.map fun q => (s.orig q).2).pathAndStack.2 P.frontState ∧
      confE (P.map fun q => (s.orig q).1) = (P.frontState, (P.map fun q => (s.orig q).2).pathAndStack.2) := by
  obtain ⟨h1, h2, h3, h4, h5⟩ := hi.second hB hP
  refine ⟨⟨h1, h2, _, h4, h5⟩, ?_⟩
  unfold confE
  rw [APath.frontState_map, orig_lt hP.2.1, APath.stack_map, h3]

/-- C84 after post*: if there is a run, the rules that are returned form one, whatever the search answered, and the weight
that is returned is the least of all runs. It is the sum of the weights of rules of the PDA that differ from the
returned ones at most in their weights. The stacks and the paths are those of the run, except that they are exchanged
if there are no rules. If there is no run, the tuple for "no trace" and `max()` are returned. The full claim is that
the weights of the returned rules have that sum and the paths are never exchanged; both are false
(`c84_post_rule_weights`, `c84_post_paths_swapped`). -/
theorem c84_post_partial (val : W → T) (hp : Heap (ShElem T) (WithTop T) ShElem.key) (hq : Heap (T × Nat) T Prod.fst)
    (h : HashOrder) {p : Pda W} (hw : p.WF) (hl : p.nLabels < epsilon) {a b : Aut T} (ha : ShAut p a) (h0 : Untraced a)
    (hb : ShFinal p b) (hnn : ∀ st ∈ p.states, ∀ y ∈ st.rules, 0 ≤ val y.1.weight) (hab : NoEmptyStack p a b)
    (hN : shN p a ≤ sizeMax) (junk : Nat → T) (fuel : Nat) (i : SInstance T) (ans : Bool)
    (hr : SInstance.postStarAccepts val hp hq h p (SInstance.ofAutomata p.size a b junk) fuel = .ok (some (i, ans)))
    (hfit : i.prod.base.aut.n ≤ sizeMax) :
    (RunsBetween p val a b = ∅ ∧ i.getRuleTrace p false = (some ⟨sizeMax, [], [], [], [], []⟩, ⊤)) ∨
    ∃ (x : T) (t : RuleTrace W), i.getRuleTrace p false = (some t, (x : WithTop T)) ∧ IsLeast (RunsBetween p val a b) x ∧
      Reweighted p val t.rules x ∧ (t.rules ≠ [] → IsRulePaths p a b t) ∧ (t.rules = [] → IsRulePaths p b a t) ∧
      (¬ HaveCommon p a b → t.rules ≠ []) := by
  have hc := searchCtx hw (Nat.le_of_lt hl) ha hb hnn hab
  obtain ⟨_, _, _, _, h1⟩ := postStarAccepts_terminates hc (not_negative ha hnn) hp hq h junk
  obtain ⟨hE, he⟩ := h1 fuel (i, ans) hr
  dsimp only at hE he
  obtain ⟨f1, f2⟩ := hE.findFirst
  rcases hx : i.prod.pathShortest.2 with _ | x
  · refine .inl ⟨f2.1 hx, ?_⟩
    have hff : i.prod.findPairs = (none, ⊤) := by
      unfold SProd.findPairs
      rw [hx, SProd.pathShortest_top hx]
      rfl
    unfold SInstance.getRuleTrace
    rw [hff]
    rfl
  · obtain ⟨P, g1, g2, g3, g4, g5, _⟩ := he.result hc hE hl hN hfit h0 hx
    obtain ⟨rs, tb, u1, u2, u3, u4, u5, u6, u7, u8⟩ := he.unwind hc hl hN h0 _ g4
    obtain ⟨s1, s2⟩ := alongPath_second he.l.base hc.other.noEps g3
    rw [g5] at u5
    rw [s2] at u4
    have hstart : AlongPath a tb.path.states tb.path.stack tb.path.frontState :=
      ⟨u7, tb.path.head_states, _, tb.path.last_states, u8⟩
    have hfr : (P.map i.prod.base.orig).frontState.1 = P.frontState := by
      rw [APath.frontState_map, orig_lt g3.2.1]
    have hlt : P.frontState < p.size := by
      rw [← he.size]
      exact g3.2.1
    have hgo : i.getRuleTrace p false = (ruleTrace p i.initial (some (P.map i.prod.base.orig)), (x : WithTop T)) := by
      unfold SInstance.getRuleTrace SInstance.automaton
      rw [g2]
      rfl
    unfold ruleTrace at hgo
    simp only [APath.split_map, u1, u3] at hgo
    have hx := (f1 x).1 (by rw [g1])
    rcases u2 with ⟨rfl, u2⟩ | ⟨hne, u2⟩
    · rw [u2] at hgo
      simp only [Bool.false_eq_true, if_false, hfr] at hgo
      have hcfg : tb.path.frontState = P.frontState ∧
          tb.path.stack = (P.map fun q => (i.prod.base.orig q).2).pathAndStack.2 := by
        rw [List.reverse_nil] at u4
        generalize hA : (tb.path.frontState, tb.path.stack) = A at u4
        generalize hB : (P.frontState, (P.map fun q => (i.prod.base.orig q).2).pathAndStack.2) = B at u4
        cases u4
        rw [← hB] at hA
        exact Prod.mk.inj hA
      refine .inr ⟨x, _, hgo, hx, u5, fun hn => absurd rfl hn, fun _ => ⟨⟨P.frontState, ?_, ?_⟩, s1, hlt⟩, fun hn => ?_⟩
      · dsimp only
        rw [hcfg.2]
        exact .nil _
      · dsimp only
        rw [← hcfg.1]
        exact hstart
      · refine absurd ⟨_, hlt, ?_, s1.accepted⟩ hn
        rw [← hcfg.1, ← hcfg.2]
        exact hstart.accepted
    · rw [u2] at hgo
      simp only [if_true] at hgo
      cases hrev : rs.reverse with
      | nil => exact absurd (List.reverse_eq_nil_iff.1 hrev) hne
      | cons r rs' =>
        rw [hrev] at hgo u4 u5
        dsimp only at hgo
        have hsrc : r.src = tb.path.frontState := by
          generalize hA : (tb.path.frontState, tb.path.stack) = A at u4
          cases u4
          exact (Prod.mk.inj hA).1.symm
        refine .inr ⟨x, _, hgo, hx, u5, fun _ => ⟨⟨_, ?_, s1⟩, ?_, ?_⟩, fun hn => absurd hn (List.cons_ne_nil _ _),
          fun _ => List.cons_ne_nil _ _⟩
        · dsimp only
          rw [hsrc]
          exact u4
        · dsimp only
          rw [hsrc]
          exact hstart
        · dsimp only
          rw [hsrc]
          exact u6

end

section
variable [LinearOrder W] [Zero W] [LinearOrder T] [AddCommMonoid T] [IsOrderedCancelAddMonoid T]

/-- Unwinding an accepting path of the automaton of pre*. -/
theorem spre_unwind_rules {σ : Type} {p : Pda W} (hp : p.WF) (hl : p.nLabels ≤ epsilon) {b : Aut T} (hb : ShAut p b) (h0 : Untraced b)
    {H : Tr → Prop} {K : List Tr} {s : SPreSt T σ} (hT : SPreT p b H K s) (hn : b.n ≤ sizeMax) {path : APath Nat}
    (hacc : AcceptingPath s.aut p.size path) :
    ∃ rs tb c', tbAll p s.aut (tbFuel s.aut path) (tbFuel s.aut path) { path := path } = some (rs, tb) ∧ tb.post = false ∧
      Run (path.frontState, path.stack) rs c' ∧ (∀ r ∈ rs, p.Has r) ∧
      AlongPath b tb.path.pathAndStack.1 tb.path.pathAndStack.2 c'.1 ∧ c'.2 = tb.path.pathAndStack.2 ∧
      ∀ g ∈ path.stack, g ≠ epsilon := by
  have hP : PAut p (b.bare : Aut W) := by
    refine ⟨⟨hb.size_le, ?_, ?_⟩, ?_⟩ <;> rw [keys_bare]
    · exact hb.valid
    · exact hb.nodup
    · exact hb.noInto
  have h0' : Untraced (b.bare : Aut W) := by
    intro e he
    obtain ⟨e', h1, rfl⟩ := List.mem_map.1 he
    exact h0 e' h1
  have hacc' : AcceptingPath (s.aut.bare : Aut W) p.size path := by
    obtain ⟨h1, h2, h3⟩ := hacc
    exact ⟨by rw [keys_bare]; exact h1, h2, h3⟩
  obtain ⟨rs, cs, qs, w, c', ⟨tb, h1, h2, h5⟩, _, h3, h4⟩ := pre_traces_built hp hl hP h0' hT.built hT.acc path hacc'
  rw [tbAll_bare, tbFuel_bare] at h1
  obtain ⟨r1, r2, _, _⟩ := Trail.run h3
  refine ⟨rs, tb, c', h1, h2, r1, r2, ?_, ?_, ?_⟩
  · rw [h5]
    obtain ⟨k1, k2, _, k4⟩ := h4
    rw [keys_bare] at k1
    exact ⟨k1, k2, k4⟩
  · rw [h5]
    exact h4.stack.symm
  · refine trs_labels (P := fun g => g ≠ epsilon) fun t ht => ?_
    have := hT.labels hp (fun t ht => (hb.valid t ht).2.1) t (AcceptingPath.trs_mem hacc t ht)
    omega

omit [LinearOrder W] [Zero W] [LinearOrder T] [IsOrderedCancelAddMonoid T] in
theorem costRun_of_run {p : Pda W} {val : W → T} {c c' : Config} {rs : List (URule W)} (h : Run c rs c')
    (hr : ∀ r ∈ rs, p.Has r) : CostRun p.Has val c (ruleSum val rs) c' := by
  induction h with
  | nil c => exact .nil c
  | cons r w rs c' _ ih =>
    exact .cons (R := p.Has) (val := val) r w _ _ (hr r List.mem_cons_self) (ih fun r hm => hr r (List.mem_cons_of_mem _ hm))

/-- C84 after pre*: if there is a run, the rules that are returned are rules of the PDA and form one, whatever the search
answered, with its stacks and paths. The weight that is returned is the least of all runs; the rules may weigh more.
If there is no run, the tuple for "no trace" and `max()` are returned. The full claim is that the rules have the weight
that is returned, which is false (`c84_pre_heavier`), and without the hypothesis on configurations in common, where it
is false as well (`c84_pre_wrong`). -/
theorem c84_pre_partial (val : W → T) (hp : Heap (ShElem T) (WithTop T) ShElem.key) (hq : Heap (T × Nat) T Prod.fst)
    (h : HashOrder) (junk : Nat → Bool) {p : Pda W} (hw : p.WF) (hl : p.nLabels ≤ epsilon) (hk : p.LookupOK) {a b : Aut T}
    (ha : ShFinal p a) (hb : ShAut p b) (h0 : Untraced b) (hn : b.n ≤ sizeMax)
    (hnn : ∀ st ∈ p.states, ∀ y ∈ st.rules, 0 ≤ val y.1.weight) (hne : StacksNonempty p b)
    (best : Nat → T) (hj : ∀ u, 0 ≤ best u) (hcc : ¬ HaveCommon p a b) (fuel : Nat) (i : SInstance T) (ans : Bool)
    (hr : SInstance.preStarAccepts val hp hq h junk p (SInstance.ofAutomata p.size a b best) fuel = some (i, ans))
    (hfit : i.prod.base.aut.n ≤ sizeMax) :
    (RunsBetween p val a b = ∅ ∧ i.getRuleTrace p true = (some ⟨sizeMax, [], [], [], [], []⟩, ⊤)) ∨
    ∃ (x : T) (t : RuleTrace W), i.getRuleTrace p true = (some t, (x : WithTop T)) ∧ IsLeast (RunsBetween p val a b) x ∧
      IsRulePaths p a b t ∧ (∀ r ∈ t.rules, p.Has r) ∧ x ≤ ruleSum val t.rules := by
  have hc := preSearchCtx hw hl hk ha hb hnn hne
  obtain ⟨g1, _, _, _⟩ := preStarAccepts_end hc hp hq h junk hj (fun h => (hcc h).elim) hr
  obtain ⟨f1, f2⟩ := g1.findFirst
  obtain ⟨s, s1, s2, s3, s4, s5⟩ := preStarAccepts_back hc hp hq h junk hj hcc hr
  dsimp only at g1 f1 f2 s2
  subst s2
  dsimp only at g1 f1 f2 hfit
  rcases hx : s.ext.pathShortest.2 with _ | x
  · refine .inl ⟨f2.1 hx, ?_⟩
    have hff : s.ext.findPairs = (none, ⊤) := by
      unfold SProd.findPairs
      rw [hx, SProd.pathShortest_top hx]
      rfl
    unfold SInstance.getRuleTrace
    dsimp only
    rw [hff]
    rfl
  · obtain ⟨P, h1, h2, h3⟩ := back_found g1.apart s5 hfit hx
    have hB := hc.other.noEps
    have hfirst := s3.first hB h1
    obtain ⟨t1, t2⟩ := alongPath_second s3 hB h1
    rw [s4] at hfirst
    obtain ⟨rs, tb, c', u1, u2, u3, u4, u5, u6, u7⟩ := spre_unwind_rules hw hl hb h0 s1 hn hfirst
    have hcfg : ((P.map fun q => (s.ext.base.orig q).1).frontState, (P.map fun q => (s.ext.base.orig q).1).stack) =
        (P.frontState, (P.map fun q => (s.ext.base.orig q).2).pathAndStack.2) := by
      rw [← t2]
      unfold confE
      congr 1
      symm
      rw [List.filter_eq_self]
      intro g hg
      simpa using u7 g hg
    rw [hcfg] at u3
    have hlt : P.frontState < p.size := by
      rw [← s4]
      exact h1.2.1
    have hgo : SInstance.getRuleTrace p true ⟨a, s.aut, s.ext⟩ =
        (ruleTrace p s.aut (some (P.map s.ext.base.orig)), (x : WithTop T)) := by
      unfold SInstance.getRuleTrace SInstance.automaton
      dsimp only
      rw [h3]
      rfl
    unfold ruleTrace at hgo
    have hfr : (P.map s.ext.base.orig).frontState.1 = P.frontState := by
      rw [APath.frontState_map, orig_lt h1.2.1]
    simp only [APath.split_map, u1, u2, hfr, Bool.false_eq_true, if_false] at hgo
    have hleast := (f1 x).1 (by rw [h2])
    have hcs : c'.2 = tb.path.pathAndStack.2 := u6
    refine .inr ⟨x, _, hgo, hleast, ⟨⟨c'.1, ?_, u5⟩, t1, hlt⟩, u4, ?_⟩
    · dsimp only
      rw [← hcs]
      exact u3
    · refine hleast.2 ⟨_, c', hlt, t1.accepted, costRun_of_run u3 u4, ?_⟩
      have := u5.accepted
      rw [← hcs] at this
      exact this

end

/-! ## Disagreements -/

local instance decRuleTrace : DecidableEq (Option (RuleTrace ℤ) × WithTop ℤ) := inferInstance

/-- The answer of a search and what `get_rule_trace_and_paths<Shortest>` returns after it. -/
def ruleOutcome (p : Pda ℤ) (swap : Bool) (r : Option (SInstance ℤ × Bool)) :
    Option (Bool × Option (RuleTrace ℤ) × WithTop ℤ) :=
  r.map fun x => (x.2, x.1.getRuleTrace p swap)

/-- C84, a disagreement found: on the instance of `c58_post_answer_wrong` the weight is 15, and the rules that are returned
weigh 5 together, because the first is returned with the weight of another rule that pushes the same label. -/
theorem c84_post_rule_weights :
    ruleOutcome latePda false ((SInstance.postStarAccepts id (Heap.first ShElem.key) (Heap.first Prod.fst) HashOrder.id latePda
      (SInstance.ofAutomata latePda.size lateFrom lateTo fun _ => 0) 100).toOption.bind id) =
      some (false, some ⟨0, [⟨0, 1, 1, .push, 2, 0⟩, ⟨1, 2, 2, .swap, 3, 5⟩], [1], [3, 1], [0, 3], [2, 3, 4]⟩, ((15 : ℤ) : WithTop ℤ)) ∧
    ¬ latePda.Has ⟨0, 1, 1, .push, 2, 0⟩ ∧ latePda.Has ⟨0, 1, 1, .push, 2, 10⟩ := by
  refine ⟨by decide +kernel, ?_, ?_⟩ <;> unfold Pda.Has <;> decide +kernel

/-- Accepts ⟨0,0⟩, by way of state 3. -/
def viaThree : Aut ℤ := { acc := [false, false, false, true], edges := [(⟨0, 0, 3⟩, {}, 0)] }

/-- Accepts ⟨0,0⟩, by way of state 4. -/
def viaFour : Aut ℤ := { acc := [false, false, false, false, true], edges := [(⟨0, 0, 4⟩, {}, 0)] }

/-- C84, a disagreement found: after post* the paths are exchanged if the initial configuration is final. -/
theorem c84_post_paths_swapped :
    ruleOutcome latePda false ((SInstance.postStarAccepts id (Heap.first ShElem.key) (Heap.first Prod.fst) HashOrder.id latePda
      (SInstance.ofAutomata latePda.size viaThree viaFour fun _ => 0) 100).toOption.bind id) =
      some (true, some ⟨0, [], [0], [0], [0, 4], [0, 3]⟩, ((0 : ℤ) : WithTop ℤ)) ∧
    ¬ IsRulePaths latePda viaThree viaFour ⟨0, [], [0], [0], [0, 4], [0, 3]⟩ := by
  refine ⟨by decide +kernel, fun ht => ?_⟩
  have := ht.initial.spells
  revert this
  unfold Spells Spells
  decide

/-- C84, a disagreement found: as in `c59_pre_trace_heavier`. The weight is 1, and the only rule that is returned
weighs 10. -/
theorem c84_pre_heavier :
    ruleOutcome detourPda true
      (SInstance.preStarAccepts id (Heap.first ShElem.key) (Heap.first Prod.fst) HashOrder.id (fun _ => false) detourPda
        (SInstance.ofAutomata detourPda.size sameAut detourTo fun _ => 0) 100) =
      some (true, some ⟨0, [⟨0, 0, 1, .swap, 1, 10⟩], [0], [1], [0, 3], [1, 3]⟩, ((1 : ℤ) : WithTop ℤ)) := by
  decide +kernel

/-- C84, a disagreement found: as in `c68_pre_trace_wrong`. The state and the stacks are not those of a configuration that
the automata accept. -/
theorem c84_pre_wrong :
    ruleOutcome latePda true
      (SInstance.preStarAccepts id (Heap.first ShElem.key) (Heap.first Prod.fst) HashOrder.id (fun _ => false) latePda
        (SInstance.ofAutomata latePda.size sameAut sameAut fun _ => 0) 100) =
      some (true, some ⟨3, [], [], [], [3], [3]⟩, ((0 : ℤ) : WithTop ℤ)) ∧
    ¬ IsRulePaths latePda sameAut sameAut ⟨3, [], [], [], [3], [3]⟩ :=
  ⟨by decide +kernel, fun ht => absurd ht.state (by decide +kernel)⟩

/-- C84, a disagreement found: after `dual_search_accepts<Shortest>` only the half of the run that post* found is
returned, whatever `use_dual` is. The rules end in ⟨0,0⟩, which the final automaton does not accept. -/
theorem c84_dual_half :
    ruleOutcome slowPda false ((SInstance.dualSearchAccepts id (Heap.first ShElem.key) (Heap.first Prod.fst) HashOrder.id
        (fun _ => false) slowPda (SInstance.ofAutomata slowPda.size slowFrom slowTo fun _ => 0) 100).toOption.bind id) =
      some (true, some ⟨3, [⟨3, 3, 3, .swap, 4, 0⟩, ⟨3, 4, 3, .swap, 5, 0⟩, ⟨3, 5, 0, .swap, 0, 0⟩], [3], [0], [3, 4], [0, 4]⟩,
        ((1 : ℤ) : WithTop ℤ)) ∧
    ¬ IsRulePaths slowPda slowFrom slowTo
      ⟨3, [⟨3, 3, 3, .swap, 4, 0⟩, ⟨3, 4, 3, .swap, 5, 0⟩, ⟨3, 5, 0, .swap, 0, 0⟩], [3], [0], [3, 4], [0, 4]⟩ := by
  refine ⟨by decide +kernel, fun ht => ?_⟩
  obtain ⟨q, _, h2⟩ := ht.run
  have := h2.spells
  revert this
  unfold Spells Spells
  decide

/-- Non-vacuity of C84 for post*: the instance of `c84_post_rule_weights` meets the hypotheses (the rest are in `late_meets`),
and has no configuration in common. -/
example : latePda.nLabels < epsilon ∧ Untraced lateFrom ∧ shN latePda lateFrom ≤ sizeMax ∧
    (((SInstance.postStarAccepts id (Heap.first ShElem.key) (Heap.first Prod.fst) HashOrder.id latePda
      (SInstance.ofAutomata latePda.size lateFrom lateTo fun _ => 0) 100).toOption.bind id).map fun r => r.1.prod.base.aut.n) =
      some 5 :=
  ⟨by decide +kernel, by unfold Untraced; decide, by decide +kernel, by decide +kernel⟩

/-- Non-vacuity of C84 for pre*: the automata of `late_hyps`, which states the hypotheses, with a run of two rules. -/
example :
    ruleOutcome latePda true
      (SInstance.preStarAccepts id (Heap.first ShElem.key) (Heap.first Prod.fst) HashOrder.id (fun _ => false) latePda
        (SInstance.ofAutomata latePda.size lateFrom dualTo fun _ => 0) 100) =
      some (true, some ⟨0, [⟨0, 1, 1, .push, 2, 10⟩, ⟨1, 2, 2, .swap, 3, 5⟩], [1], [3, 1], [0, 3], [2, 3, 4]⟩,
        ((15 : ℤ) : WithTop ℤ)) := by
  decide +kernel

end Verif.Props
