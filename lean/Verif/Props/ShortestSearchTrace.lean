import Verif.Proofs.ShortestDualTrace
import Verif.Props.ShortestDualProduct
import Verif.Props.ShortestProductTrace
import Verif.Props.ProductTrace

/-!
# C68: the trace after `pre_star_accepts<Trace_Type::Shortest>` and `dual_search_accepts<Trace_Type::Shortest>`

`getTrace p true` is `get_trace<Shortest>(instance)` after pre*, `getTraceDual p` is
`get_trace_dual_search<Shortest>(instance)`. If the two automata have no configuration in common, the configurations
that are returned are a run of the PDA from the initial to the final automaton, and the weight that is returned is the
least of all such runs. The run itself may be heavier (`c59_pre_trace_heavier`). If they have one in common, the trace
is wrong (`c68_pre_trace_wrong`, `c68_dual_trace_wrong`). The hypotheses are those of C59 and C60; moreover the input
automata carry no traces, and numbers of states fit into `size_t`.
-/

namespace Verif.Props

open Verif.Product

variable {W T : Type}

/-- The configurations are a run of the PDA from one accepted by `a` to one accepted by `b`. -/
def IsRunFromTo (p : Pda W) (a b : Aut T) (cs : List Config) : Prop :=
  cs.IsChain (Step p.Has) ∧
  (∃ c, cs.head? = some c ∧ c.1 < p.size ∧ Accepted (· ∈ keys a.edges) (fun q => a.isAcc q = true) c) ∧
  ∃ c', cs.getLast? = some c' ∧ Accepted (· ∈ keys b.edges) (fun q => b.isAcc q = true) c'

variable [LinearOrder W] [Zero W] [LinearOrder T] [AddCommMonoid T] [IsOrderedCancelAddMonoid T]

/-- Unwinding an accepting path of the automaton of pre*. -/
theorem spre_unwind {σ : Type} {p : Pda W} (hp : p.WF) (hl : p.nLabels ≤ epsilon) {b : Aut T} (hb : ShAut p b) (h0 : Untraced b)
    {H : Tr → Prop} {K : List Tr} {s : SPreSt T σ} (hT : SPreT p b H K s) (hn : b.n ≤ sizeMax) {path : APath Nat}
    (hacc : AcceptingPath s.aut p.size path) :
    ∃ cs c', getTrace p s.aut path = some ((path.frontState, path.stack) :: cs) ∧
      ((path.frontState, path.stack) :: cs).IsChain (Step p.Has) ∧
      ((path.frontState, path.stack) :: cs).getLast? = some c' ∧
      Accepted (· ∈ keys b.edges) (fun q => b.isAcc q = true) c' ∧ ∀ g ∈ path.stack, g ≠ epsilon := by
  have hP : PAut p (b.bare : Aut W) := by
    refine ⟨⟨hb.size_le, ?_, ?_⟩, ?_⟩ <;> rw [keys_bare]
    · exact hb.valid
    · exact hb.nodup
    · exact hb.noInto
  have h0' : Untraced (b.bare : Aut W) := by
    intro e he
    obtain ⟨e', h1, rfl⟩ := List.mem_map.1 he
    exact h0 e' h1
  have hacc' : AcceptingPath (s.aut.bare : Aut W) p.size path := by
    obtain ⟨h1, h2, h3⟩ := hacc
    exact ⟨by rw [keys_bare]; exact h1, h2, h3⟩
  have hnn : path.isNull = false := AcceptingPath.notNull hacc (by
    unfold Aut.n at hn ⊢
    rw [hT.acc]
    exact hn)
  obtain ⟨rs, cs, qs, w, c', _, h2, h3, h4⟩ := pre_traces_built hp hl hP h0' hT.built hT.acc path hacc'
  have h2 := h2 hnn
  rw [getTrace_bare] at h2
  obtain ⟨_, _, r3, r4⟩ := Trail.run h3
  refine ⟨cs, c', h2, r3, r4, ?_, ?_⟩
  · obtain ⟨f, h5, h6⟩ := h4.lang
    rw [keys_bare] at h5
    exact ⟨f, h5, h6⟩
  · refine trs_labels (P := fun g => g ≠ epsilon) fun t ht => ?_
    have := hT.labels hp (fun t ht => (hb.valid t ht).2.1) t (AcceptingPath.trs_mem hacc t ht)
    omega

omit [LinearOrder W] [Zero W] [LinearOrder T] [IsOrderedCancelAddMonoid T] in
theorem costTrace_chain {R : URule W → Prop} {val : W → T} {cs : List Config} {x : T} (h : CostTrace R val cs x) :
    cs.IsChain (Step R) := by
  induction h with
  | one c => exact List.isChain_singleton c
  | cons r w cs x hr _ ih => exact List.isChain_cons_cons.2 ⟨.mk r w hr, ih⟩

/-- The path that `find_path<Shortest>` returns. -/
theorem back_found {e : SProd T} (hacc : ∀ u, u < e.base.aut.n → e.base.aut.isAcc u = true → SProd.Acc e u)
    (hb : ∀ u, SProd.Acc e u → SProd.BackPath e u (e.walk e.base.aut.n u ⟨u, []⟩)) (hfit : e.base.aut.n ≤ sizeMax) {x : T}
    (hx : e.pathShortest.2 = (x : WithTop T)) :
    ∃ P : APath Nat, AcceptingPath e.base.aut e.base.size P ∧
      e.findFirst = (P.map fun q => (e.base.orig q).1, (x : WithTop T)) ∧
      e.findPairs = (some (P.map e.base.orig), (x : WithTop T)) := by
  obtain ⟨u, u1, u2, _, u4⟩ := SProd.pathShortest_of hx
  have h1 := hb u (hacc u u1 u2)
  rw [← u4] at h1
  have h2 : AcceptingPath e.base.aut e.base.size e.pathShortest.1 :=
    ⟨(trs_spells _ _ _).2 h1.edges, h1.front, by rw [h1.fin]; exact u2⟩
  have hnn := AcceptingPath.notNull h2 hfit
  refine ⟨_, h2, ?_, ?_⟩
  · unfold SProd.findFirst
    rw [hnn, hx]
    rfl
  · unfold SProd.findPairs
    rw [hnn, hx]
    rfl

/-- C68 for pre*: if there is a run, `get_trace<Shortest>(instance)` after `pre_star_accepts<Shortest>` returns one,
whatever the search answered, and the least weight of all runs; otherwise it returns the empty trace and `max()`. The
full claim is that the trace has the weight that is returned, which is false (`c59_pre_trace_heavier`), and without the
hypothesis on configurations in common, where it is false as well (`c68_pre_trace_wrong`). -/
theorem c68_pre_trace_partial (val : W → T) (hp : Heap (ShElem T) (WithTop T) ShElem.key) (hq : Heap (T × Nat) T Prod.fst)
    (h : HashOrder) (junk : Nat → Bool) {p : Pda W} (hw : p.WF) (hl : p.nLabels ≤ epsilon) (hk : p.LookupOK) {a b : Aut T}
    (ha : ShFinal p a) (hb : ShAut p b) (h0 : Untraced b) (hn : b.n ≤ sizeMax)
    (hnn : ∀ st ∈ p.states, ∀ y ∈ st.rules, 0 ≤ val y.1.weight) (hne : StacksNonempty p b)
    (best : Nat → T) (hj : ∀ u, 0 ≤ best u) (hcc : ¬ HaveCommon p a b) (fuel : Nat) (i : SInstance T) (ans : Bool)
    (hr : SInstance.preStarAccepts val hp hq h junk p (SInstance.ofAutomata p.size a b best) fuel = some (i, ans))
    (hfit : i.prod.base.aut.n ≤ sizeMax) :
    (RunsBetween p val a b = ∅ ∧ i.getTrace p true = (some [], ⊤)) ∨
    ∃ (x : T) (cs : List Config), i.getTrace p true = (some cs, (x : WithTop T)) ∧ IsLeast (RunsBetween p val a b) x ∧
      IsRunFromTo p a b cs := by
  have hc := preSearchCtx hw hl hk ha hb hnn hne
  obtain ⟨g1, _, _, _⟩ := preStarAccepts_end hc hp hq h junk hj (fun h => (hcc h).elim) hr
  obtain ⟨f1, f2⟩ := g1.findFirst
  obtain ⟨s, s1, s2, s3, s4, s5⟩ := preStarAccepts_back hc hp hq h junk hj hcc hr
  dsimp only at g1 f1 f2 s2
  subst s2
  dsimp only at g1 f1 f2 hfit
  rcases hx : s.ext.pathShortest.2 with _ | x
  · refine .inl ⟨f2.1 hx, ?_⟩
    have hff : s.ext.findFirst = (APath.null, ⊤) := by
      unfold SProd.findFirst
      rw [hx, SProd.pathShortest_top hx]
      rfl
    unfold SInstance.getTrace
    dsimp only
    rw [hff]
    rfl
  · obtain ⟨P, h1, h2, _⟩ := back_found g1.apart s5 hfit hx
    have hB := hc.other.noEps
    have hfirst := s3.first hB h1
    obtain ⟨t1, t2, t3, t4, t5⟩ := s3.second hB h1
    rw [s4] at hfirst
    obtain ⟨cs, c', u1, u2, u3, u4, u5⟩ := spre_unwind hw hl hb h0 s1 hn hfirst
    refine .inr ⟨x, _, ?_, (f1 x).1 (by rw [h2]), u2, ⟨_, rfl, hfirst.2.1, ?_⟩, c', u3, u4⟩
    · unfold SInstance.getTrace SInstance.automaton
      dsimp only
      rw [h2]
      exact congrArg (·, (x : WithTop T)) u1
    · refine ⟨_, ?_, t5⟩
      have hst : (P.map fun q => (s.ext.base.orig q).1).stack = (P.map fun q => (s.ext.base.orig q).2).pathAndStack.2 := by
        rw [t3, ← APath.stack_map (fun q => (s.ext.base.orig q).1) P]
        symm
        rw [List.filter_eq_self]
        intro g hg
        simpa using u5 g hg
      dsimp only
      rw [hst, APath.frontState_map, orig_lt h1.2.1]
      exact t1.path t2 t4

/-- C68 for dual search: if there is a run, `get_trace_dual_search<Shortest>(instance)` after
`dual_search_accepts<Shortest>` returns one, whatever the search answered, and the least weight of all runs. Otherwise it
returns the empty trace, and the weight zero. The full claim is that in the latter case the weight is `max()`, that the
trace has the weight that is returned, and that the two automata may have configurations in common, where it is false
(`c68_dual_trace_wrong`). -/
theorem c68_dual_trace_partial (val : W → T) (hp : Heap (ShElem T) (WithTop T) ShElem.key) (hq : Heap (T × Nat) T Prod.fst)
    (h : HashOrder) (junk : Nat → Bool) {p : Pda W} (hw : p.WF) (hl : p.nLabels < epsilon) (hk : p.LookupOK) {a b : Aut T}
    (ha : ShAut p a) (hb : ShAut p b) (h0 : Untraced a) (h0' : Untraced b) (hN : shN p a ≤ sizeMax) (hn : b.n ≤ sizeMax)
    (hnn : ∀ st ∈ p.states, ∀ y ∈ st.rules, 0 ≤ val y.1.weight) (hne : StacksNonempty p b)
    (best : Nat → T) (hj : ∀ u, 0 ≤ best u) (hcc : ¬ HaveCommon p a b) (fuel : Nat) (i : SInstance T) (ans : Bool)
    (hr : SInstance.dualSearchAccepts val hp hq h junk p (SInstance.ofAutomata p.size a b best) fuel = .ok (some (i, ans)))
    (hfit : i.prod.base.aut.n ≤ sizeMax) :
    (RunsBetween p val a b = ∅ ∧ i.getTraceDual p = (some [], ((0 : T) : WithTop T))) ∨
    ∃ (x : T) (cs : List Config), i.getTraceDual p = (some cs, (x : WithTop T)) ∧ IsLeast (RunsBetween p val a b) x ∧
      IsRunFromTo p a b cs := by
  have hle : p.nLabels ≤ epsilon := Nat.le_of_lt hl
  have hc := dualCtx hw hle hk ha hb hnn hne
  obtain ⟨g1, _, _, _⟩ := dualSearchAccepts_end hc hp hq h junk hj (fun h => (hcc h).elim) hr
  obtain ⟨f1, f2⟩ := g1.findFirst
  obtain ⟨st, pr, e, sL, s1, s2, s3, s4, s5⟩ := dualSearchAccepts_back hc hp hq h junk hj hcc hr
  dsimp only at g1 f1 f2 s2
  subst s2
  dsimp only at g1 f1 f2 hfit
  rcases hx : e.pathShortest.2 with _ | x
  · refine .inl ⟨f2.1 hx, ?_⟩
    have hff : e.findPairs = (none, ⊤) := by
      unfold SProd.findPairs
      rw [hx, SProd.pathShortest_top hx]
      rfl
    unfold SInstance.getTraceDual
    dsimp only
    rw [hff]
  · obtain ⟨P, h1, h2, h2'⟩ := back_found g1.apart s5 hfit hx
    have hB : ∀ t ∈ keys pr.aut.edges, t.label ≠ epsilon := by
      intro t ht
      have := s1.labels hw (fun t ht => (hb.valid t ht).2.1) t ht
      omega
    obtain ⟨⟨κ, hi⟩, _⟩ := sL
    have hA : ∀ t ∈ keys st.aut.edges, p.size ≤ t.dst ∧ (t.label = epsilon → t.src < p.size) := by
      intro t ht
      obtain ⟨y, hy⟩ := Aut.wt_of_mem ht
      obtain ⟨k, hk⟩ := hi.autw t y hy
      obtain ⟨_, v1, _, v2⟩ := hi.valid t y k hk
      refine ⟨v1, fun v3 => ?_⟩
      rcases v2 with v2 | v2
      · omega
      · exact v2.2
    have hfirst := s3.first hB h1
    obtain ⟨hsec, t1, t2⟩ := s3.second_path hB hA h1
    rw [s4] at hfirst hsec
    obtain ⟨cs, c, u1, u2, u3, u4, u5, u6⟩ := hi.trace hc.post hl hN h0 _ hfirst
    obtain ⟨cs', c', v1, v2, v3, v4, _⟩ := spre_unwind hw hle hb h0' s1 hn hsec
    have hce : ((P.map fun q => (e.base.orig q).2).removeEpsilon.frontState,
        (P.map fun q => (e.base.orig q).2).removeEpsilon.stack) = confE (P.map fun q => (e.base.orig q).1) := by
      rw [t1, t2, confE, APath.frontState_map, APath.stack_map, orig_lt h1.2.1]
    rw [hce] at v1 v2 v3
    have hch : cs.IsChain (Step p.Has) := costTrace_chain u2
    refine .inr ⟨x, cs ++ cs', ?_, (f1 x).1 (by rw [h2]), ?_, ⟨c, ?_, u4, u5⟩, c', ?_, v4⟩
    · unfold SInstance.getTraceDual
      dsimp only
      rw [h2']
      simp only [APath.split_map, u1, v1]
    · refine List.isChain_append.2 ⟨hch, (List.isChain_cons.1 v2).2, ?_⟩
      intro y hy z hz
      rw [u6] at hy
      cases hy
      exact (List.isChain_cons.1 v2).1 z hz
    · rw [List.head?_append, u3]
      rfl
    · rw [List.getLast?_append]
      cases cs' with
      | nil =>
        simp only [List.getLast?_singleton] at v3
        rw [u6, ← v3]
        rfl
      | cons d cs' =>
        rw [List.getLast?_cons_cons] at v3
        rw [v3]
        rfl

/-! ## Disagreements -/

local instance decTraceW : DecidableEq (Option (List Config) × WithTop ℤ) := inferInstance

/-- The answer, the result of `get_trace_dual_search<Shortest>` and its weight. -/
def dualOutcome (p : Pda ℤ) (r : Except String (Option (SInstance ℤ × Bool))) :
    Option (Bool × Option (List Config) × WithTop ℤ) :=
  (r.toOption.bind id).map fun x => (x.2, x.1.getTraceDual p)

theorem not_run_of_state {p : Pda ℤ} {a b : Aut ℤ} {c : Config} {cs : List Config} (h : p.size ≤ c.1) :
    ¬ IsRunFromTo p a b (c :: cs) := by
  rintro ⟨_, ⟨d, h1, h2, _⟩, _⟩
  cases h1
  omega

/-- C68, a disagreement found: both automata accept ⟨0,0⟩ and nothing else. `pre_star_accepts<Shortest>` answers yes at
once, and since its product has no back edges, `get_trace<Shortest>` returns ⟨3,ε⟩, where 3 is a state of the automaton
and not of the PDA. -/
theorem c68_pre_trace_wrong :
    tracedOutcome latePda true
      (SInstance.preStarAccepts id (Heap.first ShElem.key) (Heap.first Prod.fst) HashOrder.id (fun _ => false) latePda
        (SInstance.ofAutomata latePda.size sameAut sameAut fun _ => 0) 100) =
        some (true, some [(3, [])], ((0 : ℤ) : WithTop ℤ)) ∧ ¬ IsRunFromTo latePda sameAut sameAut [(3, [])] ∧
    IsRunFromTo latePda sameAut sameAut [(0, [0])] := by
  refine ⟨by decide +kernel, not_run_of_state (by decide +kernel), List.isChain_singleton _, ⟨_, rfl, by decide +kernel, ?_⟩, _, rfl, ?_⟩
  all_goals exact ⟨3, .cons (q := 3) (by decide) (.nil _), by decide⟩

/-- C68, a disagreement found: as in `c68_pre_trace_wrong`, for dual search. -/
theorem c68_dual_trace_wrong :
    dualOutcome latePda
      (SInstance.dualSearchAccepts id (Heap.first ShElem.key) (Heap.first Prod.fst) HashOrder.id (fun _ => false) latePda
        (SInstance.ofAutomata latePda.size sameAut sameAut fun _ => 0) 100) =
        some (true, some [(3, [])], ((0 : ℤ) : WithTop ℤ)) ∧ ¬ IsRunFromTo latePda sameAut sameAut [(3, [])] :=
  ⟨by decide +kernel, not_run_of_state (by decide +kernel)⟩

/-- ⟨0,0⟩ → ⟨1,1⟩ (weight 10), ⟨0,0⟩ → ⟨2,2⟩ (0), ⟨2,2⟩ → ⟨1,1⟩ (1), ⟨3,3⟩ → ⟨3,4⟩ → ⟨3,5⟩ → ⟨0,0⟩ (0). -/
def slowPda : Pda ℤ :=
  Pda.build 6 [.rule 0 ⟨1, .swap, 10, 1⟩ false [0], .rule 0 ⟨2, .swap, 0, 2⟩ false [0], .rule 2 ⟨1, .swap, 1, 1⟩ false [2],
    .rule 3 ⟨3, .swap, 0, 4⟩ false [3], .rule 3 ⟨3, .swap, 0, 5⟩ false [4], .rule 3 ⟨0, .swap, 0, 0⟩ false [5]]

/-- Accepts ⟨3,3⟩. -/
def slowFrom : Aut ℤ := { acc := [false, false, false, false, true], edges := [(⟨3, 3, 4⟩, {}, 0)] }

/-- Accepts ⟨1,1⟩. -/
def slowTo : Aut ℤ := { acc := [false, false, false, false, true], edges := [(⟨1, 1, 4⟩, {}, 0)] }

/-- C68, a disagreement found: as in `c59_pre_trace_heavier`, for dual search. The weight is 1, and the last step of the
trace has only one rule, which weighs 10. -/
theorem c68_dual_trace_heavier :
    dualOutcome slowPda
      (SInstance.dualSearchAccepts id (Heap.first ShElem.key) (Heap.first Prod.fst) HashOrder.id (fun _ => false) slowPda
        (SInstance.ofAutomata slowPda.size slowFrom slowTo fun _ => 0) 100) =
        some (true, some [(3, [3]), (3, [4]), (3, [5]), (0, [0]), (1, [1])], ((1 : ℤ) : WithTop ℤ)) ∧
    ∀ r, slowPda.Has r → r.src = 0 → r.dst = 1 → r.weight = 10 := by
  refine ⟨by decide +kernel, ?_⟩
  have : ∀ r ∈ slowPda.allRules, r.src = 0 → r.dst = 1 → r.weight = 10 := by decide +kernel
  exact this

theorem late_hyps : latePda.WF ∧ latePda.nLabels < epsilon ∧ latePda.LookupOK ∧ ShAut latePda lateFrom ∧ ShAut latePda dualTo ∧
    Untraced lateFrom ∧ Untraced dualTo ∧ (∀ st ∈ latePda.states, ∀ y ∈ st.rules, 0 ≤ id y.1.weight) ∧
    StacksNonempty latePda lateFrom ∧ StacksNonempty latePda dualTo ∧ ¬ HaveCommon latePda dualTo lateFrom := by
  have hOK : ∀ c ∈ lateCalls, c.OK 4 := by simp [lateCalls, PdaCall.OK, WSorted]
  have hq : latePda.size = 3 := by decide +kernel
  have hl : latePda.nLabels = 4 := by decide +kernel
  have hk : latePda.LookupOK := lookupOK_build 4 _ hOK (by
    intro src r wc pre hm
    simp only [lateCalls, List.mem_cons, PdaCall.rule.injEq, List.not_mem_nil, or_false] at hm
    rcases hm with ⟨_, rfl, _⟩ | ⟨_, rfl, _⟩ | ⟨_, rfl, _⟩ <;> simp)
  have h6 : StacksNonempty latePda lateFrom := by unfold StacksNonempty; rw [hq]; decide
  refine ⟨Pda.WF_build 4 _ hOK, by decide +kernel, hk, ⟨by rw [hq]; decide, by rw [hl]; decide, by decide, by decide, by rw [hq]; decide⟩,
    ⟨by rw [hq]; decide, by rw [hl]; decide, by decide, by decide, by rw [hq]; decide⟩, by unfold Untraced; decide,
    by unfold Untraced; decide, by decide +kernel, h6, by unfold StacksNonempty; rw [hq]; decide, ?_⟩
  rintro ⟨⟨q, w⟩, c1, ⟨f', c4, c5⟩, ⟨f, c2, c3⟩⟩
  dsimp only at c1 c2 c4
  cases c2 with
  | nil =>
    cases c4
    rw [h6 q c1] at c3
    cases c3
  | @cons _ _ r _ _ e1 _ =>
    cases c4 with
    | @cons _ _ r' _ _ e2 _ =>
      have d1 : ∀ t ∈ keys lateFrom.edges, t.src = 0 ∧ t.label ≠ 3 := by decide
      have d2 : ∀ t ∈ keys dualTo.edges, t.src = 0 → t.label = 3 := by decide
      obtain ⟨e3, e4⟩ := d1 _ e1
      have e5 := d2 _ e2 e3
      exact e4 e5

/-- C68, a disagreement found: if there is no run, `get_trace_dual_search<Shortest>` returns the weight zero, not `max()`
as `get_trace<Shortest>` does. -/
theorem c68_dual_no_path_weight :
    dualOutcome latePda
      (SInstance.dualSearchAccepts id (Heap.first ShElem.key) (Heap.first Prod.fst) HashOrder.id (fun _ => false) latePda
        (SInstance.ofAutomata latePda.size dualTo lateFrom fun _ => 0) 100) = some (false, some [], ((0 : ℤ) : WithTop ℤ)) ∧
    RunsBetween latePda id dualTo lateFrom = ∅ := by
  have hrun : dualOutcome latePda
      (SInstance.dualSearchAccepts id (Heap.first ShElem.key) (Heap.first Prod.fst) HashOrder.id (fun _ => false) latePda
        (SInstance.ofAutomata latePda.size dualTo lateFrom fun _ => 0) 100) = some (false, some [], ((0 : ℤ) : WithTop ℤ)) := by
    decide +kernel
  have hfit : ((SInstance.dualSearchAccepts id (Heap.first ShElem.key) (Heap.first Prod.fst) HashOrder.id (fun _ => false) latePda
        (SInstance.ofAutomata latePda.size dualTo lateFrom fun _ => 0) 100).toOption.bind id).map
        (fun r => decide (r.1.prod.base.aut.n ≤ sizeMax)) = some true := by decide +kernel
  refine ⟨hrun, ?_⟩
  obtain ⟨h1, h2, h3, h4, h5, h6, h7, h8, h9, h10, h11⟩ := late_hyps
  rcases hr : SInstance.dualSearchAccepts id (Heap.first ShElem.key) (Heap.first Prod.fst) HashOrder.id (fun _ => false) latePda
      (SInstance.ofAutomata latePda.size dualTo lateFrom fun _ => 0) 100 with e | _ | ⟨i, ans⟩
  · rw [hr] at hrun; cases hrun
  · rw [hr] at hrun; cases hrun
  · rw [hr] at hrun hfit
    have hrun : (some (ans, i.getTraceDual latePda) : Option (Bool × Option (List Config) × WithTop ℤ)) = _ := hrun
    have hfit : some (decide (i.prod.base.aut.n ≤ sizeMax)) = some true := hfit
    simp only [Option.some.injEq, Prod.mk.injEq, decide_eq_true_eq] at hrun hfit
    rcases c68_dual_trace_partial id _ _ _ _ h1 h2 h3 h5 h4 h7 h6 (by decide +kernel) (by decide +kernel) h8 h9 _ (fun _ => by decide) h11 _ _ _ hr hfit
      with h | ⟨x, cs, h12, _, h13⟩
    · exact h.1
    · rw [h12] at hrun
      obtain ⟨_, h14⟩ := hrun
      simp only [Prod.mk.injEq, Option.some.injEq] at h14
      rw [h14.1] at h13
      obtain ⟨_, ⟨_, h15, _⟩, _⟩ := h13
      cases h15

/-- Non-vacuity of C68 for pre*: the instance of `c59_pre_answer_wrong` meets the hypotheses (the rest are beside
`c59_common`). -/
example : Untraced staleTo ∧ staleTo.n ≤ sizeMax ∧
    ((SInstance.preStarAccepts id (Heap.first ShElem.key) (Heap.first Prod.fst) HashOrder.id (fun _ => false) stalePda
      (SInstance.ofAutomata stalePda.size staleFrom staleTo fun _ => 7) 100).map fun r =>
        (r.2, r.1.getTrace stalePda true, r.1.prod.base.aut.n)) =
      some (false, (some [(0, [0, 1]), (1, [1]), (2, [3])], ((12 : ℤ) : WithTop ℤ)), 5) :=
  ⟨by unfold Untraced; decide, by decide +kernel, by decide +kernel⟩

/-- Non-vacuity of C68 for dual search: the instance of `c60_dual_answer_wrong` meets the hypotheses (the rest are in
`late_hyps` and beside `c60_common`). The trace joins a part from post* and one from pre*. -/
example : shN latePda lateFrom ≤ sizeMax ∧ dualTo.n ≤ sizeMax ∧
    dualOutcome latePda
      (SInstance.dualSearchAccepts id (Heap.first ShElem.key) (Heap.first Prod.fst) HashOrder.id (fun _ => false) latePda
        (SInstance.ofAutomata latePda.size lateFrom dualTo fun _ => 7) 100) =
      some (false, some [(0, [1]), (1, [2, 1]), (2, [3, 1])], ((15 : ℤ) : WithTop ℤ)) :=
  ⟨by decide +kernel, by decide +kernel, by decide +kernel⟩

end Verif.Props
