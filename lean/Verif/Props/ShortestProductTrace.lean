import Verif.Proofs.ShortestPostTrace
import Verif.Props.ShortestProduct
import Verif.Props.ShortestTrace

/-!
# C62: the path and the trace after `post_star_accepts<Trace_Type::Shortest>`

`findFirst` and `findPairs` are `find_path<Shortest, false>()` and `find_path<Shortest, true>()` of the instance, and
`getTrace p false` is `get_trace<Shortest>(instance)`. The hypotheses are those of C58; moreover the input automaton carries
no traces, and the numbers of the states of the product and of the saturated automaton fit into `size_t`.
-/

namespace Verif.Props

variable {W T : Type} [LinearOrder W] [LinearOrder T] [AddCommMonoid T] [IsOrderedCancelAddMonoid T]

omit [LinearOrder T] [IsOrderedCancelAddMonoid T] in
theorem trs_costSpells (a : Aut T) (f : Nat) (es : List (Nat × Nat)) (h : ∀ t ∈ trs f es, t ∈ keys a.edges) :
    CostSpells (autWeights a) (APath.states ⟨f, es⟩) (APath.stack ⟨f, es⟩) (sumW a (trs f es)) := by
  rw [APath.stack_eq]
  unfold APath.states
  dsimp only
  rw [autWeights_iff]
  induction es with
  | nil => exact (rfl : sumW a (trs f []) = 0)
  | cons e es ih =>
    obtain ⟨g, s⟩ := e
    have hst : ∃ l, (es.map Prod.snd ++ [f]) = APath.frontState ⟨f, es⟩ :: l := by
      cases es with
      | nil => exact ⟨_, rfl⟩
      | cons e es => exact ⟨_, rfl⟩
    obtain ⟨l, hl⟩ := hst
    simp only [trs, List.forall_mem_cons] at h
    have h2 := ih h.2
    obtain ⟨x, hx⟩ := Aut.wt_of_mem h.1
    simp only [List.map_cons, List.cons_append]
    rw [hl] at h2 ⊢
    refine ⟨x, _, hx, h2, ?_⟩
    simp only [trs]
    rw [sumW_cons, hx]
    rfl

/-- C62: after `post_star_accepts<Shortest>`, if there is a run from the initial to the final automaton, then
`find_path<Shortest, true>` returns a path of pairs of states. The first components, with its labels, are a path of the
saturated initial automaton from a control state to an accepting state, and the sum of the weights of its transitions is
the weight that is returned, which is the least weight of a run. The second components, without the epsilon edges, are
a path of the final automaton from the same control state to an accepting state. `find_path<Shortest, false>` returns
the first components. If there is no run, both return the null path and `max()`. -/
theorem c62_find_path_partial (val : W → T) (hp : Heap (ShElem T) (WithTop T) ShElem.key) (hq : Heap (T × Nat) T Prod.fst)
    (h : HashOrder) {p : Pda W} (hw : p.WF) (hl : p.nLabels < epsilon) {a b : Aut T} (ha : ShAut p a) (h0 : Untraced a)
    (hb : ShFinal p b) (hnn : ∀ st ∈ p.states, ∀ y ∈ st.rules, 0 ≤ val y.1.weight) (hab : NoEmptyStack p a b)
    (hN : shN p a ≤ sizeMax) (junk : Nat → T) (fuel : Nat) (i : SInstance T) (ans : Bool)
    (hr : SInstance.postStarAccepts val hp hq h p (SInstance.ofAutomata p.size a b junk) fuel = .ok (some (i, ans)))
    (hfit : i.prod.base.aut.n ≤ sizeMax) :
    (RunsBetween p val a b = ∅ ∧ i.prod.findPairs = (none, ⊤) ∧ i.prod.findFirst = (APath.null, ⊤)) ∨
    ∃ (x : T) (P : APath (Nat × Nat)), IsLeast (RunsBetween p val a b) x ∧ i.prod.findPairs = (some P, (x : WithTop T)) ∧
      i.prod.findFirst = (P.map Prod.fst, (x : WithTop T)) ∧ P.frontState.1 = P.frontState.2 ∧ P.frontState.1 < p.size ∧
      CostSpells (autWeights i.initial) (P.states.map Prod.fst) P.stack x ∧ i.initial.isAcc P.fin.1 = true ∧
      Spells (· ∈ keys b.edges) (P.map Prod.snd).pathAndStack.1 (P.map Prod.snd).pathAndStack.2 ∧
      (P.map Prod.snd).pathAndStack.1.head? = some P.frontState.2 ∧ b.isAcc P.fin.2 = true ∧
      (P.map Prod.snd).pathAndStack.2 = P.stack.filter (fun g => decide (g ≠ epsilon)) := by
  have hc := searchCtx hw (Nat.le_of_lt hl) ha hb hnn hab
  obtain ⟨_, _, _, _, h1⟩ := postStarAccepts_terminates hc (not_negative ha hnn) hp hq h junk
  obtain ⟨hE, he⟩ := h1 fuel (i, ans) hr
  dsimp only at hE he
  obtain ⟨f1, f2⟩ := hE.findFirst
  rcases hx : i.prod.pathShortest.2 with _ | x
  · refine .inl ⟨f2.1 hx, ?_, ?_⟩
    · unfold SProd.findPairs
      rw [hx, SProd.pathShortest_top hx]
      rfl
    · unfold SProd.findFirst
      rw [hx, SProd.pathShortest_top hx]
      rfl
  · obtain ⟨P, g1, g2, g3, g4, g5, _⟩ := he.result hc hE hl hN hfit h0 hx
    obtain ⟨s1, s2, s3, s4, s5⟩ := he.l.base.second hc.other.noEps g3
    have hmap : ∀ f : Nat × Nat → Nat, (P.map i.prod.base.orig).map f = P.map fun q => f (i.prod.base.orig q) := by
      intro f
      simp [APath.map]
    have hfr : (P.map i.prod.base.orig).frontState = (P.frontState, P.frontState) := by
      rw [APath.frontState_map, Product.orig_lt g3.2.1]
    refine .inr ⟨x, P.map i.prod.base.orig, (f1 x).1 (by rw [g1]), g2, by rw [hmap]; exact g1, by rw [hfr], ?_, ?_, g4.2.2, ?_, ?_,
      s5, ?_⟩
    · rw [hfr, ← he.size]
      exact g3.2.1
    · have := trs_costSpells i.initial _ _ ((trs_spells _ _ _).1 g4.1)
      have hst : ((P.map i.prod.base.orig).states.map Prod.fst) = (P.map fun q => (i.prod.base.orig q).1).states := by
        simp [APath.states, APath.map]
      rw [hst, APath.stack_map, ← APath.stack_map (fun q => (i.prod.base.orig q).1) P, ← g5]
      exact this
    · rw [hmap]; exact s1
    · rw [hmap, hfr]; exact s2
    · rw [hmap, APath.stack_map]; exact s3

/-- C62: `get_trace<Shortest>(instance)` after `post_star_accepts<Shortest>` returns, whatever the search answered, a run
from a configuration of the initial automaton to one of the final automaton with its weight, which is the least of all
such runs; if there is no run, it returns the empty trace and `max()`. The full claim is without the hypothesis on empty
stacks, where it is false (`c58_post_empty_stack`). -/
theorem c62_get_trace_partial (val : W → T) (hp : Heap (ShElem T) (WithTop T) ShElem.key) (hq : Heap (T × Nat) T Prod.fst)
    (h : HashOrder) {p : Pda W} (hw : p.WF) (hl : p.nLabels < epsilon) {a b : Aut T} (ha : ShAut p a) (h0 : Untraced a)
    (hb : ShFinal p b) (hnn : ∀ st ∈ p.states, ∀ y ∈ st.rules, 0 ≤ val y.1.weight) (hab : NoEmptyStack p a b)
    (hN : shN p a ≤ sizeMax) (junk : Nat → T) (fuel : Nat) (i : SInstance T) (ans : Bool)
    (hr : SInstance.postStarAccepts val hp hq h p (SInstance.ofAutomata p.size a b junk) fuel = .ok (some (i, ans)))
    (hfit : i.prod.base.aut.n ≤ sizeMax) :
    (RunsBetween p val a b = ∅ ∧ i.getTrace p false = (some [], ⊤)) ∨
    ∃ (x : T) (cs : List Config) (c : Config), i.getTrace p false = (some cs, (x : WithTop T)) ∧
      IsLeast (RunsBetween p val a b) x ∧ IsRunTo p val a cs x c ∧
      Accepted (· ∈ keys b.edges) (fun q => b.isAcc q = true) c := by
  have hc := searchCtx hw (Nat.le_of_lt hl) ha hb hnn hab
  obtain ⟨_, _, _, _, h1⟩ := postStarAccepts_terminates hc (not_negative ha hnn) hp hq h junk
  obtain ⟨hE, he⟩ := h1 fuel (i, ans) hr
  dsimp only at hE he
  obtain ⟨f1, f2⟩ := hE.findFirst
  rcases hx : i.prod.pathShortest.2 with _ | x
  · refine .inl ⟨f2.1 hx, ?_⟩
    have hff : i.prod.findFirst = (APath.null, ⊤) := by
      unfold SProd.findFirst
      rw [hx, SProd.pathShortest_top hx]
      rfl
    unfold SInstance.getTrace
    rw [hff]
    rfl
  · obtain ⟨P, g1, g2, g3, g4, g5, cs, c, c', t1, t2, t3, t4, t5, t6, t7⟩ := he.result hc hE hl hN hfit h0 hx
    refine .inr ⟨x, cs, c', ?_, (f1 x).1 (by rw [g1]), ⟨t2, t6, c, t3, t4, t5⟩, t7⟩
    unfold SInstance.getTrace SInstance.automaton
    rw [g1]
    exact congrArg (·, (x : WithTop T)) t1

local instance decPair : DecidableEq (Option (List Config) × WithTop ℤ) := inferInstance
local instance decEdges : DecidableEq (List (Nat × (Nat × Nat))) := inferInstance
local instance decEnd : DecidableEq ((Nat × Nat) × List (Nat × (Nat × Nat))) := inferInstance
local instance decPairs : DecidableEq (Option ((Nat × Nat) × List (Nat × (Nat × Nat))) × Nat) := inferInstance

/-- Non-vacuity of C62: the instance of `c58_post_answer_wrong` meets the hypotheses (the rest are in `late_meets`). The
search answers no, and the trace is the run of weight 15. -/
example : latePda.nLabels < epsilon ∧ Untraced lateFrom ∧ shN latePda lateFrom ≤ sizeMax ∧
    (((SInstance.postStarAccepts id (Heap.first ShElem.key) (Heap.first Prod.fst) HashOrder.id latePda
      (SInstance.ofAutomata latePda.size lateFrom lateTo fun _ => 0) 100).toOption.bind id).map fun r =>
        (r.2, r.1.getTrace latePda false, r.1.prod.findPairs.1.map fun P => (P.fin, P.edges), r.1.prod.base.aut.n)) =
      some (false, (some [(0, [1]), (1, [2, 1]), (2, [3, 1])], ((15 : ℤ) : WithTop ℤ)),
        some ((3, 4), [(3, (2, 2)), (1, (4, 3))]), 5) :=
  ⟨by decide +kernel, by unfold Untraced; decide, by decide +kernel, by decide +kernel⟩

end Verif.Props
