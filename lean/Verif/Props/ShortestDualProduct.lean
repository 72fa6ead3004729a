import Verif.Proofs.ShortestDualEnd
import Verif.Props.ShortestPreProduct

/-!
# C60: what `dual_search_accepts<Trace_Type::Shortest>` gets right

Two saturations, post* from the initial automaton and pre* from the final one, feed one product in turn, and either of
them may stop the search. The weight that `find_path<Shortest>` returns afterwards is the least weight of a run from the
initial to the final automaton, and `max()` if there is none. As for pre* alone (C59) it is so if the two automata have no
configuration in common, or if the uninitialized members `_best_weight` happen to be zero. The answer yes is right; the
answer no is right up to runs of positive weight (`c60_dual_answer_wrong`). The two priority queues of the saturations
and the one of the product, the order in which hash maps are visited, and the values of uninitialized members are
arbitrary, but for the hypotheses on `best`.
-/

namespace Verif.Props

variable {W T : Type} [LinearOrder W] [Zero W] [LinearOrder T] [AddCommMonoid T] [IsOrderedCancelAddMonoid T]

theorem dualCtx {val : W → T} {p : Pda W} (hw : p.WF) (hl : p.nLabels ≤ epsilon) (hk : p.LookupOK) {a b : Aut T}
    (ha : ShAut p a) (hb : ShAut p b) (hnn : ∀ st ∈ p.states, ∀ y ∈ st.rules, 0 ≤ val y.1.weight)
    (hne : StacksNonempty p b) : DualCtx p val a b (shQ p a) (shN p a) :=
  ⟨shCtx hw hl ha (not_negative ha hnn), spreCtx hw hb hnn hne, hk⟩

/-- C60: the search ends. -/
theorem c60_terminates (val : W → T) (hp : Heap (ShElem T) (WithTop T) ShElem.key) (hq : Heap (T × Nat) T Prod.fst)
    (h : HashOrder) (junk : Nat → Bool) {p : Pda W} (hw : p.WF) (hl : p.nLabels ≤ epsilon) (hk : p.LookupOK) {a b : Aut T}
    (ha : ShAut p a) (hb : ShAut p b) (hnn : ∀ st ∈ p.states, ∀ y ∈ st.rules, 0 ≤ val y.1.weight)
    (hne : StacksNonempty p b) (best : Nat → T) :
    ∃ fuel r, SInstance.dualSearchAccepts val hp hq h junk p (SInstance.ofAutomata p.size a b best) fuel = .ok (some r) :=
  dualSearchAccepts_terminates (dualCtx hw hl hk ha hb hnn hne) (not_negative ha hnn) hp hq h junk

/-- C60, what holds of it: after `dual_search_accepts<Shortest>` the weight returned by `find_path<Shortest>` is the least
total weight over all runs from the initial to the final automaton, and it is `max()` exactly if there is no such run.
The answer yes is given only if there is a run; the answer no only if there is no run of weight zero. The full claim
would be that the answer is no only if there is no run, which is false (`c60_dual_answer_wrong`), and without the
hypotheses on the uninitialized members, where it is false as well (`c60_dual_weight_junk`). The final automaton accepts
no empty stack, as in C57. -/
theorem c60_minimum_partial (val : W → T) (hp : Heap (ShElem T) (WithTop T) ShElem.key) (hq : Heap (T × Nat) T Prod.fst)
    (h : HashOrder) (junk : Nat → Bool) {p : Pda W} (hw : p.WF) (hl : p.nLabels ≤ epsilon) (hk : p.LookupOK) {a b : Aut T}
    (ha : ShAut p a) (hb : ShAut p b) (hnn : ∀ st ∈ p.states, ∀ y ∈ st.rules, 0 ≤ val y.1.weight)
    (hne : StacksNonempty p b) (best : Nat → T) (hj : ∀ u, 0 ≤ best u) (hj0 : HaveCommon p a b → ∀ u, best u = 0)
    (fuel : Nat) (i : SInstance T) (ans : Bool)
    (hr : SInstance.dualSearchAccepts val hp hq h junk p (SInstance.ofAutomata p.size a b best) fuel = .ok (some (i, ans))) :
    (∀ x, i.prod.findFirst.2 = ((x : T) : WithTop T) ↔ IsLeast (RunsBetween p val a b) x) ∧
    (i.prod.findFirst.2 = ⊤ ↔ RunsBetween p val a b = ∅) ∧
    (ans = true → ∃ x, x ∈ RunsBetween p val a b) ∧
    (ans = false → ∀ x ∈ RunsBetween p val a b, 0 < x) := by
  obtain ⟨h1, h2, h3, _⟩ := dualSearchAccepts_end (dualCtx hw hl hk ha hb hnn hne) hp hq h junk hj hj0 hr
  obtain ⟨h4, h5⟩ := h1.findFirst
  refine ⟨h4, h5, ?_, ?_⟩
  · intro ht
    obtain ⟨u, hu⟩ := h2 ht
    obtain ⟨x, hx, _⟩ := h1.sound u hu
    exact ⟨x, hx⟩
  · intro hf x hx
    obtain ⟨u, hu, hle⟩ := h1.least x hx
    exact lt_of_lt_of_le (h3 hf u hu) hle

/-- C60: whatever the uninitialized members hold, the answer is yes if the two automata have a configuration in common. -/
theorem c60_common (val : W → T) (hp : Heap (ShElem T) (WithTop T) ShElem.key) (hq : Heap (T × Nat) T Prod.fst)
    (h : HashOrder) (junk : Nat → Bool) {p : Pda W} (hw : p.WF) (hl : p.nLabels ≤ epsilon) (hk : p.LookupOK) {a b : Aut T}
    (ha : ShAut p a) (hb : ShAut p b) (hnn : ∀ st ∈ p.states, ∀ y ∈ st.rules, 0 ≤ val y.1.weight)
    (hne : StacksNonempty p b) (best : Nat → T) (hcc : HaveCommon p a b) (fuel : Nat) :
    ∃ i, SInstance.dualSearchAccepts val hp hq h junk p (SInstance.ofAutomata p.size a b best) fuel = .ok (some (i, true)) := by
  obtain ⟨_, _, h3, _⟩ := dualProduct_spec (dualCtx (val := val) hw hl hk ha hb hnn hne) h
  have h3 := h3.2 hcc
  unfold SInstance.dualSearchAccepts SInstance.ofAutomata
  dsimp only
  rw [if_pos h3]
  exact ⟨_, rfl⟩

/-- Non-vacuity of C60: the instance of `c60_dual_answer_wrong` meets the hypotheses, with the value 7 in all
uninitialized members; the least weight is 15. The automata of `c60_dual_weight_junk` have a configuration in common. -/
example : latePda.WF ∧ latePda.nLabels ≤ epsilon ∧ latePda.LookupOK ∧ ShAut latePda lateFrom ∧ ShAut latePda dualTo ∧
    (∀ st ∈ latePda.states, ∀ y ∈ st.rules, 0 ≤ id y.1.weight) ∧ StacksNonempty latePda dualTo ∧
    (¬ HaveCommon latePda lateFrom dualTo) ∧ IsLeast (RunsBetween latePda id lateFrom dualTo) 15 ∧
    ShAut latePda sameAut ∧ StacksNonempty latePda sameAut ∧ HaveCommon latePda sameAut sameAut := by
  have hOK : ∀ c ∈ lateCalls, c.OK 4 := by simp [lateCalls, PdaCall.OK, WSorted]
  have hq : latePda.size = 3 := by decide +kernel
  have hl : latePda.nLabels = 4 := by decide +kernel
  have h1 : latePda.WF := Pda.WF_build 4 _ hOK
  have h2 : latePda.nLabels ≤ epsilon := by decide +kernel
  have hk : latePda.LookupOK := lookupOK_build 4 _ hOK (by
    intro src r wc pre hm
    simp only [lateCalls, List.mem_cons, PdaCall.rule.injEq, List.not_mem_nil, or_false] at hm
    rcases hm with ⟨_, rfl, _⟩ | ⟨_, rfl, _⟩ | ⟨_, rfl, _⟩ <;> simp)
  have h3 : ShAut latePda lateFrom := ⟨by rw [hq]; decide, by rw [hl]; decide, by decide, by decide, by rw [hq]; decide⟩
  have h4 : ShAut latePda dualTo := ⟨by rw [hq]; decide, by rw [hl]; decide, by decide, by decide, by rw [hq]; decide⟩
  have h5 : ∀ st ∈ latePda.states, ∀ y ∈ st.rules, 0 ≤ id y.1.weight := by decide +kernel
  have h6 : StacksNonempty latePda dualTo := by unfold StacksNonempty; rw [hq]; decide
  have h7 : ¬ HaveCommon latePda lateFrom dualTo := by
    rintro ⟨⟨q, w⟩, c1, ⟨f, c2, c3⟩, ⟨f', c4, c5⟩⟩
    dsimp only at c1 c2 c4
    cases c2 with
    | nil =>
      cases c4
      rw [h6 q c1] at c5
      cases c5
    | @cons _ _ r _ _ e1 _ =>
      cases c4 with
      | @cons _ _ r' _ _ e2 _ =>
        have d1 : ∀ t ∈ keys lateFrom.edges, t.src = 0 ∧ t.label ≠ 3 := by decide
        have d2 : ∀ t ∈ keys dualTo.edges, t.src = 0 → t.label = 3 := by decide
        obtain ⟨e3, e4⟩ := d1 _ e1
        have e5 := d2 _ e2 e3
        exact e4 e5
  refine ⟨h1, h2, hk, h3, h4, h5, h6, h7, ?_, ⟨by rw [hq]; decide, by rw [hl]; decide, by decide, by decide, by rw [hq]; decide⟩,
    by unfold StacksNonempty; rw [hq]; decide, (0, [0]), by decide +kernel, ⟨3, .cons (q := 3) (by decide) (.nil _), by decide⟩,
    ⟨3, .cons (q := 3) (by decide) (.nil _), by decide⟩⟩
  have hrun : outcome ((SInstance.dualSearchAccepts id (Heap.first ShElem.key) (Heap.first Prod.fst) HashOrder.id (fun _ => false) latePda
      (SInstance.ofAutomata latePda.size lateFrom dualTo fun _ => 7) 100).toOption.bind id) =
      some (false, ⟨3, [(3, 2), (1, 4)]⟩, ((15 : ℤ) : WithTop ℤ)) := by decide +kernel
  rcases hr : SInstance.dualSearchAccepts id (Heap.first ShElem.key) (Heap.first Prod.fst) HashOrder.id (fun _ => false) latePda
      (SInstance.ofAutomata latePda.size lateFrom dualTo fun _ => 7) 100 with e | _ | ⟨i, ans⟩
  · rw [hr] at hrun; cases hrun
  · rw [hr] at hrun; cases hrun
  · rw [hr] at hrun
    have hrun : (some (ans, i.prod.findFirst) : Option (Bool × APath Nat × WithTop ℤ)) = _ := hrun
    simp only [Option.some.injEq, Prod.mk.injEq] at hrun
    have := (c60_minimum_partial id _ _ _ _ h1 h2 hk h3 h4 h5 h6 _ (fun _ => by decide) (fun h => (h7 h).elim) _ _ _ hr).1 15
    rw [← this, hrun.2]

end Verif.Props
