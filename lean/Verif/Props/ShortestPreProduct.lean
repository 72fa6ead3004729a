import Verif.Proofs.ShortestPreSearchEnd
import Verif.Props.ShortestProduct
import Verif.Props.ShortestPre

/-!
# C59: what `pre_star_accepts<Trace_Type::Shortest>` gets right

The weight that `find_path<Shortest>` and `get_trace<Shortest>` return after the search is the least weight of a run from
the initial to the final automaton, and `max()` if there is none, although the search stops early. It is so if the two
automata have no configuration in common, or if the uninitialized members `_best_weight` happen to be zero. The answer
yes is right; the answer no is right up to runs of positive weight (`c59_pre_answer_wrong`). `junk` are the values of
uninitialized members (of the `_best_weight` and, as booleans, of the flags of pre*), `hp`, `hq` the two priority queues
and `h` the order in which hash maps are visited; all are arbitrary, but for the hypotheses on `best`.
-/

namespace Verif.Props

variable {W T : Type} [LinearOrder W] [Zero W] [LinearOrder T] [AddCommMonoid T] [IsOrderedCancelAddMonoid T]

/-- The initial and the final automaton have a configuration in common. -/
def HaveCommon (p : Pda W) (a b : Aut T) : Prop :=
  ∃ c : Config, c.1 < p.size ∧ Accepted (· ∈ keys a.edges) (fun q => a.isAcc q = true) c ∧
    Accepted (· ∈ keys b.edges) (fun q => b.isAcc q = true) c

theorem preSearchCtx {val : W → T} {p : Pda W} (hw : p.WF) (hl : p.nLabels ≤ epsilon) (hk : p.LookupOK) {a b : Aut T}
    (ha : ShFinal p a) (hb : ShAut p b) (hnn : ∀ st ∈ p.states, ∀ y ∈ st.rules, 0 ≤ val y.1.weight)
    (hne : StacksNonempty p b) : PreSearchCtx p val a b :=
  ⟨spreCtx hw hb hnn hne, hk, hl, ha.other hl⟩

/-- C59: the search ends. -/
theorem c59_terminates (val : W → T) (hp : Heap (ShElem T) (WithTop T) ShElem.key) (hq : Heap (T × Nat) T Prod.fst)
    (h : HashOrder) (junk : Nat → Bool) {p : Pda W} (hw : p.WF) (hl : p.nLabels ≤ epsilon) (hk : p.LookupOK) {a b : Aut T}
    (ha : ShFinal p a) (hb : ShAut p b) (hnn : ∀ st ∈ p.states, ∀ y ∈ st.rules, 0 ≤ val y.1.weight)
    (hne : StacksNonempty p b) (best : Nat → T) :
    ∃ fuel r, SInstance.preStarAccepts val hp hq h junk p (SInstance.ofAutomata p.size a b best) fuel = some r :=
  preStarAccepts_terminates (preSearchCtx hw hl hk ha hb hnn hne) hp hq h junk best

/-- C59, what holds of it: after `pre_star_accepts<Shortest>` the weight returned by `find_path<Shortest>` is the least
total weight over all runs from the initial to the final automaton, and it is `max()` exactly if there is no such run.
The answer yes is given only if there is a run; the answer no only if there is no run of weight zero, and hence no
configuration in common. The full claim would be that the answer is no only if there is no run, which is false
(`c59_pre_answer_wrong`), and without the hypotheses on the uninitialized members, where it is false as well
(`c59_pre_weight_junk`). The final automaton accepts no empty stack, as in C57. -/
theorem c59_minimum_partial (val : W → T) (hp : Heap (ShElem T) (WithTop T) ShElem.key) (hq : Heap (T × Nat) T Prod.fst)
    (h : HashOrder) (junk : Nat → Bool) {p : Pda W} (hw : p.WF) (hl : p.nLabels ≤ epsilon) (hk : p.LookupOK) {a b : Aut T}
    (ha : ShFinal p a) (hb : ShAut p b) (hnn : ∀ st ∈ p.states, ∀ y ∈ st.rules, 0 ≤ val y.1.weight)
    (hne : StacksNonempty p b) (best : Nat → T) (hj : ∀ u, 0 ≤ best u) (hj0 : HaveCommon p a b → ∀ u, best u = 0)
    (fuel : Nat) (i : SInstance T) (ans : Bool)
    (hr : SInstance.preStarAccepts val hp hq h junk p (SInstance.ofAutomata p.size a b best) fuel = some (i, ans)) :
    (∀ x, i.prod.findFirst.2 = ((x : T) : WithTop T) ↔ IsLeast (RunsBetween p val a b) x) ∧
    (i.prod.findFirst.2 = ⊤ ↔ RunsBetween p val a b = ∅) ∧
    (ans = true → ∃ x, x ∈ RunsBetween p val a b) ∧
    (ans = false → ∀ x ∈ RunsBetween p val a b, 0 < x) := by
  obtain ⟨h1, h2, h3, _⟩ := preStarAccepts_end (preSearchCtx hw hl hk ha hb hnn hne) hp hq h junk hj hj0 hr
  obtain ⟨h4, h5⟩ := h1.findFirst
  refine ⟨h4, h5, ?_, ?_⟩
  · intro ht
    obtain ⟨u, hu⟩ := h2 ht
    obtain ⟨x, hx, _⟩ := h1.sound u hu
    exact ⟨x, hx⟩
  · intro hf x hx
    obtain ⟨u, hu, hle⟩ := h1.least x hx
    exact lt_of_lt_of_le (h3 hf u hu) hle

/-- C59: whatever the uninitialized members hold, the answer is yes if the two automata have a configuration in common. -/
theorem c59_common (val : W → T) (hp : Heap (ShElem T) (WithTop T) ShElem.key) (hq : Heap (T × Nat) T Prod.fst)
    (h : HashOrder) (junk : Nat → Bool) {p : Pda W} (hw : p.WF) (hl : p.nLabels ≤ epsilon) (hk : p.LookupOK) {a b : Aut T}
    (ha : ShFinal p a) (hb : ShAut p b) (hnn : ∀ st ∈ p.states, ∀ y ∈ st.rules, 0 ≤ val y.1.weight)
    (hne : StacksNonempty p b) (best : Nat → T) (hcc : HaveCommon p a b) (fuel : Nat) :
    ∃ i, SInstance.preStarAccepts val hp hq h junk p (SInstance.ofAutomata p.size a b best) fuel = some (i, true) := by
  obtain ⟨_, _, h3, _⟩ := preProduct_spec (preSearchCtx (val := val) hw hl hk ha hb hnn hne) h
  have h3 := h3.2 hcc
  unfold SInstance.preStarAccepts SInstance.ofAutomata
  dsimp only
  rw [if_pos h3]
  exact ⟨_, rfl⟩

/-- Non-vacuity of C59: the instance of `c59_pre_answer_wrong` meets the hypotheses, with the value 7 in all
uninitialized members; the least weight is 12. The automata of `c59_pre_weight_junk` have a configuration in common. -/
example : stalePda.WF ∧ stalePda.nLabels ≤ epsilon ∧ stalePda.LookupOK ∧ ShFinal stalePda staleFrom ∧ ShAut stalePda staleTo ∧
    (∀ st ∈ stalePda.states, ∀ y ∈ st.rules, 0 ≤ id y.1.weight) ∧ StacksNonempty stalePda staleTo ∧
    (¬ HaveCommon stalePda staleFrom staleTo) ∧ IsLeast (RunsBetween stalePda id staleFrom staleTo) 12 ∧
    HaveCommon latePda sameAut sameAut := by
  have hOK : ∀ c ∈ staleCalls, c.OK 4 := by simp [staleCalls, PdaCall.OK, WSorted]
  have hq : stalePda.size = 3 := by decide +kernel
  have hl : stalePda.nLabels = 4 := by decide +kernel
  have h1 : stalePda.WF := Pda.WF_build 4 _ hOK
  have h2 : stalePda.nLabels ≤ epsilon := by decide +kernel
  have hk : stalePda.LookupOK := lookupOK_build 4 _ hOK (by
    intro src r wc pre hm
    simp only [staleCalls, List.mem_cons, PdaCall.rule.injEq, List.not_mem_nil, or_false] at hm
    rcases hm with ⟨_, rfl, _⟩ | ⟨_, rfl, _⟩ | ⟨_, rfl, _⟩ | ⟨_, rfl, _⟩ | ⟨_, rfl, _⟩ <;> simp)
  have h3 : ShFinal stalePda staleFrom := ⟨by rw [hq]; decide, by rw [hl]; decide, by decide⟩
  have h4 : ShAut stalePda staleTo := ⟨by rw [hq]; decide, by rw [hl]; decide, by decide, by decide, by rw [hq]; decide⟩
  have h5 : ∀ st ∈ stalePda.states, ∀ y ∈ st.rules, 0 ≤ id y.1.weight := by decide +kernel
  have h6 : StacksNonempty stalePda staleTo := by unfold StacksNonempty; rw [hq]; decide
  have h7 : ¬ HaveCommon stalePda staleFrom staleTo := by
    rintro ⟨⟨q, w⟩, c1, ⟨f, c2, c3⟩, ⟨f', c4, c5⟩⟩
    dsimp only at c1 c2 c4
    cases c2 with
    | nil =>
      cases c4
      rw [h6 q c1] at c5
      cases c5
    | @cons _ _ r _ _ e1 _ =>
      cases c4 with
      | @cons _ _ r' _ _ e2 _ =>
        have d1 : ∀ t ∈ keys staleFrom.edges, t.src ≠ 2 := by decide
        have d2 : ∀ t ∈ keys staleTo.edges, t.src = 2 := by decide
        have e3 : q = 2 := d2 _ e2
        exact d1 _ e1 e3
  refine ⟨h1, h2, hk, h3, h4, h5, h6, h7, ?_, (0, [0]), by decide +kernel, ⟨3, .cons (q := 3) (by decide) (.nil _), by decide⟩,
    ⟨3, .cons (q := 3) (by decide) (.nil _), by decide⟩⟩
  have hrun : outcome (SInstance.preStarAccepts id (Heap.first ShElem.key) (Heap.first Prod.fst) HashOrder.id (fun _ => false) stalePda
      (SInstance.ofAutomata stalePda.size staleFrom staleTo fun _ => 7) 100) =
      some (false, ⟨3, [(0, 0), (1, 1)]⟩, ((12 : ℤ) : WithTop ℤ)) := by decide +kernel
  rcases hr : SInstance.preStarAccepts id (Heap.first ShElem.key) (Heap.first Prod.fst) HashOrder.id (fun _ => false) stalePda
      (SInstance.ofAutomata stalePda.size staleFrom staleTo fun _ => 7) 100 with _ | ⟨i, ans⟩
  · rw [hr] at hrun; cases hrun
  · rw [hr] at hrun
    have hrun : (some (ans, i.prod.findFirst) : Option (Bool × APath Nat × WithTop ℤ)) = _ := hrun
    simp only [Option.some.injEq, Prod.mk.injEq] at hrun
    have := (c59_minimum_partial id _ _ _ _ h1 h2 hk h3 h4 h5 h6 _ (fun _ => by decide) (fun h => (h7 h).elim) _ _ _ hr).1 12
    rw [← this, hrun.2]

end Verif.Props
