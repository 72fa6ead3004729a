import Verif.Proofs.ShortestPostSearch
import Verif.Props.ShortestAnswers

/-!
# C58: what `post_star_accepts<Trace_Type::Shortest>` gets right

The weight that `find_path<Shortest>` and `get_trace<Shortest>` return after the search is the least weight of a run from
the initial to the final automaton, and `max()` if there is none, although the search stops early. The answer yes is
right; the answer no is right up to runs of positive weight (`c58_post_answer_wrong`). `junk` are the values of the
uninitialized members, `hp`, `hq` the two priority queues and `h` the order in which hash maps are visited; all are
arbitrary.
-/

namespace Verif.Props

variable {W T : Type} [LinearOrder W] [LinearOrder T] [AddCommMonoid T] [IsOrderedCancelAddMonoid T]

/-- The final automaton: in range, labels in range, every weight zero. -/
structure ShFinal (p : Pda W) (b : Aut T) : Prop where
  size_le : p.size ≤ b.n
  valid : ∀ t ∈ keys b.edges, t.src < b.n ∧ t.label < p.nLabels ∧ t.dst < b.n
  zero : ∀ e ∈ b.edges, e.2.2 = 0

omit [LinearOrder T] [IsOrderedCancelAddMonoid T] [LinearOrder W] in
theorem ShFinal.other {p : Pda W} {b : Aut T} (hb : ShFinal p b) (hl : p.nLabels ≤ epsilon) : OtherAut p b := by
  refine ⟨hb.size_le, fun t ht => ⟨(hb.valid t ht).1, (hb.valid t ht).2.2⟩, fun t ht => ?_, ?_⟩
  · have := (hb.valid t ht).2.1
    omega
  · intro t x hx
    unfold Aut.wt Aut.getEdge at hx
    obtain ⟨ann, h1, h2⟩ := Option.map_eq_some_iff.1 hx
    obtain ⟨e, h3, h4⟩ := Option.map_eq_some_iff.1 h1
    have := hb.zero e (List.mem_of_find?_eq_some h3)
    rw [h4, h2] at this
    exact this

/-- No control state accepts in both automata, that is, no configuration with the empty stack is in both languages. -/
def NoEmptyStack (p : Pda W) (a b : Aut T) : Prop := ∀ q, q < p.size → ¬ (a.isAcc q = true ∧ b.isAcc q = true)

omit [IsOrderedCancelAddMonoid T] in
theorem not_negative {val : W → T} {p : Pda W} {a : Aut T} (ha : ShAut p a)
    (hnn : ∀ st ∈ p.states, ∀ y ∈ st.rules, 0 ≤ val y.1.weight) : shNegative val p a = false := by
  by_contra hn
  rw [Bool.not_eq_false] at hn
  unfold shNegative at hn
  simp only [Bool.or_eq_true, List.any_eq_true, decide_eq_true_eq] at hn
  rcases hn with ⟨st, hs, y, hy, hlt⟩ | ⟨e, he, hlt⟩
  · exact absurd (hnn st hs y hy) (not_le.2 hlt)
  · rw [ha.zero e he] at hlt
    exact lt_irrefl _ hlt

theorem searchCtx {val : W → T} {p : Pda W} (hw : p.WF) (hl : p.nLabels ≤ epsilon) {a b : Aut T} (ha : ShAut p a)
    (hb : ShFinal p b) (hnn : ∀ st ∈ p.states, ∀ y ∈ st.rules, 0 ≤ val y.1.weight) (hab : NoEmptyStack p a b) :
    SearchCtx p val a b (shQ p a) (shN p a) :=
  ⟨shCtx hw hl ha (not_negative ha hnn), hb.other hl, hab⟩

/-- C58: the search ends. -/
theorem c58_terminates (val : W → T) (hp : Heap (ShElem T) (WithTop T) ShElem.key) (hq : Heap (T × Nat) T Prod.fst)
    (h : HashOrder) {p : Pda W} (hw : p.WF) (hl : p.nLabels ≤ epsilon) {a b : Aut T} (ha : ShAut p a) (hb : ShFinal p b)
    (hnn : ∀ st ∈ p.states, ∀ y ∈ st.rules, 0 ≤ val y.1.weight) (hab : NoEmptyStack p a b) (junk : Nat → T) :
    ∃ fuel r, SInstance.postStarAccepts val hp hq h p (SInstance.ofAutomata p.size a b junk) fuel = .ok (some r) := by
  obtain ⟨fuel, r, h1, _⟩ := postStarAccepts_terminates (searchCtx hw hl ha hb hnn hab) (not_negative ha hnn) hp hq h junk
  exact ⟨fuel, r, h1⟩

/-- C58, what holds of it: after `post_star_accepts<Shortest>` the weight returned by `find_path<Shortest>` is the least
total weight over all runs from the initial to the final automaton, and it is `max()` exactly if there is no such run.
The answer yes is given only if there is a run; the answer no only if there is no run of weight zero. The full claim
would be that the answer is no only if there is no run, which is false (`c58_post_answer_wrong`), and without the
hypothesis on empty stacks, where it is false as well (`c58_post_empty_stack`). -/
theorem c58_minimum_partial (val : W → T) (hp : Heap (ShElem T) (WithTop T) ShElem.key) (hq : Heap (T × Nat) T Prod.fst)
    (h : HashOrder) {p : Pda W} (hw : p.WF) (hl : p.nLabels ≤ epsilon) {a b : Aut T} (ha : ShAut p a) (hb : ShFinal p b)
    (hnn : ∀ st ∈ p.states, ∀ y ∈ st.rules, 0 ≤ val y.1.weight) (hab : NoEmptyStack p a b) (junk : Nat → T)
    (fuel : Nat) (i : SInstance T) (ans : Bool)
    (hr : SInstance.postStarAccepts val hp hq h p (SInstance.ofAutomata p.size a b junk) fuel = .ok (some (i, ans))) :
    (∀ x, i.prod.findFirst.2 = ((x : T) : WithTop T) ↔ IsLeast (RunsBetween p val a b) x) ∧
    (i.prod.findFirst.2 = ⊤ ↔ RunsBetween p val a b = ∅) ∧
    (ans = true → ∃ x, x ∈ RunsBetween p val a b) ∧
    (ans = false → ∀ x ∈ RunsBetween p val a b, 0 < x) := by
  obtain ⟨_, _, _, _, h1⟩ := postStarAccepts_terminates (searchCtx hw hl ha hb hnn hab) (not_negative ha hnn) hp hq h junk
  have hE := (h1 fuel (i, ans) hr).1
  obtain ⟨h2, h3⟩ := hE.findFirst
  refine ⟨h2, h3, ?_, ?_⟩
  · intro ht
    obtain ⟨u, hu⟩ := hE.yes ht
    exact ⟨_, hE.sound u hu⟩
  · intro hf x hx
    obtain ⟨u, hu, hle⟩ := hE.least x hx
    exact lt_of_lt_of_le (hE.no hf u hu) hle

/-- Non-vacuity of C58: the instance of `c58_post_answer_wrong`, where two symbols are read, meets the hypotheses; the
weight is 15. -/
theorem late_meets : latePda.WF ∧ latePda.nLabels ≤ epsilon ∧ ShAut latePda lateFrom ∧ ShFinal latePda lateTo ∧
    (∀ st ∈ latePda.states, ∀ y ∈ st.rules, 0 ≤ id y.1.weight) ∧ NoEmptyStack latePda lateFrom lateTo ∧
    IsLeast (RunsBetween latePda id lateFrom lateTo) 15 := by
  have hOK : ∀ c ∈ lateCalls, c.OK 4 := by simp [lateCalls, PdaCall.OK, WSorted]
  have hq : latePda.size = 3 := by decide +kernel
  have hl : latePda.nLabels = 4 := by decide +kernel
  have h1 : latePda.WF := Pda.WF_build 4 _ hOK
  have h2 : latePda.nLabels ≤ epsilon := by decide +kernel
  have h3 : ShAut latePda lateFrom := by
    refine ⟨by rw [hq]; decide, ?_, by decide, by decide, ?_⟩
    · rw [hl]; decide
    · rw [hq]; decide
  have h4 : ShFinal latePda lateTo := by
    refine ⟨by rw [hq]; decide, ?_, by decide⟩
    rw [hl]; decide
  have h5 : ∀ st ∈ latePda.states, ∀ y ∈ st.rules, 0 ≤ id y.1.weight := by decide +kernel
  have h6 : NoEmptyStack latePda lateFrom lateTo := by
    intro q hq'
    rw [hq] at hq'
    have : ∀ q < 3, ¬ (lateFrom.isAcc q = true ∧ lateTo.isAcc q = true) := by decide
    exact this q hq'
  refine ⟨h1, h2, h3, h4, h5, h6, ?_⟩
  have hrun : (SInstance.postStarAccepts id (Heap.first ShElem.key) (Heap.first Prod.fst) HashOrder.id latePda
      (SInstance.ofAutomata latePda.size lateFrom lateTo fun _ => 0) 100).toOption.bind id ≠ none := by decide +kernel
  have hout := c58_post_answer_wrong.1
  rcases hr : SInstance.postStarAccepts id (Heap.first ShElem.key) (Heap.first Prod.fst) HashOrder.id latePda
      (SInstance.ofAutomata latePda.size lateFrom lateTo fun _ => 0) 100 with e | (_ | ⟨i, ans⟩)
  · rw [hr] at hrun; exact (hrun rfl).elim
  · rw [hr] at hrun; exact (hrun rfl).elim
  · rw [hr] at hout
    have hout : (some (ans, i.prod.findFirst) : Option (Bool × APath Nat × WithTop ℤ)) = _ := hout
    simp only [Option.some.injEq, Prod.mk.injEq] at hout
    have := (c58_minimum_partial id _ _ _ h1 h2 h3 h4 h5 h6 _ _ _ _ hr).1 15
    rw [← this, hout.2]

end Verif.Props
