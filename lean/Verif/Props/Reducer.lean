import Verif.Proofs.ReducerFinal
import Mathlib.Data.Int.Order.Basic
import Mathlib.Algebra.Order.PUnit

/-!
# C40: `Reducer::reduce`
-/

namespace Verif.Props

open Reducer

variable {W : Type}

/-! ## Specification -/

/-- Specification: `term` is reached from `init` with the stack `w`. -/
def Reaches (p : Pda W) (init term : Nat) (w : List Nat) : Prop :=
  ∃ w', Reach p.Has (init, w) (term, w')

/-- Specification: `rs` is a list of rules of `p` that leads from `(init, w)` to `term` and visits `term`
only at the end. -/
def FirstRun (p : Pda W) (init term : Nat) (w : List Nat) (rs : List (URule W)) : Prop :=
  (∃ w', Run (init, w) rs (term, w')) ∧ ∀ r ∈ rs, p.Has r ∧ r.src ≠ term

/-- Specification: between its first step and its last step the run stays above the initial stack. -/
def StaysAbove (init : Nat) (w : List Nat) (rs : List (URule W)) : Prop :=
  ∀ rs1 r rs2 d, rs = rs1 ++ r :: rs2 → rs1 ≠ [] → rs2 ≠ [] → Run (init, w) rs1 d →
    w.length < d.2.length

/-- Specification: what the caller has to guarantee. The label lists given to `add_rule` are strictly
increasing, the ids are states, there is a label, and rules that leave the initial state push (asserted at
internal/Reducer.h:86). -/
structure Reducible [LinearOrder W] (n : Nat) (cs : List (PdaCall W)) (init term : Nat) : Prop where
  calls : ∀ c ∈ cs, c.OK n
  strict : ∀ src r wc pre, PdaCall.rule src r wc pre ∈ cs → SSorted pre
  pos : 0 < n
  initLt : init < (Pda.build n cs).size
  termLt : term < (Pda.build n cs).size
  push : ∀ r, (Pda.build n cs).Has r → r.src = init → r.dst ≠ term → r.op = .push

/-! ## A PDA built by calls meets the precondition -/

theorem setUnion_ssorted {as bs : List Nat} (ha : SSorted as) (hb : SSorted bs) :
    SSorted (setUnion as bs) := by
  fun_induction setUnion as bs with
  | case1 => exact hb
  | case2 => exact ha
  | case3 a as b bs h ih =>
    rw [SSorted, List.pairwise_cons] at ha ⊢
    refine ⟨fun x hx => ?_, ih ha.2 hb⟩
    rcases (mem_setUnion _ _ _).1 hx with hx | hx
    · exact ha.1 x hx
    · rw [SSorted, List.pairwise_cons] at hb
      rcases List.mem_cons.1 hx with rfl | hx
      · exact h
      · have := hb.1 x hx; omega
  | case4 a as b bs h1 h2 ih =>
    rw [SSorted, List.pairwise_cons] at hb ⊢
    refine ⟨fun x hx => ?_, ih ha hb.2⟩
    rcases (mem_setUnion _ _ _).1 hx with hx | hx
    · rw [SSorted, List.pairwise_cons] at ha
      rcases List.mem_cons.1 hx with rfl | hx
      · exact h2
      · have := ha.1 x hx; omega
    · exact hb.1 x hx
  | case5 a as b bs h1 h2 ih =>
    rw [SSorted, List.pairwise_cons] at ha hb ⊢
    refine ⟨fun x hx => ?_, ih ha.2 hb.2⟩
    rcases (mem_setUnion _ _ _).1 hx with hx | hx
    · exact ha.1 x hx
    · have := hb.1 x hx; omega

theorem reducer_ok_build [LinearOrder W] (n : Nat) (cs : List (PdaCall W)) (hcs : ∀ c ∈ cs, c.OK n)
    (hs : ∀ src r wc pre, PdaCall.rule src r wc pre ∈ cs → SSorted pre) : OK (Pda.build n cs) := by
  suffices h : ∀ (cs : List (PdaCall W)) (p : Pda W), OK p → (∀ c ∈ cs, c.OK p.nLabels) →
      (∀ src r wc pre, PdaCall.rule src r wc pre ∈ cs → SSorted pre) → OK (cs.foldl Pda.call p) by
    refine h cs _ ⟨Pda.WF_empty n, ?_, ?_⟩ hcs hs <;>
    · intro i x hx; simp [Pda.st, default] at hx
  intro cs
  induction cs with
  | nil => intro p hp _ _; exact hp
  | cons c cs ih =>
    intro p hp hc hs
    rw [List.foldl_cons]
    have hwf : (p.call c).WF := Pda.WF_foldl_call [c] hp.wf (fun c' h => by
      rw [List.mem_singleton] at h; subst h; exact hc _ (by simp))
    have hnl : (p.call c).nLabels = p.nLabels := Pda.nLabels_foldl_call [c] p
    refine ih _ ?_ (fun c' h => by rw [hnl]; exact hc c' (by simp [h])) (fun src r wc pre h => hs src r wc pre (by simp [h]))
    cases c with
    | state s =>
      have hst : ∀ i x, x ∈ ((p.call (.state s)).st i).rules → x ∈ (p.st i).rules := by
        intro i x hx
        rw [Pda.call, Pda.st_addState] at hx; exact hx
      exact ⟨hwf, fun i x hx => hp.strict i x (hst i x hx), fun i x hx => hp.wild i x (hst i x hx)⟩
    | rule src r wc pre =>
      have hpre := hs src r wc pre (by simp)
      have hmerge : ∀ l : Labels, SSorted l.labels → (l.wildcard = true → l.labels = []) →
          SSorted (l.merge wc pre).labels ∧ ((l.merge wc pre).wildcard = true → (l.merge wc pre).labels = []) := by
        rintro ⟨lw, ls⟩ h1 h2
        unfold Labels.merge
        cases lw <;> cases wc <;> simp_all
        · exact setUnion_ssorted h1 hpre
      have key : ∀ i x, x ∈ ((p.call (.rule src r wc pre)).st i).rules →
          SSorted x.2.labels ∧ (x.2.wildcard = true → x.2.labels = []) := by
        intro i x hx
        rw [Pda.call, Pda.mem_rules_addRuleImpl hp.wf] at hx
        rcases hx with ⟨_, hx⟩ | ⟨_, _, l, hl, hx⟩
        · exact ⟨hp.strict i x hx, hp.wild i x hx⟩
        · rw [hx]
          rcases hl with hl | ⟨rfl, _⟩
          · exact hmerge l (hp.strict i _ hl) (hp.wild i _ hl)
          · exact hmerge {} List.Pairwise.nil (fun _ => rfl)
      exact ⟨hwf, fun i x hx => (key i x hx).1, fun i x hx => (key i x hx).2⟩

theorem reducible_pre [LinearOrder W] {n : Nat} {cs : List (PdaCall W)} {init term : Nat}
    (h : Reducible n cs init term) : Pre (Pda.build n cs) init term := by
  refine ⟨reducer_ok_build n cs h.calls h.strict, h.initLt, h.termLt, fun e he ht hne => ?_⟩
  have : ∃ g, g ∈ (Pda.build n cs).expand e.2 := by
    rcases e with ⟨r, ⟨wc, ls⟩⟩
    unfold Pda.expand
    cases wc
    · cases ls with
      | nil => simp [Labels.isEmpty] at hne
      | cons a as => exact ⟨a, by simp⟩
    · exact ⟨0, by simp [Pda.nLabels_build, h.pos]⟩
  obtain ⟨g, hg⟩ := this
  exact h.push ⟨init, g, e.1.to, e.1.op, e.1.opLabel, e.1.weight⟩
    ((Pda.Has_iff _ _).2 ⟨e.2, he, hg⟩) rfl ht

/-! ## Reachability and runs -/

theorem reach_run {R : URule W → Prop} {c d : Config} (h : Reach R c d) :
    ∃ rs, Run c rs d ∧ ∀ r ∈ rs, R r := by
  induction h using Relation.ReflTransGen.head_induction_on with
  | refl => exact ⟨[], Run.nil _, by simp⟩
  | head hs _ ih =>
    obtain ⟨rs, h1, h2⟩ := ih
    obtain ⟨r, w, hr⟩ := hs
    exact ⟨r :: rs, Run.cons _ _ _ _ h1, fun r' h => by
      rcases List.mem_cons.1 h with rfl | h
      · exact hr
      · exact h2 r' h⟩

theorem run_reach {R : URule W → Prop} {c d : Config} {rs : List (URule W)} (h : Run c rs d)
    (hr : ∀ r ∈ rs, R r) : Reach R c d := by
  induction h with
  | nil => exact Relation.ReflTransGen.refl
  | cons r w rs c _ ih =>
    exact Relation.ReflTransGen.head (Step.mk r w (hr r (by simp))) (ih fun r h => hr r (by simp [h]))

theorem first_run {R : URule W → Prop} {c : Config} {rs : List (URule W)} {t : Nat} {w' : List Nat}
    (h : Run c rs (t, w')) (hr : ∀ r ∈ rs, R r) :
    ∃ rs' w'', Run c rs' (t, w'') ∧ ∀ r ∈ rs', R r ∧ r.src ≠ t := by
  generalize he : (t, w') = d at h
  induction h with
  | nil => subst he; exact ⟨[], w', Run.nil _, by simp⟩
  | cons r w rs c h ih =>
    subst he
    by_cases ht : r.src = t
    · exact ⟨[], r.pre :: w, by rw [ht]; exact Run.nil _, by simp⟩
    · obtain ⟨rs', w'', h1, h2⟩ := ih (fun r h => hr r (by simp [h])) rfl
      exact ⟨r :: rs', w'', Run.cons _ _ _ _ h1, fun r' h => by
        rcases List.mem_cons.1 h with rfl | h
        · exact ⟨hr _ (by simp), ht⟩
        · exact h2 r' h⟩

theorem reaches_iff (p : Pda W) (init term : Nat) (w : List Nat) :
    Reaches p init term w ↔ ∃ rs, FirstRun p init term w rs := by
  constructor
  · rintro ⟨w', h⟩
    obtain ⟨rs, h1, h2⟩ := reach_run h
    obtain ⟨rs', w'', h3, h4⟩ := first_run h1 h2
    exact ⟨rs', ⟨w'', h3⟩, h4⟩
  · rintro ⟨rs, ⟨w', h1⟩, h2⟩
    exact ⟨w', run_reach h1 fun r h => (h2 r h).1⟩

/-! ## C40 -/

section
variable [LinearOrder W]

theorem c40_stages {n : Nat} {cs : List (PdaCall W)} {init term : Nat} (h : Reducible n cs init term)
    {fuel : Nat} {aggr : Int} {p' : Pda W} {c1 c2 : Nat}
    (hr : reduce fuel (Pda.build n cs) aggr init term = some (p', c1, c2)) :
    (aggr = 0 ∧ p' = Pda.build n cs ∧ c1 = count p' init term ∧ c2 = count p' init term) ∨
    (aggr ≠ 0 ∧ c1 = count (Pda.build n cs) init term ∧ c2 = count p' init term ∧
      ∃ p2 p3 p4 a, Stages fuel (Pda.build n cs) aggr init term p2 p3 p4 p' a) := by
  by_cases hz : aggr = 0
  · left
    unfold reduce at hr
    rw [if_pos hz] at hr
    simp only [Option.some.injEq, Prod.mk.injEq] at hr
    obtain ⟨rfl, rfl, rfl⟩ := hr
    exact ⟨hz, rfl, rfl, rfl⟩
  · exact .inr ⟨hz, reduce_stages (reducible_pre h) hz hr⟩

/-- `reduce` always ends, and its result does not depend on how long the loops were allowed to run. -/
theorem c40_terminates {n : Nat} {cs : List (PdaCall W)} {init term : Nat} (h : Reducible n cs init term)
    (aggr : Int) :
    ∃ N r, ∀ fuel, N ≤ fuel → reduce fuel (Pda.build n cs) aggr init term = some r :=
  reduce_terminates (reducible_pre h) aggr

/-- `reduce` only removes rules: states and labels stay, and every rule that is left was there before.
Whatever is reachable afterwards was reachable before. -/
theorem c40_only_removes {n : Nat} {cs : List (PdaCall W)} {init term : Nat} (h : Reducible n cs init term)
    {fuel : Nat} {aggr : Int} {p' : Pda W} {c1 c2 : Nat}
    (hr : reduce fuel (Pda.build n cs) aggr init term = some (p', c1, c2)) :
    p'.size = (Pda.build n cs).size ∧ p'.nLabels = n ∧ p'.WF ∧
    (∀ r, p'.Has r → (Pda.build n cs).Has r) ∧
    ∀ c d, Reach p'.Has c d → Reach (Pda.build n cs).Has c d := by
  have key : OK p' ∧ Narrow (Pda.build n cs) p' := by
    rcases c40_stages h hr with ⟨_, rfl, _⟩ | ⟨_, _, _, _, _, _, _, hs⟩
    · exact ⟨(reducible_pre h).ok, Narrow.refl _⟩
    · exact stages_narrow hs
  have hhas : ∀ r, p'.Has r → (Pda.build n cs).Has r := fun r => key.2.has
  refine ⟨key.2.size, by rw [key.2.labels, Pda.nLabels_build], key.1.wf, hhas, fun c d hcd => ?_⟩
  obtain ⟨rs, h1, h2⟩ := reach_run hcd
  exact run_reach h1 fun r hr => hhas r (h2 r hr)

/-- The returned numbers are the sizes before and after, and the size does not grow. -/
theorem c40_counts {n : Nat} {cs : List (PdaCall W)} {init term : Nat} (h : Reducible n cs init term)
    {fuel : Nat} {aggr : Int} {p' : Pda W} {c1 c2 : Nat}
    (hr : reduce fuel (Pda.build n cs) aggr init term = some (p', c1, c2)) :
    c1 = count (Pda.build n cs) init term ∧ c2 = count p' init term ∧ c2 ≤ c1 := by
  rcases c40_stages h hr with ⟨_, rfl, rfl, rfl⟩ | ⟨_, rfl, rfl, _, _, _, _, hs⟩
  · exact ⟨rfl, rfl, Nat.le_refl _⟩
  · obtain ⟨h1, h2⟩ := stages_narrow hs
    exact ⟨rfl, rfl, count_le (reducible_pre h).ok h1 h2 init term⟩

/-- Aggressivity 0: nothing is changed. -/
theorem c40_zero (fuel : Nat) (p : Pda W) (init term : Nat) :
    reduce fuel p 0 init term = some (p, count p init term, count p init term) := by
  unfold reduce; rw [if_pos rfl]

/-- The runs to the terminal state are the same before and after, rule by rule, for every initial stack,
if the terminal state is state 0, the initial state, or has a rule to itself, and the stack part of the
approximation is not used (aggressivity not 2 and at most 3). -/
theorem c40_runs_partial {n : Nat} {cs : List (PdaCall W)} {init term : Nat} (h : Reducible n cs init term)
    (hterm : term = 0 ∨ term = init ∨ ∃ x ∈ ((Pda.build n cs).st term).rules, x.1.to = term)
    {fuel : Nat} {aggr : Int} (ha : aggr ≠ 2 ∧ aggr ≠ 4) {p' : Pda W} {c1 c2 : Nat}
    (hr : reduce fuel (Pda.build n cs) aggr init term = some (p', c1, c2))
    (w : List Nat) (rs : List (URule W)) :
    FirstRun p' init term w rs ↔ FirstRun (Pda.build n cs) init term w rs := by
  constructor
  · rintro ⟨h1, h2⟩
    exact ⟨h1, fun r hr' => ⟨(c40_only_removes h hr).2.2.2.1 r (h2 r hr').1, (h2 r hr').2⟩⟩
  · rintro ⟨⟨w', h1⟩, h2⟩
    rcases c40_stages h hr with ⟨_, rfl, _⟩ | ⟨_, _, _, _, _, _, _, hs⟩
    · exact ⟨⟨w', h1⟩, h2⟩
    · refine ⟨⟨w', h1⟩, stages_runs hs hterm h1 h2 fun hd => ?_⟩
      have : dual aggr = false := by unfold dual; simp [ha.1, ha.2]
      rw [this] at hd; cases hd

/-- Reachability of the terminal state is unchanged, under the conditions of `c40_runs_partial`. -/
theorem c40_reachability_partial {n : Nat} {cs : List (PdaCall W)} {init term : Nat}
    (h : Reducible n cs init term)
    (hterm : term = 0 ∨ term = init ∨ ∃ x ∈ ((Pda.build n cs).st term).rules, x.1.to = term)
    {fuel : Nat} {aggr : Int} (ha : aggr ≠ 2 ∧ aggr ≠ 4) {p' : Pda W} {c1 c2 : Nat}
    (hr : reduce fuel (Pda.build n cs) aggr init term = some (p', c1, c2)) (w : List Nat) :
    Reaches p' init term w ↔ Reaches (Pda.build n cs) init term w := by
  rw [reaches_iff, reaches_iff]
  exact exists_congr fun rs => c40_runs_partial h hterm ha hr w rs

/-- With aggressivity 2 or 4, runs that stay above the initial stack between the first and the last step
are kept. Other runs may be lost, see `c40_dual_loses`. -/
theorem c40_dual_partial {n : Nat} {cs : List (PdaCall W)} {init term : Nat} (h : Reducible n cs init term)
    (hterm : term = 0 ∨ term = init ∨ ∃ x ∈ ((Pda.build n cs).st term).rules, x.1.to = term)
    {fuel : Nat} {aggr : Int} {p' : Pda W} {c1 c2 : Nat}
    (hr : reduce fuel (Pda.build n cs) aggr init term = some (p', c1, c2))
    (w : List Nat) (rs : List (URule W)) (hab : StaysAbove init w rs) :
    FirstRun p' init term w rs ↔ FirstRun (Pda.build n cs) init term w rs := by
  constructor
  · rintro ⟨h1, h2⟩
    exact ⟨h1, fun r hr' => ⟨(c40_only_removes h hr).2.2.2.1 r (h2 r hr').1, (h2 r hr').2⟩⟩
  · rintro ⟨⟨w', h1⟩, h2⟩
    rcases c40_stages h hr with ⟨_, rfl, _⟩ | ⟨_, _, _, _, _, _, _, hs⟩
    · exact ⟨⟨w', h1⟩, h2⟩
    · refine ⟨⟨w', h1⟩, stages_runs hs hterm h1 h2 fun _ r rs' d he hrun rs1 r1 rs2 d' he' hne hrun' => ?_⟩
      refine hab (r :: rs1) r1 rs2 d' (by rw [he, he']; rfl) (by simp) hne ?_
      generalize hi : (init, w) = i at hrun ⊢
      generalize hl : [r] = l at hrun
      cases hrun with
      | nil => cases hl
      | cons r2 v rs2' _ hrun2 =>
        cases hl
        generalize hx : (r.dst, effect r.op r.pre r.opLabel v) = x at hrun2
        cases hrun2
        rw [← hx] at hrun'
        exact Run.cons _ _ _ _ hrun'

/-- If the terminal state is neither state 0 nor the initial state and has no rule to itself, then
`reduce` with any aggressivity but 0 removes every rule into the terminal state: it calls
`clear_state(terminal)` (internal/Reducer.h:150-160). The property is violated whenever the terminal state
was reachable. -/
theorem c40_terminal_lost {n : Nat} {cs : List (PdaCall W)} {init term : Nat} (h : Reducible n cs init term)
    (h0 : term ≠ 0) (hti : term ≠ init) (hloop : ∀ x ∈ ((Pda.build n cs).st term).rules, x.1.to ≠ term)
    {fuel : Nat} {aggr : Int} (ha : aggr ≠ 0) {p' : Pda W} {c1 c2 : Nat}
    (hr : reduce fuel (Pda.build n cs) aggr init term = some (p', c1, c2)) :
    (∀ r, p'.Has r → r.dst ≠ term) ∧ ∀ w, ¬ Reaches p' init term w := by
  rcases c40_stages h hr with ⟨hz, _⟩ | ⟨_, _, _, _, _, _, _, hs⟩
  · exact absurd hz ha
  have key := stages_clear hs h.termLt h0 hti hloop
  refine ⟨key, fun w hre => ?_⟩
  obtain ⟨w', hre⟩ := hre
  rcases Relation.ReflTransGen.cases_tail hre with he | ⟨c, _, hstep⟩
  · exact hti (congrArg Prod.fst he)
  · generalize hd : (term, w') = d at hstep
    obtain ⟨r, v, hr'⟩ := hstep
    exact key r hr' (congrArg Prod.fst hd).symm

end

/-! ## Examples -/

/-- A push, a pop below it, a swap and a pop to the terminal state 0; state 5 and the rule into it are
useless. -/
def reducerCalls : List (PdaCall Unit) :=
  [.rule 1 ⟨2, .push, (), 1⟩ false [0], .rule 2 ⟨3, .pop, (), 0⟩ false [1],
   .rule 3 ⟨4, .swap, (), 2⟩ false [0], .rule 4 ⟨0, .pop, (), 0⟩ false [2],
   .rule 2 ⟨5, .noop, (), 0⟩ true []]

theorem reducerCalls_ok : Reducible 3 reducerCalls 1 0 where
  calls := by
    intro c hc
    simp only [reducerCalls, List.mem_cons, List.not_mem_nil, or_false] at hc
    rcases hc with rfl | rfl | rfl | rfl | rfl <;> simp [PdaCall.OK, WSorted]
  strict := by
    intro src r wc pre hc
    simp only [reducerCalls, List.mem_cons, List.not_mem_nil, or_false, PdaCall.rule.injEq] at hc
    rcases hc with ⟨_, _, _, rfl⟩ | ⟨_, _, _, rfl⟩ | ⟨_, _, _, rfl⟩ | ⟨_, _, _, rfl⟩ | ⟨_, _, _, rfl⟩ <;>
      simp [SSorted]
  pos := by decide
  initLt := by decide +kernel
  termLt := by decide +kernel
  push := by
    have : ∀ r ∈ (Pda.build 3 reducerCalls).allRules, r.src = 1 → r.dst ≠ 0 → r.op = .push := by
      decide +kernel
    exact this

/-- Removed and kept rules: with aggressivity 1 the useless rule goes and the four others stay. -/
example : ((reduce 100 (Pda.build 3 reducerCalls) 1 1 0).map fun x => (x.1.allRules.map fun r => (r.src, r.dst), x.2)) =
    some ([(1, 2), (2, 3), (3, 4), (4, 0)], 9, 6) := by decide +kernel

/-- The terminal state is reached from the stack `[0]`. -/
theorem reducer_example_run : Reaches (Pda.build 3 reducerCalls) 1 0 [0] := by
  refine ⟨[], run_reach (rs := [⟨1, 0, 2, .push, 1, ()⟩, ⟨2, 1, 3, .pop, 0, ()⟩, ⟨3, 0, 4, .swap, 2, ()⟩,
    ⟨4, 2, 0, .pop, 0, ()⟩]) ?_ ?_⟩
  · exact Run.cons ⟨1, 0, 2, .push, 1, ()⟩ [] _ _ (Run.cons ⟨2, 1, 3, .pop, 0, ()⟩ [0] _ _
      (Run.cons ⟨3, 0, 4, .swap, 2, ()⟩ [] _ _ (Run.cons ⟨4, 2, 0, .pop, 0, ()⟩ [] _ _ (Run.nil _))))
  · unfold Pda.Has; decide +kernel

/-- Aggressivity 2 (and 4): the abstraction of the stack starts empty, although there is an initial stack
below the pushed label. A pop that uncovers the initial stack is taken to be impossible and the run is
lost. -/
theorem c40_dual_loses : ∃ (cs : List (PdaCall Unit)) (p' : Pda Unit) (c1 c2 : Nat),
    Reducible 3 cs 1 0 ∧ reduce 100 (Pda.build 3 cs) 2 1 0 = some (p', c1, c2) ∧
    Reaches (Pda.build 3 cs) 1 0 [0] ∧ ¬ Reaches p' 1 0 [0] := by
  obtain ⟨⟨p', c1, c2⟩, h⟩ : ∃ x, reduce 100 (Pda.build 3 reducerCalls) 2 1 0 = some x :=
    Option.isSome_iff_exists.1 (by decide +kernel)
  refine ⟨reducerCalls, p', c1, c2, reducerCalls_ok, h, reducer_example_run, ?_⟩
  have hp : p' = ((reduce 100 (Pda.build 3 reducerCalls) 2 1 0).get (by decide +kernel)).1 := by
    simp only [h, Option.get_some]
  have hno : ∀ r ∈ p'.allRules, r.src ≠ 1 := by
    rw [hp]; decide +kernel
  rintro ⟨w', hre⟩
  rcases Relation.ReflTransGen.cases_head hre with he | ⟨c, hstep, _⟩
  · exact absurd (congrArg Prod.fst he) (by simp)
  · generalize hd : ((1, [0]) : Config) = d at hstep
    obtain ⟨r, v, hr'⟩ := hstep
    exact hno r hr' (congrArg Prod.fst hd).symm

/-- A terminal state other than 0. -/
def reducerCalls2 : List (PdaCall Unit) :=
  [.rule 0 ⟨1, .push, (), 1⟩ false [0], .rule 1 ⟨2, .pop, (), 0⟩ false [1]]

theorem reducerCalls2_ok : Reducible 2 reducerCalls2 0 2 where
  calls := by
    intro c hc
    simp only [reducerCalls2, List.mem_cons, List.not_mem_nil, or_false] at hc
    rcases hc with rfl | rfl <;> simp [PdaCall.OK, WSorted]
  strict := by
    intro src r wc pre hc
    simp only [reducerCalls2, List.mem_cons, List.not_mem_nil, or_false, PdaCall.rule.injEq] at hc
    rcases hc with ⟨_, _, _, rfl⟩ | ⟨_, _, _, rfl⟩ <;> simp [SSorted]
  pos := by decide
  initLt := by decide +kernel
  termLt := by decide +kernel
  push := by
    have : ∀ r ∈ (Pda.build 2 reducerCalls2).allRules, r.src = 0 → r.dst ≠ 2 → r.op = .push := by
      decide +kernel
    exact this

/-- The smallest instance of `c40_terminal_lost`: the terminal state 2 is reached before and not after. -/
theorem c40_terminal_lost_witness : ∃ (cs : List (PdaCall Unit)) (p' : Pda Unit) (c1 c2 : Nat),
    Reducible 2 cs 0 2 ∧ reduce 100 (Pda.build 2 cs) 1 0 2 = some (p', c1, c2) ∧
    Reaches (Pda.build 2 cs) 0 2 [0] ∧ ¬ Reaches p' 0 2 [0] := by
  obtain ⟨⟨p', c1, c2⟩, h⟩ : ∃ x, reduce 100 (Pda.build 2 reducerCalls2) 1 0 2 = some x :=
    Option.isSome_iff_exists.1 (by decide +kernel)
  refine ⟨reducerCalls2, p', c1, c2, reducerCalls2_ok, h, ⟨[0], run_reach
    (rs := [⟨0, 0, 1, .push, 1, ()⟩, ⟨1, 1, 2, .pop, 0, ()⟩]) ?_ ?_⟩, ?_⟩
  · exact Run.cons ⟨0, 0, 1, .push, 1, ()⟩ [] _ _ (Run.cons ⟨1, 1, 2, .pop, 0, ()⟩ [0] _ _ (Run.nil _))
  · unfold Pda.Has; decide +kernel
  · exact (c40_terminal_lost reducerCalls2_ok (by decide) (by decide) (by decide +kernel) (by decide) h).2 _

/-- The hypotheses of the reachability theorem are met, and its conclusion is not trivial. -/
example : ∃ p' c1 c2, reduce 100 (Pda.build 3 reducerCalls) 3 1 0 = some (p', c1, c2) ∧
    Reaches p' 1 0 [0] := by
  obtain ⟨⟨p', c1, c2⟩, h⟩ : ∃ x, reduce 100 (Pda.build 3 reducerCalls) 3 1 0 = some x :=
    Option.isSome_iff_exists.1 (by decide +kernel)
  exact ⟨p', c1, c2, h, (c40_reachability_partial reducerCalls_ok (.inl rfl) (by decide) h [0]).2
    reducer_example_run⟩

/-- A run that stays above the initial stack: push and, in the last step, reach the terminal state. -/
example : StaysAbove 1 [0] [(⟨1, 0, 2, .push, 1, ()⟩ : URule Unit), ⟨2, 1, 0, .pop, 0, ()⟩] := by
  intro rs1 r rs2 d he h1 h2 _
  match rs1, rs2 with
  | [], _ => exact absurd rfl h1
  | [_], [] => exact absurd rfl h2
  | [_], _ :: _ => simp at he
  | _ :: _ :: _, _ => simp at he

end Verif.Props
