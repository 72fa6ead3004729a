import Verif.Props.WeightedProgram

/-!
# The report with weights: cases for the theorems on expressions
-/

namespace Verif.Props

open Verif

/-- State 0 may push `b` on `a` with weight `x`, and may pop `b`, going to state 1 with weight `y` or staying with weight `z`. -/
def sumCalls (x y z : ℤ) : List (PdaCall ℤ) :=
  [.rule 0 { «to» := 0, op := .push, opLabel := 1, weight := x } false [0],
    .rule 0 { «to» := 1, op := .pop, opLabel := 0, weight := y } false [1],
    .rule 0 { «to» := 0, op := .pop, opLabel := 0, weight := z } false [1]]

def sumPda (x y z : ℤ) : TPda String ℤ := { labels := ["a", "b"], states := (Pda.build 2 (sumCalls x y z)).states }

/-- The PDA with the label `c`. -/
def sumPda' (x y z : ℤ) : TPda String ℤ := { labels := ["a", "b", "c"], states := (Pda.build 2 (sumCalls x y z)).states }

theorem sumCalls_ok (n : Nat) (hn : 2 ≤ n) (x y z : ℤ) : ∀ c ∈ sumCalls x y z, c.OK n := by
  simp [sumCalls, PdaCall.OK, WSorted]
  omega

theorem sumPda_wf (x y z : ℤ) : (sumPda x y z).core.WF := Pda.WF_build 2 _ (sumCalls_ok 2 (by decide) x y z)

theorem sumPda_lookup (x y z : ℤ) : (sumPda x y z).core.LookupOK :=
  lookupOK_build 2 _ (sumCalls_ok 2 (by decide) x y z) (by simp [sumCalls]; grind)

theorem sum_parse (x y z : ℤ) : parseInstance HashOrder.id exprAddr exprFind (sumPda x y z) [reportIni] [reportFin] =
    some (sumPda' x y z, Aut.ofNfa 2 2 (reportNfa false 0) [0], Aut.ofNfa 2 3 (reportNfa true 2) [1]) := by
  unfold parseInstance
  rw [parse_one (t := sumPda x y z) (t' := sumPda x y z) (q := 0) (m := reportNfa false 0) rfl rfl rfl (reportNfa_compile _ _),
    Option.bind_some, parse_one (t := sumPda x y z) (t' := sumPda' x y z) (q := 1) (m := reportNfa true 2) rfl rfl rfl (reportNfa_compile _ _)]
  rfl

theorem sum_ini : DescribedBy exprFind ["a", "b"] [reportIni] 0 ["a"] :=
  .inl ⟨⟨⟨_, List.mem_singleton.2 rfl, rfl⟩, ⟨_, rfl, by decide⟩⟩, by decide⟩

theorem sum_fin : DescribedBy exprFind ["a", "b", "a"] [reportFin] 1 ["a"] :=
  .inl ⟨⟨⟨_, List.mem_singleton.2 rfl, rfl⟩, ⟨_, rfl, by decide⟩⟩, by decide⟩

theorem sum_ini_state {q : Nat} {ls : List String} (h : DescribedBy exprFind ["a", "b"] [reportIni] q ls) : q = 0 := by
  rcases h with ⟨⟨⟨s, h1, h2⟩, _⟩, _⟩ | h
  · rw [List.mem_singleton.1 h1] at h2
    cases h2
    rfl
  · exact h.elim

theorem sum_fin_state {q : Nat} {ls : List String} (h : DescribedBy exprFind ["a", "b", "a"] [reportFin] q ls) : q = 1 ∧ ls ≠ [] := by
  rcases h with ⟨⟨⟨s, h1, h2⟩, ⟨l, h3, _⟩⟩, _⟩ | h
  · rw [List.mem_singleton.1 h1] at h2
    cases h2
    exact ⟨rfl, by rw [h3]; simp⟩
  · exact h.elim

/-- Push `b` and pop it. -/
theorem sum_mem (x y z : ℤ) (h1 : (⟨0, "a", 0, .push, "b", x⟩ : TRule String ℤ) ∈ (sumPda' x y z).allRules)
    (h2 : (⟨0, "b", 1, .pop, default, y⟩ : TRule String ℤ) ∈ (sumPda' x y z).allRules) :
    exVal (x + y) ∈ NRuns (· ∈ (sumPda' x y z).allRules) exVal (DescribedBy exprFind ["a", "b"] [reportIni])
      (DescribedBy exprFind ["a", "b", "a"] [reportFin]) := by
  refine ⟨[(0, ["a"]), (0, ["b", "a"]), (1, ["a"])], ?_, ⟨_, rfl, sum_ini⟩, ⟨_, rfl, sum_fin⟩⟩
  have := NCostTrace.cons (R := (· ∈ (sumPda' x y z).allRules)) (val := exVal) ⟨0, "a", 0, .push, "b", x⟩ [] _ _ h1
    (.cons (R := (· ∈ (sumPda' x y z).allRules)) (val := exVal) ⟨0, "b", 1, .pop, default, y⟩ ["a"] _ _ h2 (.one _))
  have e : exVal (x + y) = exVal x + (exVal y + 0) := by rw [add_zero]; rfl
  rw [e]
  exact this

/-- The automata that are read. -/
def sumA : Aut ℤ := Aut.ofNfa 2 2 (reportNfa false 0) [0]
def sumB : Aut ℤ := Aut.ofNfa 2 3 (reportNfa true 2) [1]

/-- The program with the trace type shortest. -/
def sumRun (x y z : ℤ) (engine : Nat) : WOutcome String (WithTop ℤ) :=
  runExpr HashOrder.id exprAddr exprFind (sumPda x y z) [reportIni] [reportFin]
    (verifyShortest id (Heap.first ShElem.key) (Heap.first Prod.fst) HashOrder.id (fun _ => false) (fun _ => 7) engine 100)

theorem sum_fits (engine : Nat) (he : 1 ≤ engine ∧ engine ≤ 3) :
    ShortFits id (Heap.first ShElem.key) (Heap.first Prod.fst) HashOrder.id (fun _ => false) (fun _ => 7) engine (sumPda' 3 2 1).core sumA sumB := by
  have key : ∀ e, e = 1 ∨ e = 2 ∨ e = 3 → ((shortSearch id (Heap.first ShElem.key) (Heap.first Prod.fst) HashOrder.id (fun _ => false)
      (fun _ => (7 : ℤ)) e 100 (sumPda' 3 2 1).core sumA sumB).toOption.bind id).any (fun r => decide (r.1.prod.base.aut.n ≤ 100)) = true := by
    rintro e (rfl | rfl | rfl) <;> decide +kernel
  have := key engine (by omega)
  rcases hs : shortSearch id (Heap.first ShElem.key) (Heap.first Prod.fst) HashOrder.id (fun _ => false)
      (fun _ => (7 : ℤ)) engine 100 (sumPda' 3 2 1).core sumA sumB with s | _ | ⟨i, ans⟩
  · rw [hs] at this; cases this
  · rw [hs] at this; cases this
  · rw [hs] at this
    have h2 : i.prod.base.aut.n ≤ 100 := of_decide_eq_true this
    exact shortFits_of (by decide +kernel) (by decide +kernel) hs (Nat.le_trans h2 (by decide))

/-- Non-vacuity: all hypotheses of `c76_shortest_partial` hold, and all engines report the weight 5. -/
example (engine : Nat) (he : 1 ≤ engine ∧ engine ≤ 3) : ∃ r, sumRun 3 2 1 engine = .report r ∧ r.result = true ∧
    IsLeast (NRuns (· ∈ (sumPda' 3 2 1).allRules) id (DescribedBy exprFind ["a", "b"] [reportIni])
      (DescribedBy exprFind ["a", "b", "a"] [reportFin])) (5 : ℤ) := by
  have h := (c76_shortest_partial id rfl (Heap.first ShElem.key) (Heap.first Prod.fst) HashOrder.id HashOrder.id (fun _ => false) (fun _ => (7 : ℤ))
    exprAddr_inj (sumPda 3 2 1) exprFind_lt (by decide) (sumPda_wf ..) [reportIni] [reportFin] (by decide) (sum_parse ..)
    (by decide) (by decide +kernel) engine he (by
      unfold ShortOK
      split
      · rintro q ⟨h1, h2⟩
        exact (sum_fin_state h2).2 rfl
      · refine ⟨sumPda_lookup 3 2 1, fun q h => (sum_fin_state h).2 rfl, fun q ls h => ?_, fun _ => (show (0 : ℤ) ≤ 7 by decide)⟩
        have h1 := sum_ini_state h.1
        have h2 := (sum_fin_state h.2).1
        omega) (sum_fits engine he)).2 100
  have hv : ∀ e, e = 1 ∨ e = 2 ∨ e = 3 → (match verifyShortest id (Heap.first ShElem.key) (Heap.first Prod.fst) HashOrder.id (fun _ => false)
      (fun _ => (7 : ℤ)) e 100 (sumPda' 3 2 1) sumA sumB with
      | .report r => decide (r.result = true ∧ r.weight = some (.value ((5 : ℤ) : WithTop ℤ))) | _ => false) = true := by
    rintro e (rfl | rfl | rfl) <;> decide +kernel
  have hv := hv engine (by omega)
  have hr : sumRun 3 2 1 engine = verifyShortest id (Heap.first ShElem.key) (Heap.first Prod.fst) HashOrder.id (fun _ => false)
      (fun _ => (7 : ℤ)) engine 100 (sumPda' 3 2 1) sumA sumB := by
    unfold sumRun runExpr
    rw [sum_parse]
    rfl
  rw [← hr] at hv
  rcases h with h | ⟨r, h1, h2⟩
  · have h : sumRun 3 2 1 engine = .running := h
    rw [h] at hv
    cases hv
  · have h1 : sumRun 3 2 1 engine = .report r := h1
    rw [h1] at hv
    have hv := of_decide_eq_true hv
    obtain ⟨x, k1, k2, _⟩ := h2.yes hv.1
    rw [hv.2] at k2
    injection k2 with k2
    injection k2 with k2
    have k2 := WithTop.coe_injective k2
    exact ⟨r, h1, hv.1, k2 ▸ k1⟩

/-- Non-vacuity: with a negative weight, post* and dual* end with an error. -/
example (engine : Nat) (he : engine = 1 ∨ engine = 3) (fuel : Nat) : runExpr HashOrder.id exprAddr exprFind (sumPda 3 2 (-1)) [reportIni] [reportFin]
    (verifyShortest id (Heap.first ShElem.key) (Heap.first Prod.fst) HashOrder.id (fun _ => false) (fun _ => (7 : ℤ)) engine fuel) = .error :=
  c76_negative id rfl (Heap.first ShElem.key) (Heap.first Prod.fst) HashOrder.id HashOrder.id (fun _ => false) (fun _ => (7 : ℤ))
    exprAddr_inj (sumPda 3 2 (-1)) exprFind_lt (by decide) (sumPda_wf ..) [reportIni] [reportFin] (by decide) (sum_parse ..)
    (by decide) (by decide +kernel) (fun q ls h => by
      have h1 := sum_ini_state h.1
      have h2 := (sum_fin_state h.2).1
      omega) engine fuel (he.imp id fun he => ⟨he, fun q h => (sum_fin_state h).2 rfl⟩)

/-- Non-vacuity: a state that does not exist. -/
example (engine fuel : Nat) : runExpr HashOrder.id exprAddr exprFind (sumPda 3 2 1) [reportIni] [⟨[⟨false, "2"⟩], none⟩]
    (verifyFixed exVal HashOrder.id false "negative infinity" engine fuel) = .error :=
  c76_errors HashOrder.id exprAddr_inj (sumPda 3 2 1) exprFind_lt (by decide) [reportIni] [⟨[⟨false, "2"⟩], none⟩] (by simp) (by simp) _
    (.inr ⟨_, List.mem_singleton.2 rfl, _, List.mem_singleton.2 rfl, .inr ⟨rfl, rfl⟩⟩)

theorem sum_fixFits (engine : Nat) (he : 1 ≤ engine ∧ engine ≤ 3) : FixFits exVal HashOrder.id engine (sumPda' 3 2 1).core sumA sumB := by
  have key : ∀ e, e = 1 ∨ e = 2 ∨ e = 3 →
      (fixSearch exVal HashOrder.id e 100 (sumPda' 3 2 1).core sumA sumB).any (fun r => decide (r.1.1.initial.n ≤ 100)) = true := by
    rintro e (rfl | rfl | rfl) <;> decide +kernel
  have := key engine (by omega)
  rcases hs : fixSearch exVal HashOrder.id engine 100 (sumPda' 3 2 1).core sumA sumB with _ | ⟨⟨i, ans⟩, byPre⟩
  · rw [hs] at this; cases this
  · rw [hs] at this
    have h2 : i.initial.n ≤ 100 := of_decide_eq_true this
    exact fixFits_of (by decide +kernel) hs (Nat.le_trans h2 (by decide))

/-- Non-vacuity: all hypotheses of `c76_fixed_partial` hold, and the report says that there is a run. -/
example (engine : Nat) (he : 1 ≤ engine ∧ engine ≤ 3) :
    ∃ fuel0 r, (∀ fuel, fuel0 ≤ fuel → runExpr HashOrder.id exprAddr exprFind (sumPda 3 2 1) [reportIni] [reportFin]
        (verifyFixed exVal HashOrder.id false "negative infinity" engine fuel) = .report r) ∧ r.result = true := by
  obtain ⟨fuel0, r, h1, h2⟩ := c76_fixed_partial exVal rfl HashOrder.id HashOrder.id exprAddr_inj (sumPda 3 2 1) exprFind_lt (by decide)
    (sumPda_wf ..) [reportIni] [reportFin] (by decide) (sum_parse ..) (by decide) engine he
    (fixOK_nonneg (by decide +kernel) _ _ _ _ engine (.inr (lookup_labels rfl (sumPda_lookup 3 2 1)))) (sum_fixFits engine he) false "negative infinity"
  exact ⟨fuel0, r, h1, h2.result.2 ⟨_, sum_mem 3 2 1 (by decide +kernel) (by decide +kernel)⟩⟩

theorem sum_longFits (engine : Nat) (he : 1 ≤ engine ∧ engine ≤ 3) :
    FixFits (T := ExWeightᵒᵈ) exVal HashOrder.id engine (sumPda' (-3) (-2) (-1)).core sumA sumB := by
  have key : ∀ e, e = 1 ∨ e = 2 ∨ e = 3 →
      (fixSearch (T := ExWeightᵒᵈ) exVal HashOrder.id e 100 (sumPda' (-3) (-2) (-1)).core sumA sumB).any (fun r => decide (r.1.1.initial.n ≤ 100)) = true := by
    rintro e (rfl | rfl | rfl) <;> decide +kernel
  have := key engine (by omega)
  rcases hs : fixSearch (T := ExWeightᵒᵈ) exVal HashOrder.id engine 100 (sumPda' (-3) (-2) (-1)).core sumA sumB with _ | ⟨⟨i, ans⟩, byPre⟩
  · rw [hs] at this; cases this
  · rw [hs] at this
    have h2 : i.initial.n ≤ 100 := of_decide_eq_true this
    exact fixFits_of (T := ExWeightᵒᵈ) (by decide +kernel) hs (Nat.le_trans h2 (by decide))

/-- Non-vacuity: all hypotheses of `c76_longest_partial` hold, and the report gives a greatest weight of at least -5. -/
example (engine : Nat) (he : 1 ≤ engine ∧ engine ≤ 3) :
    ∃ fuel0 r, (∀ fuel, fuel0 ≤ fuel → runExpr HashOrder.id exprAddr exprFind (sumPda (-3) (-2) (-1)) [reportIni] [reportFin]
        (verifyFixed (T := ExWeightᵒᵈ) exVal HashOrder.id false "infinity" engine fuel) = .report r) ∧ r.result = true ∧
      ∃ x : ExWeight, exVal (-5) ≤ x ∧ r.weight = some (if x = ⊤ then .text "infinity" else .value x) := by
  obtain ⟨fuel0, r, h1, h2⟩ := c76_longest_partial (T := ExWeight) exVal rfl HashOrder.id HashOrder.id exprAddr_inj (sumPda (-3) (-2) (-1))
    exprFind_lt (by decide) (sumPda_wf ..) [reportIni] [reportFin] (by decide) (sum_parse ..) (by decide) engine he
    (fixOK_nonpos (by decide +kernel) _ _ _ _ engine (.inr (lookup_labels rfl (sumPda_lookup (-3) (-2) (-1))))) (sum_longFits engine he)
  have hm := sum_mem (-3) (-2) (-1) (by decide +kernel) (by decide +kernel)
  have hr := h2.result.2 ⟨_, hm⟩
  obtain ⟨x, k1, k2, _⟩ := h2.yes hr
  exact ⟨fuel0, r, h1, hr, x, k1.2 hm, k2⟩

/-- The PDA of `eatDoc` with a second state. -/
def eatPda : TPda String ℤ := { labels := ["a", "b"], states := (Pda.build 2 (eatCalls ++ [.state 1])).states }

/-- `<0, [a]+ [b]>` -/
def eatStart : PAtom String String :=
  ⟨[⟨false, "0"⟩], some (.one (.more (.mk (.set false "a" []) (some .plus)) (.one (.mk (.set false "b" []) none))))⟩
/-- `<0, [b]>` -/
def eatStop : PAtom String String := ⟨[⟨false, "0"⟩], some (.one (.one (.mk (.set false "b" []) none)))⟩

def eatNfa : Nfa :=
  { states := [(1, { edges := [{ syms := [0], dst := 2 }] }), (2, { edges := [{ eps := true, dst := 1 }, { eps := true, dst := 3 }] }),
      (3, { edges := [{ syms := [1], dst := 4 }] }), (4, { acc := true })], initial := [1], accepting := [4] }

theorem eatNfa_compile : eatNfa.compile = eatNfa := by
  unfold Nfa.compile
  rw [List.mergeSort_of_pairwise (by simp [eatNfa]), List.mergeSort_of_pairwise (by simp [eatNfa]),
    List.mergeSort_of_pairwise (by simp [eatNfa])]
  rfl

theorem eatPda_parse : parseInstance HashOrder.id exprAddr exprFind eatPda [eatStart] [eatStop] =
    some (eatPda, Aut.ofNfa 2 2 eatNfa [0], Aut.ofNfa 2 2 (reportNfa false 1) [0]) := by
  unfold parseInstance
  rw [parse_one (t := eatPda) (t' := eatPda) (q := 0) (m := eatNfa) rfl rfl rfl eatNfa_compile,
    Option.bind_some, parse_one (t := eatPda) (t' := eatPda) (q := 0) (m := reportNfa false 1) rfl rfl rfl (reportNfa_compile _ _)]
  rfl

theorem eatStart_all (k : Nat) : DescribedBy exprFind ["a", "b"] [eatStart] 0 (List.replicate (k + 1) "a" ++ ["b"]) := by
  refine .inl ⟨⟨⟨_, List.mem_singleton.2 rfl, rfl⟩, ?_⟩, ?_⟩
  · refine ⟨List.replicate (k + 1) "a", ["b"], rfl, ?_, ⟨_, rfl, by decide⟩⟩
    refine ⟨["a"], List.replicate k "a", rfl, ⟨_, rfl, by decide⟩, ?_⟩
    induction k with
    | zero => exact .nil
    | succ k ih => exact .app ["a"] (List.replicate k "a") ⟨_, rfl, by decide⟩ ih
  · intro l hl
    rcases List.mem_append.1 hl with hl | hl
    · rw [List.eq_of_mem_replicate hl]
      decide
    · rw [List.mem_singleton.1 hl]
      decide

theorem eatPda_run (k : Nat) : exVal (-((k + 1 : Nat) : ℤ)) ∈ NRuns (· ∈ eatPda.allRules) exVal (DescribedBy exprFind ["a", "b"] [eatStart])
    (DescribedBy exprFind ["a", "b", "a", "b"] [eatStop]) := by
  obtain ⟨cs, h1, h2, h3⟩ := eat_run (k + 1)
  have e : eatDoc.allRules = eatPda.allRules := by decide +kernel
  rw [e] at h1
  exact ⟨cs, h1, ⟨_, h2, eatStart_all k⟩, _, h3, .inl ⟨⟨⟨_, List.mem_singleton.2 rfl, rfl⟩, ⟨_, rfl, by decide⟩⟩, by decide⟩⟩

/-- Non-vacuity: all hypotheses of `c76_unbounded_partial` hold for pre*; the report gives "negative infinity". -/
example : ∃ fuel0, ∀ fuel, fuel0 ≤ fuel → runExpr HashOrder.id exprAddr exprFind eatPda [eatStart] [eatStop]
    (verifyFixed exVal HashOrder.id false "negative infinity" 2 fuel) =
      .report { engine := "pre*", result := true, weight := some (.text "negative infinity"), trace := [] } := by
  have hOK : ∀ c ∈ eatCalls ++ [PdaCall.state 1], c.OK 2 := by simp [eatCalls, PdaCall.OK, WSorted]
  have key : (fixSearch exVal HashOrder.id 2 100 eatPda.core (Aut.ofNfa 2 2 eatNfa [0]) (Aut.ofNfa 2 2 (reportNfa false 1) [0])).any
      (fun r => r.2 && r.1.1.final.edges.all (fun e => decide (e.2.2.2 ≠ ⊥))) = true := by decide +kernel
  rcases hs : fixSearch exVal HashOrder.id 2 100 eatPda.core (Aut.ofNfa 2 2 eatNfa [0]) (Aut.ofNfa 2 2 (reportNfa false 1) [0]) with
    _ | ⟨⟨i, ans⟩, byPre⟩
  · rw [hs] at key; cases key
  · rw [hs, Option.any_some, Bool.and_eq_true] at key
    obtain ⟨k1, k2⟩ := key
    cases byPre with
    | false => cases k1
    | true =>
      refine c76_unbounded_partial exVal rfl exWeight_bottomed HashOrder.id HashOrder.id exprAddr_inj eatPda exprFind_lt (by decide)
        (Pda.WF_build 2 _ hOK) [eatStart] [eatStop] (by decide) eatPda_parse (by decide) 2 (by decide)
        (.inr (lookupOK_build 2 _ hOK (by simp [eatCalls]; rintro _ r _ _ rfl _ h; cases h)))
        (exWeight_belowTop _) hs (autNoBottom_of_all _ k2) ⟨_, eatPda_run 0⟩ ?_ _
      rintro x ⟨⟨cs, h1, _⟩, h2⟩
      obtain ⟨z, rfl⟩ := ncost_int h1
      have := h2 (eatPda_run z.natAbs)
      unfold exVal at this
      rw [WithTop.coe_le_coe, WithBot.coe_le_coe] at this
      omega

/-! ## Negative weights on JSON documents -/

theorem eatIni_head {q : Nat} {ls : List String} (h : DocSet false eatDoc eatIni q ls) : ls.head? = some "a" := by
  have hE := edge_iff [(.num 0, "a", .num 5), (.num 5, "a", .num 5), (.num 5, "b", .num 6)] eatIni rfl
  obtain ⟨r, h1, r', h2, l, h3, h4⟩ := h
  simp only [eatIni, List.mem_cons, reduceCtorEq, JField.accepting.injEq, List.not_mem_nil, or_false, or_self, false_or] at h3
  subst h3
  rw [List.mem_singleton] at h4
  subst h4
  cases h2 with
  | nil =>
    obtain ⟨_, rfl, h⟩ := h1
    rw [eat_one] at h
    omega
  | cons h2 _ _ =>
    rw [hE] at h2
    simp only [List.mem_cons, List.not_mem_nil, or_false] at h2
    rcases h2 with h2 | h2 | h2 <;> cases h2
    · rfl
    · rfl
    · have h5 := h1.2.2
      have h6 := h1.2.1
      rw [eat_one] at h5
      omega

theorem eatFin_head {q : Nat} {ls : List String} (h : DocSet false eatDoc eatFin q ls) : ls.head? = some "b" := by
  have hE := edge_iff [(.num 0, "b", .num 7)] eatFin rfl
  obtain ⟨r, h1, r', h2, l, h3, h4⟩ := h
  simp only [eatFin, List.mem_cons, reduceCtorEq, JField.accepting.injEq, List.not_mem_nil, or_false, or_self, false_or] at h3
  subst h3
  rw [List.mem_singleton] at h4
  subst h4
  cases h2 with
  | nil =>
    obtain ⟨_, rfl, h⟩ := h1
    rw [eat_one] at h
    omega
  | cons h2 _ _ =>
    rw [hE] at h2
    simp only [List.mem_cons, List.not_mem_nil, or_false] at h2
    cases h2
    rfl

/-- Non-vacuity: all hypotheses of `c76_negative_docs` hold. -/
example (engine : Nat) (he : engine = 1 ∨ engine = 3) (fuel : Nat) : runDocs false eatDoc (autEvents eatIni) (autEvents eatFin)
    (verifyShortest id (Heap.first ShElem.key) (Heap.first Prod.fst) HashOrder.id (fun _ => false) (fun _ => (7 : ℤ)) engine fuel) = .error :=
  c76_negative_docs id rfl (Heap.first ShElem.key) (Heap.first Prod.fst) HashOrder.id (fun _ => false) (fun _ => (7 : ℤ)) (names := false)
    (p := eatDoc) (fs := eatIni) (gs := eatFin)
    (fun h => by cases h) (by decide) (Pda.WF_build 2 eatCalls (by simp [eatCalls, PdaCall.OK, WSorted])) (fun h => by cases h)
    (by unfold Doc.Small; decide +kernel) (fun h => by cases h) (by unfold Doc.Small; decide +kernel) eatIni_legal eatFin_legal eat_parse (by decide)
    (by decide +kernel) (fun q ls h => by
      have h1 := eatIni_head h.1
      rw [eatFin_head h.2] at h1
      simp at h1) engine fuel (he.imp id fun he => ⟨he, fun q h => by simpa using eatFin_head h⟩)

/-! ## The other engines -/

section
variable {L W T : Type} [Inhabited L] [LinearOrder W] [Zero W] [LinearOrder T] [AddCommMonoid T]

omit [LinearOrder W] [Zero W] [LinearOrder T] [AddCommMonoid T] in
theorem shortReport_something (t : TPda L W) (e : Nat) (r : Except String (Option (SInstance T × Bool))) (tr : SInstance T → Option (List Config) × WithTop T) :
    shortReport t e r tr ≠ .nothing := by
  unfold shortReport
  split
  · simp
  · simp
  · split <;> simp
  · simp

omit [LinearOrder W] [Zero W] [AddCommMonoid T] in
theorem fixReport_something [OrderBot T] (t : TPda L W) (e : Nat) (unsig : Bool) (word : String) (r : Option (Instance (Trace × T) × Bool))
    (tr : Instance (Trace × T) → Option (List Config × T)) : fixReport t e unsig word r tr ≠ .nothing ∧ fixReport t e unsig word r tr ≠ .error := by
  unfold fixReport
  split
  · simp
  · split <;> simp
  · simp

/-- C76, trace type shortest: the program prints nothing exactly for engine 0, and an engine that does not exist is an error. -/
theorem c76_shortest_engines (val : W → T) (hp : Heap (ShElem T) (WithTop T) ShElem.key) (hq : Heap (T × Nat) T Prod.fst) (h : HashOrder)
    (junk : Nat → Bool) (best : Nat → T) (engine fuel : Nat) (t : TPda L W) (a b : Aut W) :
    (verifyShortest val hp hq h junk best engine fuel t a b = .nothing ↔ engine = 0) ∧
    (3 < engine → verifyShortest val hp hq h junk best engine fuel t a b = .error) := by
  unfold verifyShortest
  dsimp only
  split
  · simp
  · simp [shortReport_something]
  · simp [shortReport_something]
  · simp [shortReport_something]
  · rename_i h0 _ _ _
    simp only [imp_true_iff, and_true, reduceCtorEq, false_iff]
    exact h0

/-- C76, trace types longest and shortest by fixed point: the same, and nothing else is an error. -/
theorem c76_fixed_engines [OrderBot T] [OrderTop T] (val : W → T) (h : HashOrder) (unsig : Bool) (word : String) (engine fuel : Nat) (t : TPda L W)
    (a b : Aut W) :
    (verifyFixed val h unsig word engine fuel t a b = .nothing ↔ engine = 0) ∧
    (verifyFixed val h unsig word engine fuel t a b = .error ↔ 3 < engine) := by
  unfold verifyFixed
  dsimp only
  split
  · simp
  · simp [fixReport_something]
  · simp [fixReport_something]
  · split
    · simp
    · simp [fixReport_something]
  · rename_i h0 h1 h2 h3
    have k0 : engine ≠ 0 := h0
    have k1 : engine ≠ 1 := h1
    have k2 : engine ≠ 2 := h2
    have k3 : engine ≠ 3 := h3
    simp only [reduceCtorEq, false_iff, true_iff]
    omega

end

end Verif.Props
