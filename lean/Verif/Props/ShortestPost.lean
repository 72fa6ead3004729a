import Verif.Proofs.ShortestPostFinal
import Verif.Props.FixedSat

/-!
# C32: shortest post* computes the least weights

The weights are a linearly ordered commutative monoid with cancellation, in which addition is exact; `val` reads a
rule weight in it. `hp` is the priority queue, `h` the order in which hash maps are visited; both are arbitrary.
-/

namespace Verif.Props

variable {W T : Type} [LinearOrder W] [LinearOrder T] [AddCommMonoid T] [IsOrderedCancelAddMonoid T]

/-- The transitions of an automaton with their weights. -/
def autWeights (a : Aut T) : Tr → T → Prop := fun t x => ∃ tr, a.getEdge t = some (tr, x)

/-- The input of the shortest post*: in range, no transition twice, no transition into a control state, and every
weight zero, as in the automata made from an NFA or from one configuration. -/
structure ShAut (p : Pda W) (a : Aut T) : Prop where
  size_le : p.size ≤ a.n
  valid : ∀ t ∈ keys a.edges, t.src < a.n ∧ t.label < p.nLabels ∧ t.dst < a.n
  nodup : (keys a.edges).Nodup
  zero : ∀ e ∈ a.edges, e.2.2 = 0
  noInto : ∀ t ∈ keys a.edges, p.size ≤ t.dst

omit [LinearOrder T] [AddCommMonoid T] [IsOrderedCancelAddMonoid T] in
theorem autWeights_iff (a : Aut T) : autWeights a = fun t x => a.wt t = some x := by
  funext t x
  unfold autWeights Aut.wt
  apply propext
  constructor
  · rintro ⟨tr, h⟩; rw [h]; rfl
  · intro h
    rw [Option.map_eq_some_iff] at h
    obtain ⟨⟨tr, y⟩, h1, rfl⟩ := h
    exact ⟨tr, h1⟩

omit [LinearOrder T] [AddCommMonoid T] [IsOrderedCancelAddMonoid T] in
theorem autWeights_list (a : Aut T) : ∀ t x, autWeights a t x → (t, x) ∈ a.edges.map fun e => (e.1, e.2.2) := by
  rintro t x ⟨tr, h⟩
  unfold Aut.getEdge at h
  rw [Option.map_eq_some_iff] at h
  obtain ⟨e, h1, h2⟩ := h
  have h3 := List.find?_some h1
  simp only [beq_iff_eq] at h3
  exact List.mem_map.2 ⟨e, List.mem_of_find?_eq_some h1, by rw [h3, h2]⟩

omit [IsOrderedCancelAddMonoid T] [LinearOrder W] in
theorem mem_rules_iff (p : Pda W) (y : Rule W × Labels) : (∃ q, y ∈ (p.st q).rules) ↔ ∃ st ∈ p.states, y ∈ st.rules := by
  constructor
  · rintro ⟨q, hq⟩
    unfold Pda.st at hq
    rcases hs : p.states[q]? with _ | st
    · rw [hs] at hq; cases hq
    · rw [hs] at hq; exact ⟨st, List.mem_of_getElem? hs, hq⟩
  · rintro ⟨st, hs, hy⟩
    obtain ⟨q, hq⟩ := List.mem_iff_getElem?.1 hs
    refine ⟨q, ?_⟩
    unfold Pda.st
    rw [hq]
    exact hy

omit [IsOrderedCancelAddMonoid T] in
/-- C32: the constructor throws exactly if some rule or some transition of the input has a negative weight. -/
theorem c32_throws (val : W → T) (hp : Heap (ShElem T) (WithTop T) ShElem.key) (h : HashOrder) (p : Pda W) (a : Aut T)
    (fuel : Nat) : (∃ e, postStarShortest val hp h p a fuel = .error e) ↔
      (∃ st ∈ p.states, ∃ y ∈ st.rules, val y.1.weight < 0) ∨ ∃ e ∈ a.edges, e.2.2 < 0 := by
  have key : (∃ e, postStarShortest val hp h p a fuel = .error e) ↔ shNegative val p a = true := by
    unfold postStarShortest
    cases shNegative val p a <;> simp
  rw [key]
  unfold shNegative
  simp only [Bool.or_eq_true, List.any_eq_true, decide_eq_true_eq]

omit [LinearOrder T] [AddCommMonoid T] [IsOrderedCancelAddMonoid T] in
/-- The rules stored in a PDA are those of the calls that built it. -/
theorem stored_rules_build (n : Nat) (cs : List (PdaCall W)) (hcs : ∀ c ∈ cs, c.OK n) (ru : Rule W) :
    (∃ q l, (ru, l) ∈ ((Pda.build n cs).st q).rules) ↔ ∃ src wc pre, PdaCall.rule src ru wc pre ∈ cs := by
  suffices h : ∀ (cs : List (PdaCall W)) (p : Pda W), p.WF → (∀ c ∈ cs, c.OK p.nLabels) →
      ((∃ q l, (ru, l) ∈ ((cs.foldl Pda.call p).st q).rules) ↔ (∃ q l, (ru, l) ∈ (p.st q).rules) ∨
        ∃ src wc pre, PdaCall.rule src ru wc pre ∈ cs) by
    have := h cs { nLabels := n } (Pda.WF_empty n) hcs
    rw [Pda.build, this]
    constructor
    · rintro (⟨q, l, h⟩ | h)
      · cases h
      · exact h
    · exact .inr
  intro cs
  induction cs with
  | nil => intro p _ _; simp
  | cons c cs ih =>
    intro p hp hok
    have hc := hok c (by simp)
    rw [List.foldl_cons, ih _ (Pda.WF_call hp hc)
      (fun c' hc' => by rw [Pda.nLabels_call]; exact hok c' (by simp [hc']))]
    cases c with
    | state s =>
      simp only [Pda.call, Pda.st_addState, List.mem_cons, reduceCtorEq, false_or]
    | rule src r wc pre =>
      simp only [Pda.call, Pda.mem_rules_addRuleImpl hp, List.mem_cons, PdaCall.rule.injEq]
      constructor
      · rintro (⟨q, l, ⟨_, h⟩ | ⟨rfl, rfl, _⟩⟩ | ⟨src', wc', pre', h⟩)
        · exact .inl ⟨q, l, h⟩
        · exact .inr ⟨_, wc, pre, .inl ⟨rfl, rfl, rfl, rfl⟩⟩
        · exact .inr ⟨_, _, _, .inr h⟩
      · have new : ∃ l, ∃ l', ((r, l') ∈ (p.st src).rules ∨ (l' = {} ∧ ∀ l', (r, l') ∉ (p.st src).rules)) ∧ l = l'.merge wc pre := by
          by_cases hx : ∃ l', (r, l') ∈ (p.st src).rules
          · obtain ⟨l', hl'⟩ := hx
            exact ⟨_, l', .inl hl', rfl⟩
          · exact ⟨_, {}, .inr ⟨rfl, fun l' hl' => hx ⟨l', hl'⟩⟩, rfl⟩
        rintro (⟨q, l, h⟩ | ⟨src', wc', pre', ⟨rfl, rfl, rfl, rfl⟩ | h⟩)
        · by_cases hq : q = src ∧ ru = r
          · obtain ⟨rfl, rfl⟩ := hq
            obtain ⟨l2, hl2⟩ := new
            exact .inl ⟨q, l2, .inr ⟨rfl, rfl, hl2⟩⟩
          · refine .inl ⟨q, l, .inl ⟨?_, h⟩⟩
            by_cases h1 : q = src
            · exact .inr fun h2 => hq ⟨h1, h2⟩
            · exact .inl h1
        · obtain ⟨l2, hl2⟩ := new
          exact .inl ⟨_, l2, .inr ⟨rfl, rfl, hl2⟩⟩
        · exact .inr ⟨_, _, _, h⟩

omit [IsOrderedCancelAddMonoid T] in
/-- C32: for a PDA built by calls, the constructor throws exactly if one of the calls added a rule of negative weight
or some transition of the input has a negative weight. -/
theorem c32_throws_build (val : W → T) (hp : Heap (ShElem T) (WithTop T) ShElem.key) (h : HashOrder) (n : Nat)
    (cs : List (PdaCall W)) (hcs : ∀ c ∈ cs, c.OK n) (a : Aut T) (fuel : Nat) :
    (∃ e, postStarShortest val hp h (Pda.build n cs) a fuel = .error e) ↔
      (∃ src r wc pre, PdaCall.rule src r wc pre ∈ cs ∧ val r.weight < 0) ∨ ∃ e ∈ a.edges, e.2.2 < 0 := by
  rw [c32_throws]
  have key : (∃ st ∈ (Pda.build n cs).states, ∃ y ∈ st.rules, val y.1.weight < 0) ↔
      ∃ src r wc pre, PdaCall.rule src r wc pre ∈ cs ∧ val r.weight < 0 := by
    constructor
    · rintro ⟨st, hs, y, hy, hlt⟩
      obtain ⟨q, hq⟩ := (mem_rules_iff _ y).2 ⟨st, hs, hy⟩
      obtain ⟨src, wc, pre, hm⟩ := (stored_rules_build n cs hcs y.1).1 ⟨q, y.2, hq⟩
      exact ⟨src, y.1, wc, pre, hm, hlt⟩
    · rintro ⟨src, r, wc, pre, hm, hlt⟩
      obtain ⟨q, l, hq⟩ := (stored_rules_build n cs hcs r).2 ⟨src, wc, pre, hm⟩
      obtain ⟨st, hs, hy⟩ := (mem_rules_iff _ (r, l)).1 ⟨q, hq⟩
      exact ⟨st, hs, (r, l), hy, hlt⟩
  rw [key]

/-- Non-vacuity of `c32_throws`: a rule of negative weight, and none. -/
example : (∃ e, postStarShortest id (Heap.first ShElem.key) HashOrder.id
      (Pda.build 1 [.rule 0 ⟨1, .noop, -1, 0⟩ false [0]] : Pda ℤ) { acc := [], edges := [] } 9 = .error e) ∧
    ¬ ∃ e, postStarShortest id (Heap.first ShElem.key) HashOrder.id
      (Pda.build 1 [.rule 0 ⟨1, .noop, 1, 0⟩ false [0]] : Pda ℤ) { acc := [], edges := [] } 9 = .error e := by
  rw [c32_throws_build _ _ _ _ _ (by simp [PdaCall.OK, WSorted]), c32_throws_build _ _ _ _ _ (by simp [PdaCall.OK, WSorted])]
  simp

theorem shCtx {val : W → T} {p : Pda W} (hw : p.WF) (hl : p.nLabels ≤ epsilon) {a : Aut T} (ha : ShAut p a)
    (hn : shNegative val p a = false) : ShCtx p val a (shQ p a) (shN p a) := by
  refine ⟨hw, hl, ha.size_le, ha.valid, ha.nodup, ha.zero, ha.noInto, ?_, qInit_ok p ({ acc := a.acc } : Aut W), ?_⟩
  · have := (qInit_inv p ({ acc := a.acc } : Aut W)).1.acc
    show a.acc.length ≤ (qInit p ({ acc := a.acc } : Aut W)).1.acc.length
    rw [this]
    simp
  · intro q y hy
    obtain ⟨st, hs, hy⟩ := (mem_rules_iff p y).1 ⟨q, hy⟩
    by_contra hlt
    have : shNegative val p a = true := by
      unfold shNegative
      simp only [Bool.or_eq_true, List.any_eq_true, decide_eq_true_eq]
      exact .inl ⟨st, hs, y, hy, not_le.1 hlt⟩
    rw [this] at hn
    cases hn

/-- C32: if no rule has a negative weight, the shortest post* ends with an automaton, however the priority queue orders
elements with equal keys. -/
theorem c32_terminates (val : W → T) (hp : Heap (ShElem T) (WithTop T) ShElem.key) (h : HashOrder) {p : Pda W} (hw : p.WF)
    (hl : p.nLabels ≤ epsilon) {a : Aut T} (ha : ShAut p a)
    (hnn : ∀ st ∈ p.states, ∀ y ∈ st.rules, 0 ≤ val y.1.weight) :
    ∃ fuel s, postStarShortest val hp h p a fuel = .ok (some s) := by
  have hn : shNegative val p a = false := by
    by_contra hn
    rw [Bool.not_eq_false] at hn
    unfold shNegative at hn
    simp only [Bool.or_eq_true, List.any_eq_true, decide_eq_true_eq] at hn
    rcases hn with ⟨st, hs, y, hy, hlt⟩ | ⟨e, he, hlt⟩
    · exact absurd (hnn st hs y hy) (not_le.2 hlt)
    · rw [ha.zero e he] at hlt
      exact lt_irrefl _ hlt
  have hc := shCtx hw hl ha hn
  obtain ⟨fuel, s, hs⟩ := shLoop_terminates hc hp (shInit_inv h hc)
  refine ⟨fuel, s, ?_⟩
  unfold postStarShortest
  rw [hn]
  simp [hs]

theorem shResult {val : W → T} {hp : Heap (ShElem T) (WithTop T) ShElem.key} {h : HashOrder} {p : Pda W} (hw : p.WF)
    (hl : p.nLabels ≤ epsilon) {a : Aut T} (ha : ShAut p a) {fuel : Nat} {s : ShSt T}
    (hs : postStarShortest val hp h p a fuel = .ok (some s)) :
    ShCtx p val a (shQ p a) (shN p a) ∧ ShL p val a (shQ p a) (shN p a) s ∧ s.ws = [] := by
  unfold postStarShortest at hs
  rcases hn : shNegative val p a with _ | _
  · rw [hn] at hs
    simp only [Bool.false_eq_true, if_false, Except.ok.injEq] at hs
    have hc := shCtx hw hl ha hn
    exact ⟨hc, shLoop_inv hc hp (shInit_inv h hc) hs⟩
  · rw [hn] at hs
    cases hs

/-- C32, one half: the weight of every accepting path is the weight of a run from the input language, and no null
pointer has been read. -/
theorem c32_sound (val : W → T) (hp : Heap (ShElem T) (WithTop T) ShElem.key) (h : HashOrder) {p : Pda W} (hw : p.WF)
    (hl : p.nLabels ≤ epsilon) {a : Aut T} (ha : ShAut p a) (fuel : Nat) (s : ShSt T)
    (hs : postStarShortest val hp h p a fuel = .ok (some s)) (q : Nat) (w : List Nat) (hq : q < p.size) :
    s.undef = false ∧ ∀ x ∈ EPathWeights (autWeights s.aut) (fun q => s.aut.isAcc q = true) (q, w),
      x ∈ RunWeightsFrom p.Has val p.size (· ∈ keys a.edges) (fun q => a.isAcc q = true) (q, w) := by
  obtain ⟨hc, ⟨⟨κ, hi⟩, _⟩, _⟩ := shResult hw hl ha hs
  refine ⟨hi.undef, ?_⟩
  rintro x ⟨f, hpath, hF⟩
  rw [autWeights_iff] at hpath
  rw [hi.acc] at hF
  have := fpost_sound (F := fun q => a.isAcc q = true) ha.size_le hc.lift.pushOK (fun t ht => by
      have hv := ha.valid t ht
      exact ⟨hv.1, hv.2.2, ha.noInto t ht, by have := hv.2.1; omega⟩)
    (fun f hf => by
      show f < a.acc.length
      by_contra hn
      unfold Aut.isAcc at hf
      rw [List.getElem?_eq_none (by omega)] at hf
      cases hf)
    (fun t x hx => by
      obtain ⟨k, hk⟩ := hi.autw t x hx
      exact hi.der t x k hk) hpath hF
  unfold FPostSem at this
  rwa [if_pos hq] at this

/-- C32, the other half: for every run from the input language there is an accepting path that weighs no more. -/
theorem c32_complete (val : W → T) (hp : Heap (ShElem T) (WithTop T) ShElem.key) (h : HashOrder) {p : Pda W} (hw : p.WF)
    (hl : p.nLabels ≤ epsilon) {a : Aut T} (ha : ShAut p a) (fuel : Nat) (s : ShSt T)
    (hs : postStarShortest val hp h p a fuel = .ok (some s)) (c : Config) :
    ∀ x ∈ RunWeightsFrom p.Has val p.size (· ∈ keys a.edges) (fun q => a.isAcc q = true) c,
      ∃ y ∈ EPathWeights (autWeights s.aut) (fun q => s.aut.isAcc q = true) c, y ≤ x := by
  obtain ⟨hc, hL, hws⟩ := shResult hw hl ha hs
  have hcl := hL.closed hc hws
  obtain ⟨⟨κ, hi⟩, _⟩ := hL
  rintro x ⟨c', _, ⟨f, hpath, hF⟩, hrun⟩
  rw [autWeights_iff]
  rw [← hi.acc] at hF
  have key : ∀ {q w f}, Path (· ∈ keys a.edges) q w f → CostEPath (fun t x => s.aut.wt t = some x) q w 0 f := by
    intro q w f hp
    induction hp with
    | nil q => exact .nil q
    | cons he _ ih =>
      have := (ha.valid _ he).2.1
      dsimp only at this
      have h2 := CostEPath.cons (E := fun t x => s.aut.wt t = some x) (by omega) (hi.input _ he) ih
      rwa [add_zero] at h2
  obtain ⟨z, hz, hzle⟩ := hcl.run (F := fun q => s.aut.isAcc q = true) hrun (b := 0) ⟨0, ⟨f, key hpath, hF⟩, le_refl _⟩
  exact ⟨z, hz, by rwa [zero_add] at hzle⟩

/-- C32: after `post_star<Shortest>`, for every configuration the least weight of an accepting path, in which epsilon
transitions read nothing, is the least total weight over all runs from the input language; there is one whenever
there is a run. -/
theorem c32_minimum (val : W → T) (hp : Heap (ShElem T) (WithTop T) ShElem.key) (h : HashOrder) {p : Pda W} (hw : p.WF)
    (hl : p.nLabels ≤ epsilon) {a : Aut T} (ha : ShAut p a) (fuel : Nat) (s : ShSt T)
    (hs : postStarShortest val hp h p a fuel = .ok (some s)) (q : Nat) (w : List Nat) (hq : q < p.size) :
    (∀ m, IsLeast (EPathWeights (autWeights s.aut) (fun q => s.aut.isAcc q = true) (q, w)) m ↔
      IsLeast (RunWeightsFrom p.Has val p.size (· ∈ keys a.edges) (fun q => a.isAcc q = true) (q, w)) m) ∧
    ((∃ x, x ∈ RunWeightsFrom p.Has val p.size (· ∈ keys a.edges) (fun q => a.isAcc q = true) (q, w)) →
      ∃ m, IsLeast (EPathWeights (autWeights s.aut) (fun q => s.aut.isAcc q = true) (q, w)) m) := by
  obtain ⟨hc, hL, hws⟩ := shResult hw hl ha hs
  have hcl := hL.closed hc hws
  refine ⟨isLeast_iff_of_below (c32_sound val hp h hw hl ha fuel s hs q w hq).2
      (c32_complete val hp h hw hl ha fuel s hs (q, w)), ?_⟩
  rintro ⟨x, hx⟩
  obtain ⟨y, hy, _⟩ := c32_complete val hp h hw hl ha fuel s hs (q, w) x hx
  obtain ⟨l, hl⟩ := costEPath_list _ (autWeights_list s.aut) (fun f m q x y hx hy => by
    rw [autWeights_iff] at hx hy
    have h3 := hcl.into _ _ hx
    have h4 := hcl.eps _ _ hy rfl
    dsimp only at h3 h4
    omega) w q
  exact exists_isLeast_of_list _ l (fun x ⟨f, hf, _⟩ => hl x f hf) ⟨y, hy⟩

/-- C32 for a nonempty stack, with paths that spell the stack label by label, as `accept_path` reads them. -/
theorem c32_minimum_literal (val : W → T) (hp : Heap (ShElem T) (WithTop T) ShElem.key) (h : HashOrder) {p : Pda W}
    (hw : p.WF) (hl : p.nLabels ≤ epsilon) {a : Aut T} (ha : ShAut p a) (fuel : Nat) (s : ShSt T)
    (hs : postStarShortest val hp h p a fuel = .ok (some s)) (q g : Nat) (w : List Nat) (hq : q < p.size)
    (hg : ∀ g' ∈ g :: w, g' < p.nLabels) :
    ∀ m, IsLeast (PathWeights (autWeights s.aut) (fun q => s.aut.isAcc q = true) (q, g :: w)) m ↔
      IsLeast (RunWeightsFrom p.Has val p.size (· ∈ keys a.edges) (fun q => a.isAcc q = true) (q, g :: w)) m := by
  obtain ⟨hc, hL, hws⟩ := shResult hw hl ha hs
  have hcl := hL.closed hc hws
  refine isLeast_iff_of_below ?_ ?_
  · rintro x ⟨f, hf, hF⟩
    refine (c32_sound val hp h hw hl ha fuel s hs q (g :: w) hq).2 x ⟨f, ?_, hF⟩
    have lift : ∀ {q w x f}, CostPath (autWeights s.aut) q w x f → (∀ g ∈ w, g < p.nLabels) → CostEPath (autWeights s.aut) q w x f := by
      intro q w x f hp
      induction hp with
      | nil q => intro _; exact .nil q
      | cons he _ ih =>
        intro hw
        have := hw _ (List.mem_cons_self ..)
        exact .cons (by omega) he (ih fun g hg => hw g (List.mem_cons_of_mem _ hg))
    exact lift hf hg
  · intro x hx
    obtain ⟨y, ⟨f, hf, hF⟩, hle⟩ := c32_complete val hp h hw hl ha fuel s hs (q, g :: w) x hx
    rw [autWeights_iff] at hf
    obtain ⟨q', x1, y1, _, he, hp', hle'⟩ := hcl.first hf
    refine ⟨x1 + y1, ⟨f, ?_, hF⟩, le_trans hle' hle⟩
    show CostPath (autWeights s.aut) q (g :: w) (x1 + y1) f
    rw [autWeights_iff]
    exact .cons he (hcl.path hp' (hcl.into _ _ he))

def shCalls : List (PdaCall ℤ) :=
  [.rule 0 ⟨1, .push, 3, 1⟩ false [0], .rule 1 ⟨0, .swap, 1, 0⟩ false [1], .rule 0 ⟨1, .pop, 2, 0⟩ false [0],
    .rule 1 ⟨0, .noop, 0, 0⟩ true []]

def shInput : Aut ℤ :=
  { acc := [false, false, false, true], edges := [(⟨0, 0, 2⟩, {}, 0), (⟨2, 1, 3⟩, {}, 0)] }

/-- Non-vacuity of C32: a PDA with all four operations, on which the shortest post* ends; the configuration ⟨0, 1⟩ is
reached by the rules of weight 2 and 0. -/
example : (Pda.build 2 shCalls).WF ∧ (Pda.build 2 shCalls).nLabels ≤ epsilon ∧ ShAut (Pda.build 2 shCalls) shInput ∧
    ((postStarShortest id (Heap.first ShElem.key) HashOrder.id (Pda.build 2 shCalls) shInput 100).toOption.bind id).map
      (fun s => (s.aut.wt ⟨1, epsilon, 2⟩, s.aut.wt ⟨0, 1, 3⟩)) = some (some 2, some 2) := by
  have hOK : ∀ c ∈ shCalls, c.OK 2 := by simp [shCalls, PdaCall.OK, WSorted]
  have hq : (Pda.build 2 shCalls).size = 2 := by decide +kernel
  have hl : (Pda.build 2 shCalls).nLabels = 2 := by decide +kernel
  refine ⟨Pda.WF_build 2 _ hOK, by decide +kernel, ⟨by rw [hq]; simp [shInput, Aut.n], ?_, by simp [shInput, keys],
    by simp [shInput], ?_⟩, by decide +kernel⟩
  · intro t ht
    simp only [shInput, keys, List.map_cons, List.map_nil, List.mem_cons, List.not_mem_nil, or_false] at ht
    rcases ht with rfl | rfl <;> simp [shInput, Aut.n, hl]
  · intro t ht
    simp only [shInput, keys, List.map_cons, List.map_nil, List.mem_cons, List.not_mem_nil, or_false] at ht
    rcases ht with rfl | rfl <;> simp [hq]

/-- C32, a disagreement found: the weights of the input transitions are ignored by the saturation (it starts with
weight zero for each of them) but stay in the automaton. With a transition of weight 5 the configuration ⟨0, 0⟩ has an
accepting path of weight 5, while ⟨1, 0⟩, which is reached from it by a rule of weight 1, has one of weight 1. So the
input weights must be zero. -/
theorem c32_input_weights_ignored :
    let p : Pda ℤ := Pda.build 1 [.rule 0 ⟨1, .noop, 1, 0⟩ false [0]]
    let a : Aut ℤ := { acc := [false, false, true], edges := [(⟨0, 0, 2⟩, {}, 5)] }
    ∃ s, postStarShortest id (Heap.first ShElem.key) HashOrder.id p a 100 = .ok (some s) ∧
      s.aut.wt ⟨0, 0, 2⟩ = some 5 ∧ s.aut.wt ⟨1, 0, 2⟩ = some 1 := by
  intro p a
  have hn : shNegative id p a = false := by decide +kernel
  have h : (shLoop id (Heap.first ShElem.key) p 100 (shInit HashOrder.id p a)).map
      (fun s => (s.aut.wt ⟨0, 0, 2⟩, s.aut.wt ⟨1, 0, 2⟩)) = some (some 5, some 1) := by decide +kernel
  rw [Option.map_eq_some_iff] at h
  obtain ⟨s, h1, h2⟩ := h
  simp only [Prod.mk.injEq] at h2
  refine ⟨s, ?_, h2⟩
  unfold postStarShortest
  rw [hn]
  simp [h1]

end Verif.Props
