import Verif.Model.Pda
import Verif.Proofs.VectorSet
import Mathlib.Order.Basic

/-! # Lemmas about `labels_t` and the PDA -/

set_option linter.unusedSectionVars false

namespace Verif

variable {W : Type}

/-! ## Ordering of rules -/

theorem Op.num_inj {a b : Op} (h : a.num = b.num) : a = b := by
  cases a <;> cases b <;> simp_all [Op.num]

theorem Rule.lt_iff [LinearOrder W] (a b : Rule W) :
    Rule.lt a b = true ↔
      a.to < b.to ∨ (a.to = b.to ∧ (a.opLabel < b.opLabel ∨ (a.opLabel = b.opLabel ∧
        (a.op.num < b.op.num ∨ (a.op.num = b.op.num ∧ a.weight < b.weight))))) := by
  unfold Rule.lt
  split
  · simp [*]
  split
  · simp only [Bool.false_eq_true, false_iff]; omega
  split
  · simp only [true_iff]; omega
  split
  · simp only [Bool.false_eq_true, false_iff]; omega
  split
  · simp only [true_iff]; omega
  split
  · simp only [Bool.false_eq_true, false_iff]; omega
  · have h1 : a.to = b.to := by omega
    have h2 : a.opLabel = b.opLabel := by omega
    have h3 : a.op.num = b.op.num := by omega
    simp [h1, h2, h3]

theorem Rule.lt_total [LinearOrder W] : StrictTotal (Rule.lt : Rule W → Rule W → Bool) where
  irrefl a := by
    rw [← Bool.not_eq_true, Rule.lt_iff]; simp
  trans a b c h1 h2 := by
    rw [Rule.lt_iff] at *
    rcases h1 with h1 | ⟨h1, h1 | ⟨h1', h1 | ⟨h1'', h1⟩⟩⟩ <;>
      rcases h2 with h2 | ⟨h2, h2 | ⟨h2', h2 | ⟨h2'', h2⟩⟩⟩ <;> first
      | omega
      | exact .inr ⟨by omega, .inr ⟨by omega, .inr ⟨by omega, lt_trans h1 h2⟩⟩⟩
  tri a b := by
    rw [Rule.lt_iff, Rule.lt_iff]
    rcases Nat.lt_trichotomy a.to b.to with h | h | h
    · exact .inl (.inl h)
    · rcases Nat.lt_trichotomy a.opLabel b.opLabel with h' | h' | h'
      · exact .inl (.inr ⟨h, .inl h'⟩)
      · rcases Nat.lt_trichotomy a.op.num b.op.num with h'' | h'' | h''
        · exact .inl (.inr ⟨h, .inr ⟨h', .inl h''⟩⟩)
        · rcases lt_trichotomy a.weight b.weight with h3 | h3 | h3
          · exact .inl (.inr ⟨h, .inr ⟨h', .inr ⟨h'', h3⟩⟩⟩)
          · refine .inr (.inl ?_)
            have := Op.num_inj h''
            cases a; cases b; simp_all
          · exact .inr (.inr (.inr ⟨h.symm, .inr ⟨h'.symm, .inr ⟨h''.symm, h3⟩⟩⟩))
        · exact .inr (.inr (.inr ⟨h.symm, .inr ⟨h'.symm, .inl h''⟩⟩))
      · exact .inr (.inr (.inr ⟨h.symm, .inl h'⟩))
    · exact .inr (.inr (.inl h))

/-! ## Label sets -/

/-- Non-strictly increasing, the precondition of the set algorithms. -/
abbrev WSorted (l : List Nat) : Prop := l.Pairwise (· ≤ ·)

theorem SSorted.wsorted {l : List Nat} (h : SSorted l) : WSorted l :=
  List.Pairwise.imp (fun h => Nat.le_of_lt h) h

theorem VSet.contains_wsorted {l : List Nat} (hs : WSorted l) (k : Nat) :
    VSet.contains natLt l k = true ↔ k ∈ l := by
  induction l with
  | nil => simp [VSet.contains]
  | cons e m ih =>
    rw [WSorted, List.pairwise_cons] at hs
    rw [VSet.contains_cons, List.mem_cons]
    by_cases h : e < k
    · simp only [natLt, h, decide_true, if_true]
      rw [ih hs.2]
      constructor
      · exact .inr
      · rintro (rfl | h')
        · omega
        · exact h'
    · simp only [natLt, h, decide_false, Bool.false_eq_true, if_false, beq_iff_eq]
      constructor
      · rintro rfl; exact .inl rfl
      · rintro (h' | h')
        · exact h'.symm
        · have := hs.1 _ h'; omega

theorem setUnion_wsorted {as bs : List Nat} (ha : WSorted as) (hb : WSorted bs) :
    WSorted (setUnion as bs) := by
  fun_induction setUnion as bs with
  | case1 bs => exact hb
  | case2 => exact ha
  | case3 a as b bs h ih =>
    rw [WSorted, List.pairwise_cons] at ha
    have hb' := List.pairwise_cons.1 hb
    refine List.pairwise_cons.2 ⟨fun x hx => ?_, ih ha.2 hb⟩
    rcases (mem_setUnion _ _ _).1 hx with h1 | h1
    · exact ha.1 _ h1
    · rcases List.mem_cons.1 h1 with rfl | h2
      · omega
      · have := hb'.1 _ h2; omega
  | case4 a as b bs h h' ih =>
    rw [WSorted, List.pairwise_cons] at hb
    have ha' := List.pairwise_cons.1 ha
    refine List.pairwise_cons.2 ⟨fun x hx => ?_, ih ha hb.2⟩
    rcases (mem_setUnion _ _ _).1 hx with h1 | h1
    · rcases List.mem_cons.1 h1 with rfl | h2
      · omega
      · have := ha'.1 _ h2; omega
    · exact hb.1 _ h1
  | case5 a as b bs h h' ih =>
    have hab : a = b := by omega
    subst hab
    rw [WSorted, List.pairwise_cons] at ha hb
    refine List.pairwise_cons.2 ⟨fun x hx => ?_, ih ha.2 hb.2⟩
    rcases (mem_setUnion _ _ _).1 hx with h1 | h1
    · exact ha.1 _ h1
    · exact hb.1 _ h1

namespace Labels

/-- The labels are sorted (as `merge` asserts). -/
def WF (l : Labels) : Prop := WSorted l.labels

theorem contains_iff {l : Labels} (h : l.WF) (x : Nat) :
    l.contains x = true ↔ l.wildcard = true ∨ x ∈ l.labels := by
  unfold contains
  split
  · simp [*]
  · simp [VSet.contains_wsorted h, *]

theorem merge_WF {l : Labels} (h : l.WF) {o : List Nat} (ho : WSorted o) (wc : Bool) :
    (l.merge wc o).WF := by
  unfold merge
  split
  · exact h
  split
  · exact List.Pairwise.nil
  · exact setUnion_wsorted h ho

end Labels

/-! ## Access to states -/

namespace Pda

theorem st_addState (p : Pda W) (s i : Nat) : (p.addState s).st i = p.st i := by
  unfold addState
  split
  · unfold st
    simp only [List.getElem?_append, List.getElem?_replicate]
    split
    · rfl
    · rename_i h1 h2
      rw [List.getElem?_eq_none (by omega : p.states.length ≤ i)]
      split <;> rfl
  · rfl

theorem size_addState (p : Pda W) (s : Nat) : (p.addState s).size = max p.size (s + 1) := by
  unfold addState size
  split
  · simp; omega
  · omega

theorem nLabels_addState (p : Pda W) (s : Nat) : (p.addState s).nLabels = p.nLabels := by
  unfold addState; split <;> rfl

theorem getD_modify {α : Type} [Inhabited α] (l : List α) (i j : Nat) (f : α → α)
    (hi : i < l.length) :
    ((l.modify i f)[j]?).getD default = if j = i then f ((l[j]?).getD default)
      else (l[j]?).getD default := by
  rw [List.getElem?_modify]
  by_cases h : i = j
  · subst h
    simp [List.getElem?_eq_getElem hi]
  · have h' : ¬ j = i := fun h1 => h h1.symm
    simp [h, h']

section
variable [LinearOrder W]

theorem nLabels_addRuleImpl (p : Pda W) (src : Nat) (r : Rule W) (wc : Bool) (pre : List Nat) :
    (p.addRuleImpl src r wc pre).nLabels = p.nLabels := by
  simp [addRuleImpl, nLabels_addState]

theorem size_addRuleImpl (p : Pda W) (src : Nat) (r : Rule W) (wc : Bool) (pre : List Nat) :
    (p.addRuleImpl src r wc pre).size = max p.size (max src r.to + 1) := by
  have := size_addState p (max src r.to)
  simpa [addRuleImpl, size] using this

theorem rules_addRuleImpl (p : Pda W) (src : Nat) (r : Rule W) (wc : Bool) (pre : List Nat)
    (i : Nat) :
    ((p.addRuleImpl src r wc pre).st i).rules =
      if i = src then
        let e := (p.st i).rules.emplace Rule.lt r {}
        e.1.modify e.2.1 fun x => (x.1, x.2.merge wc pre)
      else (p.st i).rules := by
  have hsz := size_addState p (max src r.to)
  unfold size at hsz
  have hsrc : src < (p.addState (max src r.to)).states.length := by omega
  have hto : r.to < (p.addState (max src r.to)).states.length := by omega
  have hst := st_addState p (max src r.to) i
  unfold st at hst ⊢
  unfold addRuleImpl
  simp only
  rw [getD_modify _ _ _ _ (by simpa using hto), getD_modify _ _ _ _ hsrc, hst]
  by_cases h1 : i = src <;> by_cases h2 : i = r.to
  · simp only [if_pos h2, if_pos h1]
  · simp only [if_neg h2, if_pos h1]
  · simp only [if_pos h2, if_neg h1]
  · simp only [if_neg h2, if_neg h1]

theorem preStates_addRuleImpl (p : Pda W) (src : Nat) (r : Rule W) (wc : Bool) (pre : List Nat)
    (i : Nat) :
    ((p.addRuleImpl src r wc pre).st i).preStates =
      if i = r.to then (VSet.emplace natLt (p.st i).preStates src).1
      else (p.st i).preStates := by
  have hsz := size_addState p (max src r.to)
  unfold size at hsz
  have hsrc : src < (p.addState (max src r.to)).states.length := by omega
  have hto : r.to < (p.addState (max src r.to)).states.length := by omega
  have hst := st_addState p (max src r.to) i
  unfold st at hst ⊢
  unfold addRuleImpl
  simp only
  rw [getD_modify _ _ _ _ (by simpa using hto), getD_modify _ _ _ _ hsrc, hst]
  by_cases h1 : i = src <;> by_cases h2 : i = r.to
  · simp only [if_pos h2, if_pos h1]
  · simp only [if_neg h2, if_pos h1]
  · simp only [if_pos h2, if_neg h1]
  · simp only [if_neg h2, if_neg h1]

/-- Well-formedness of a PDA: what the saturation algorithms rely on. -/
structure WF (p : Pda W) : Prop where
  sorted : ∀ i, (p.st i).rules.Sorted Rule.lt
  toLt : ∀ i, ∀ x ∈ (p.st i).rules, x.1.to < p.size
  preMem : ∀ i, ∀ x ∈ (p.st i).rules, i ∈ (p.st x.1.to).preStates
  preLt : ∀ i, ∀ j ∈ (p.st i).preStates, j < p.size
  preSorted : ∀ i, VSet.Sorted natLt (p.st i).preStates
  labWF : ∀ i, ∀ x ∈ (p.st i).rules, x.2.WF
  labLt : ∀ i, ∀ x ∈ (p.st i).rules, ∀ g ∈ x.2.labels, g < p.nLabels
  opLt : ∀ i, ∀ x ∈ (p.st i).rules, x.1.op = .push ∨ x.1.op = .swap → x.1.opLabel < p.nLabels

end

theorem st_default {p : Pda W} {i : Nat} (h : p.size ≤ i) : p.st i = default := by
  unfold st; rw [List.getElem?_eq_none h]; rfl

/-- The preconditions of one construction call: label ids in range, pre-labels sorted. -/
def _root_.Verif.PdaCall.OK (n : Nat) : PdaCall W → Prop
  | .rule _ r wc pre => (wc = false → WSorted pre ∧ ∀ g ∈ pre, g < n) ∧
      (r.op = .push ∨ r.op = .swap → r.opLabel < n)
  | .state _ => True

section
variable [LinearOrder W]

theorem mem_rules_addRuleImpl {p : Pda W} (hp : p.WF) (src : Nat) (r : Rule W) (wc : Bool)
    (pre : List Nat) (i : Nat) (x : Rule W × Labels) :
    x ∈ ((p.addRuleImpl src r wc pre).st i).rules ↔
      ((i ≠ src ∨ x.1 ≠ r) ∧ x ∈ (p.st i).rules) ∨
      (i = src ∧ x.1 = r ∧ ∃ l, ((r, l) ∈ (p.st i).rules ∨ (l = {} ∧ ∀ l', (r, l') ∉ (p.st i).rules))
        ∧ x.2 = l.merge wc pre) := by
  rw [rules_addRuleImpl]
  by_cases h : i = src
  · subst h
    simp only [if_true, ne_eq, not_true_eq_false, false_or, true_and]
    have hs := hp.sorted i
    have hs' := VMap.emplace_sorted Rule.lt_total hs r ({} : Labels)
    obtain ⟨v, hv⟩ := VMap.emplace_idx Rule.lt_total hs r ({} : Labels)
    rw [VMap.mem_modify_key Rule.lt_total hs' hv (fun l => l.merge wc pre)]
    have hvm := (VMap.mem_emplace Rule.lt_total hs r ({} : Labels) (r, v)).1 (List.mem_of_getElem? hv)
    rw [VMap.mem_emplace Rule.lt_total hs]
    constructor
    · rintro (⟨h1, h2 | ⟨h2, _⟩⟩ | h1)
      · exact .inl ⟨h1, h2⟩
      · subst h2; exact absurd rfl h1
      · subst h1
        refine .inr ⟨rfl, v, ?_, rfl⟩
        rcases hvm with h3 | ⟨h3, h4⟩
        · exact .inl h3
        · exact .inr ⟨congrArg Prod.snd h3, h4⟩
    · rintro (⟨h1, h2⟩ | ⟨h1, l, h2, h3⟩)
      · exact .inl ⟨h1, .inl h2⟩
      · refine .inr ?_
        have : v = l := by
          rcases h2 with h2 | ⟨h2, h4⟩
          · rcases hvm with h5 | ⟨_, h5⟩
            · exact VMap.Sorted.unique Rule.lt_total hs h5 h2
            · exact absurd h2 (h5 l)
          · rcases hvm with h5 | ⟨h5, _⟩
            · exact absurd h5 (h4 v)
            · rw [h2]; exact congrArg Prod.snd h5
        subst this
        cases x; simp_all
  · simp [h]

theorem WF_empty (n : Nat) : WF ({ nLabels := n } : Pda W) := by
  have h : ∀ i, ({ nLabels := n } : Pda W).st i = default := fun i => st_default (Nat.zero_le i)
  constructor <;> intro i <;> simp [h, default, VMap.Sorted, VSet.Sorted]

theorem WF_addState {p : Pda W} (hp : p.WF) (s : Nat) : (p.addState s).WF := by
  have hsz := size_addState p s
  constructor <;> intro i <;> rw [st_addState]
  · exact hp.sorted i
  · intro x hx; have := hp.toLt i x hx; omega
  · intro x hx; rw [st_addState]; exact hp.preMem i x hx
  · intro j hj; have := hp.preLt i j hj; omega
  · exact hp.preSorted i
  · exact hp.labWF i
  · rw [nLabels_addState]; exact hp.labLt i
  · rw [nLabels_addState]; exact hp.opLt i

theorem WF_addRuleImpl {p : Pda W} (hp : p.WF) (src : Nat) (r : Rule W) (wc : Bool)
    (pre : List Nat) (hok : (PdaCall.rule src r wc pre).OK p.nLabels) :
    (p.addRuleImpl src r wc pre).WF := by
  have hsz := size_addRuleImpl p src r wc pre
  have hmem := mem_rules_addRuleImpl hp src r wc pre
  have hwf : ∀ l : Labels, l.WF → (l.merge wc pre).WF := by
    intro l hl
    cases wc with
    | false => exact Labels.merge_WF hl (hok.1 rfl).1 false
    | true =>
      unfold Labels.merge
      split
      · exact hl
      · exact List.Pairwise.nil
  have hlt : ∀ l : Labels, (∀ g ∈ l.labels, g < p.nLabels) →
      ∀ g ∈ (l.merge wc pre).labels, g < p.nLabels := by
    intro l hl g hg
    unfold Labels.merge at hg
    split at hg
    · exact hl g hg
    split at hg
    · simp at hg
    · rename_i h
      rcases (mem_setUnion _ _ _).1 hg with h1 | h1
      · exact hl g h1
      · exact (hok.1 (by simpa using h)).2 g h1
  constructor
  · intro i
    rw [rules_addRuleImpl]
    split
    · exact VMap.modify_sorted (VMap.emplace_sorted Rule.lt_total (hp.sorted i) _ _) _
        (fun l => l.merge wc pre)
    · exact hp.sorted i
  · intro i x hx
    rcases (hmem i x).1 hx with ⟨_, h⟩ | ⟨_, h, _⟩
    · have := hp.toLt i x h; omega
    · rw [h]; omega
  · intro i x hx
    rw [preStates_addRuleImpl]
    rcases (hmem i x).1 hx with ⟨_, h⟩ | ⟨h1, h, _⟩
    · have := hp.preMem i x h
      split
      · rename_i h2
        exact (VSet.mem_emplace natLt_total _ _).2 (.inl this)
      · exact this
    · subst h1
      rw [h, if_pos rfl]
      exact (VSet.mem_emplace natLt_total _ _).2 (.inr rfl)
  · intro i j hj
    rw [preStates_addRuleImpl] at hj
    split at hj
    · rcases (VSet.mem_emplace natLt_total _ _).1 hj with h | h
      · have := hp.preLt i j h; omega
      · omega
    · have := hp.preLt i j hj; omega
  · intro i
    rw [preStates_addRuleImpl]
    split
    · exact VSet.emplace_sorted natLt_total (hp.preSorted i) _
    · exact hp.preSorted i
  · intro i x hx
    rcases (hmem i x).1 hx with ⟨_, h⟩ | ⟨h1, h, l, h2, h3⟩
    · exact hp.labWF i x h
    · rw [h3]
      apply hwf
      rcases h2 with h2 | ⟨h2, _⟩
      · exact hp.labWF i _ h2
      · subst h2; exact List.Pairwise.nil
  · intro i x hx
    rw [nLabels_addRuleImpl]
    rcases (hmem i x).1 hx with ⟨_, h⟩ | ⟨h1, h, l, h2, h3⟩
    · exact hp.labLt i x h
    · rw [h3]
      apply hlt
      rcases h2 with h2 | ⟨h2, _⟩
      · exact hp.labLt i _ h2
      · subst h2; simp
  · intro i x hx
    rw [nLabels_addRuleImpl]
    rcases (hmem i x).1 hx with ⟨_, h⟩ | ⟨h1, h, l, h2, h3⟩
    · exact hp.opLt i x h
    · rw [h]; exact hok.2

theorem nLabels_call (p : Pda W) (c : PdaCall W) : (p.call c).nLabels = p.nLabels := by
  cases c <;> simp [call, nLabels_addRuleImpl, nLabels_addState]

theorem WF_call {p : Pda W} (hp : p.WF) {c : PdaCall W} (hc : c.OK p.nLabels) : (p.call c).WF := by
  cases c with
  | rule src r wc pre => exact WF_addRuleImpl hp src r wc pre hc
  | state s => exact WF_addState hp s

theorem nLabels_foldl_call (cs : List (PdaCall W)) (p : Pda W) :
    (cs.foldl call p).nLabels = p.nLabels := by
  induction cs generalizing p with
  | nil => rfl
  | cons c cs ih => rw [List.foldl_cons, ih, nLabels_call]

theorem WF_foldl_call (cs : List (PdaCall W)) {p : Pda W} (hp : p.WF)
    (hc : ∀ c ∈ cs, c.OK p.nLabels) : (cs.foldl call p).WF := by
  induction cs generalizing p with
  | nil => exact hp
  | cons c cs ih =>
    rw [List.foldl_cons]
    refine ih (WF_call hp (hc c (by simp))) fun c' hc' => ?_
    rw [nLabels_call]; exact hc c' (by simp [hc'])

theorem WF_build (n : Nat) (cs : List (PdaCall W)) (hc : ∀ c ∈ cs, c.OK n) : (build n cs).WF :=
  WF_foldl_call cs (WF_empty n) hc

theorem nLabels_build (n : Nat) (cs : List (PdaCall W)) : (build n cs).nLabels = n :=
  nLabels_foldl_call cs _

/-! ## The rule set -/

theorem Has_iff (p : Pda W) (r : URule W) :
    p.Has r ↔ ∃ l, (toImpl r, l) ∈ (p.st r.src).rules ∧ r.pre ∈ p.expand l := by
  unfold Has allRules
  simp only [List.mem_flatMap, List.mem_range, List.mem_map, Prod.exists]
  constructor
  · rintro ⟨i, hi, ru, l, hm, g, hg, rfl⟩
    exact ⟨l, hm, hg⟩
  · rintro ⟨l, hm, hg⟩
    refine ⟨r.src, ?_, _, l, hm, r.pre, hg, rfl⟩
    by_contra h
    rw [st_default (by omega)] at hm
    simp [default] at hm

theorem WF.mem_expand {p : Pda W} (hp : p.WF) {i : Nat} {x : Rule W × Labels}
    (hx : x ∈ (p.st i).rules) (g : Nat) :
    g ∈ p.expand x.2 ↔ x.2.contains g = true ∧ g < p.nLabels := by
  rw [Labels.contains_iff (hp.labWF i x hx)]
  unfold expand
  split
  · simp [*]
  · simp only [*, Bool.false_eq_true, false_or]
    exact ⟨fun h => ⟨h, hp.labLt i x hx g h⟩, fun h => h.1⟩

/-- The pre* rule lookup meets every rule into the state: no PUSH rule with operand label `0` has a
weight below zero in the native order of the weight type. -/
def LookupOK [Zero W] (p : Pda W) : Prop :=
  ∀ i, ∀ x ∈ (p.st i).rules, x.1.op = .push → x.1.opLabel = 0 → ¬ x.1.weight < 0

theorem takeWhile_eq_filter {α : Type} (f : α → Nat) (s : Nat) (l : List α)
    (h1 : l.Pairwise (fun a b => f a ≤ f b)) (h2 : ∀ a ∈ l, s ≤ f a) :
    l.takeWhile (fun a => f a == s) = l.filter (fun a => f a == s) := by
  induction l with
  | nil => rfl
  | cons a l ih =>
    rw [List.pairwise_cons] at h1
    by_cases h : f a = s
    · simp [h, ih h1.2 (fun b hb => h2 b (by simp [hb]))]
    · have : s < f a := by have := h2 a (by simp); omega
      rw [List.takeWhile_cons_of_neg (by simpa using h), List.filter_cons_of_neg (by simpa using h)]
      symm
      rw [List.filter_eq_nil_iff]
      intro b hb
      have := h1.1 b hb
      simp; omega

/-- The lookup starts at a key that compares above such a rule. -/
def _root_.Verif.Rule.Missed [Zero W] (r : Rule W) : Prop := r.op = .push ∧ r.opLabel = 0 ∧ r.weight < 0

theorem lt_key_iff [Zero W] {r : Rule W} {s : Nat} (h : r.to = s) : Rule.lt r (Rule.key s) = true ↔ r.Missed := by
  rw [Rule.lt_iff, Rule.Missed]
  simp only [Rule.key, Op.num, h]
  constructor
  · rintro (h | ⟨_, h | ⟨h1, h | ⟨h2, h3⟩⟩⟩)
    · omega
    · omega
    · revert h; cases r.op <;> simp [Op.num]
    · exact ⟨Op.num_inj (by simpa [Op.num] using h2), h1, h3⟩
  · rintro ⟨h1, h2, h3⟩
    exact .inr ⟨trivial, .inr ⟨h2, .inr ⟨by rw [h1], h3⟩⟩⟩

theorem rulesInto_aux [Zero W] (s : Nat) (rules : VMap (Rule W) Labels)
    (hs : rules.Sorted Rule.lt) (k : Nat) :
    ((rules.zipIdx k).drop (rules.lb Rule.lt (Rule.key s))).takeWhile (fun x => x.1.1.to == s)
      = (rules.zipIdx k).filter (fun x => x.1.1.to == s && !Rule.lt x.1.1 (Rule.key s)) := by
  induction rules generalizing k with
  | nil => simp
  | cons e rs ih =>
    have hs0 := hs
    rw [VMap.Sorted, List.pairwise_cons] at hs
    rw [VMap.lb_cons]
    by_cases h : Rule.lt e.1 (Rule.key s) = true
    · rw [if_pos h]
      simp only [List.zipIdx_cons, List.drop_succ_cons]
      rw [ih hs.2, List.filter_cons_of_neg (by simp [h])]
    · rw [if_neg h, List.drop_zero]
      have hnl : ∀ a ∈ (e :: rs).zipIdx k, Rule.lt a.1.1 (Rule.key s) = false := by
        intro a ha
        have hmem : a.1 ∈ e :: rs := by
          have := List.mem_map_of_mem (f := Prod.fst) ha
          rwa [List.zipIdx_map_fst] at this
        rcases List.mem_cons.1 hmem with h1 | h1
        · rw [h1]; simpa using h
        · by_contra h2
          exact h (Rule.lt_total.trans _ _ _ (hs.1 _ h1) (by simpa using h2))
      have hf : ((e :: rs).zipIdx k).filter (fun x => x.1.1.to == s && !Rule.lt x.1.1 (Rule.key s)) =
          ((e :: rs).zipIdx k).filter (fun x => x.1.1.to == s) := by
        apply List.filter_congr
        intro a ha
        rw [hnl a ha]; simp
      rw [hf]
      apply takeWhile_eq_filter (fun x : (Rule W × Labels) × Nat => x.1.1.to)
      · have hp : (e :: rs).Pairwise (fun a b => a.1.to ≤ b.1.to) := by
          refine List.Pairwise.imp (fun {a b} hab => ?_) hs0
          rw [Rule.lt_iff] at hab; omega
        have : (((e :: rs).zipIdx k).map Prod.fst).Pairwise (fun a b => a.1.to ≤ b.1.to) := by
          simpa [List.zipIdx_map_fst] using hp
        exact (List.pairwise_map (f := Prod.fst) (R := fun a b : Rule W × Labels => a.1.to ≤ b.1.to)).1 this
      · intro a ha
        have := hnl a ha
        by_contra hlt
        have : Rule.lt a.1.1 (Rule.key s) = true := by
          rw [Rule.lt_iff]
          exact .inl (by simp only [Rule.key]; omega)
        simp_all

theorem mem_rulesInto [Zero W] {p : Pda W} (hp : p.WF) (pre s i : Nat)
    (r : Rule W) (l : Labels) :
    (i, r, l) ∈ p.rulesInto pre s ↔ (p.st pre).rules[i]? = some (r, l) ∧ r.to = s ∧ ¬ r.Missed := by
  unfold rulesInto
  simp only
  rw [rulesInto_aux s _ (hp.sorted pre)]
  simp only [List.mem_map, List.mem_filter, Prod.exists, Prod.mk.injEq, Bool.and_eq_true, beq_iff_eq]
  constructor
  · rintro ⟨r', l', i', ⟨h1, h2, h3⟩, rfl, rfl, rfl⟩
    refine ⟨by simpa [List.mem_zipIdx_iff_getElem?] using h1, h2, ?_⟩
    rw [← lt_key_iff h2]
    simpa using h3
  · rintro ⟨h1, h2, h3⟩
    refine ⟨r, l, i, ⟨by simpa [List.mem_zipIdx_iff_getElem?] using h1, h2, ?_⟩, rfl, rfl, rfl⟩
    rw [← lt_key_iff h2] at h3
    simpa using h3

theorem LookupOK.missed [Zero W] {p : Pda W} (hk : p.LookupOK) {i : Nat} {x : Rule W × Labels}
    (hx : x ∈ (p.st i).rules) : ¬ x.1.Missed := fun h => hk i x hx h.1 h.2.1 h.2.2

end

end Pda

end Verif
