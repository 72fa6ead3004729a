import Verif.Model.Factory
import Verif.Proofs.Typed
import Verif.Proofs.HashPda
import Verif.Proofs.Algorithms

/-!
# C23 (typed interface, hash container) and C45: the DFS factory
-/

namespace Verif.Props

variable {L W : Type}

/-! ## C23 for the typed interface -/

/-- Specification: what a rule looks like when it is read back: POP and NOOP have no operand label. -/
def readBack [Inhabited L] (r : TRule L W) : TRule L W :=
  { r with opLabel := if r.op = .pop ∨ r.op = .noop then default else r.opLabel }

/-- The labels of the rule are in the alphabet: its operand label if it pushes or swaps. -/
def OperandKnown (labels : List L) (r : TRule L W) : Prop := r.op = .push ∨ r.op = .swap → r.opLabel ∈ labels

/-- A typed PDA whose label map has no duplicates (a set) and whose rules are well formed. -/
structure TypedOK [LinearOrder W] (t : TPda L W) : Prop where
  nodup : t.labels.Nodup
  wf : t.core.WF

theorem symbol_eq [Inhabited L] {t : TPda L W} {i : Nat} {l : L} (h : t.labels[i]? = some l) :
    t.symbol i = l := by
  unfold TPda.symbol; rw [h]; rfl

theorem find_label [DecidableEq L] {t : TPda L W} (hn : t.labels.Nodup) (r : TRule L W) :
    (OperandKnown t.labels r → ∃ i, t.findLabelId r.op r.opLabel = some i ∧
      (r.op = .push ∨ r.op = .swap → t.labels[i]? = some r.opLabel)) ∧
    (¬ OperandKnown t.labels r → t.findLabelId r.op r.opLabel = none) := by
  unfold TPda.findLabelId OperandKnown
  by_cases h : r.op ≠ .pop ∧ r.op ≠ .noop
  · have hop : r.op = .push ∨ r.op = .swap := by
      revert h; cases r.op <;> simp
    rw [if_pos h]
    refine ⟨fun hk => ?_, fun hk => ?_⟩
    · obtain ⟨i, hi⟩ := TPda.labelId_of_mem (hk hop)
      exact ⟨i, hi, fun _ => (TPda.labelId_iff hn _ _).1 hi⟩
    · exact (TPda.labelId_none t _).2 fun hm => hk fun _ => hm
  · have hop : ¬ (r.op = .push ∨ r.op = .swap) := by
      revert h; cases r.op <;> simp
    rw [if_neg h]
    exact ⟨fun _ => ⟨_, rfl, fun h' => absurd h' hop⟩, fun hk => absurd (fun h' => absurd h' hop) hk⟩

/-- C23 (typed): `add_rule(rule)` fails exactly when it mentions a label outside the alphabet; otherwise it adds
that rule and nothing else. -/
theorem c23_typed_add_rule [DecidableEq L] [Inhabited L] [LinearOrder W] {t : TPda L W} (ht : TypedOK t)
    (r0 : TRule L W) :
    (t.addRule r0 = none ↔ ¬ (OperandKnown t.labels r0 ∧ r0.pre ∈ t.labels)) ∧
    ∀ t', t.addRule r0 = some t' → TypedOK t' ∧ t'.labels = t.labels ∧
      ∀ r, r ∈ t'.allRules ↔ r ∈ t.allRules ∨ r = readBack r0 := by
  obtain ⟨hf1, hf2⟩ := find_label ht.nodup r0
  unfold TPda.addRule TPda.addRules TPda.encodePre
  by_cases hk : OperandKnown t.labels r0
  · obtain ⟨lid, hlid, hop⟩ := hf1 hk
    rw [hlid]
    by_cases hp : r0.pre ∈ t.labels
    · obtain ⟨i, hi⟩ := TPda.labelId_of_mem hp
      have hi' := (TPda.labelId_iff ht.nodup _ _).1 hi
      simp only [List.mapM_cons, hi, List.mapM_nil, Option.bind_eq_bind, Option.bind_some, Option.pure_def,
        Option.map_some]
      refine ⟨by simp [hk, hp], ?_⟩
      intro t' ht'
      have hc : (PdaCall.rule r0.src (⟨r0.dst, r0.op, r0.weight, lid⟩ : Rule W) false [i]).OK t.labels.length := by
        refine ⟨fun _ => ⟨by simp [WSorted], ?_⟩, fun h => (List.getElem?_eq_some_iff.1 (hop h)).1⟩
        simpa using (List.getElem?_eq_some_iff.1 hi').1
      have he : t' = t.after (.rule r0.src ⟨r0.dst, r0.op, r0.weight, lid⟩ false [i]) :=
        (Option.some.inj ht').symm
      rw [he]
      refine ⟨⟨ht.nodup, by rw [TPda.core_after]; exact Pda.WF_call ht.wf hc⟩, rfl, fun r => ?_⟩
      rw [TPda.mem_allRules_after ht.wf hc]
      refine or_congr Iff.rfl ?_
      constructor
      · rintro ⟨u, ⟨h1, h2, h3, h4, h5, h6⟩, rfl⟩
        have h6' : u.pre = i := by simpa using h6
        unfold TPda.typed TPda.typedRule readBack Pda.toImpl
        simp only [h1, h2, h3, h4, h5, h6', symbol_eq hi']
        by_cases hpn : r0.op = .pop ∨ r0.op = .noop
        · simp only [if_pos hpn]
        · have : r0.op = .push ∨ r0.op = .swap := by revert hpn; cases r0.op <;> simp
          simp only [if_neg hpn, symbol_eq (hop this)]
      · rintro rfl
        refine ⟨⟨r0.src, i, r0.dst, r0.op, lid, r0.weight⟩, by simp [Adds], ?_⟩
        unfold TPda.typed TPda.typedRule readBack Pda.toImpl
        simp only [symbol_eq hi']
        by_cases hpn : r0.op = .pop ∨ r0.op = .noop
        · simp only [if_pos hpn]
        · have : r0.op = .push ∨ r0.op = .swap := by revert hpn; cases r0.op <;> simp
          simp only [if_neg hpn, symbol_eq (hop this)]
    · have := (TPda.labelId_none t _).2 hp
      simp [this, hp]
  · rw [hf2 hk]
    simp [hk]

/-- C23 (typed): `add_wildcard_rule(rule)` adds the rule for every label of the alphabet. -/
theorem c23_typed_add_wildcard_rule [DecidableEq L] [Inhabited L] [LinearOrder W] {t : TPda L W} (ht : TypedOK t)
    (r0 : TRule L W) :
    (t.addWildcardRule r0 = none ↔ ¬ OperandKnown t.labels r0) ∧
    ∀ t', t.addWildcardRule r0 = some t' → TypedOK t' ∧ t'.labels = t.labels ∧
      ∀ r, r ∈ t'.allRules ↔ r ∈ t.allRules ∨ ∃ g ∈ t.labels, r = readBack { r0 with pre := g } := by
  obtain ⟨hf1, hf2⟩ := find_label ht.nodup r0
  unfold TPda.addWildcardRule
  by_cases hk : OperandKnown t.labels r0
  · obtain ⟨lid, hlid, hop⟩ := hf1 hk
    rw [hlid]
    simp only [Option.map_some]
    refine ⟨by simp [hk], ?_⟩
    intro t' ht'
    have hc : (PdaCall.rule r0.src (⟨r0.dst, r0.op, r0.weight, lid⟩ : Rule W) true []).OK t.labels.length :=
      ⟨fun h => by simp at h, fun h => (List.getElem?_eq_some_iff.1 (hop h)).1⟩
    have he : t' = t.after (.rule r0.src ⟨r0.dst, r0.op, r0.weight, lid⟩ true []) :=
      (Option.some.inj ht').symm
    rw [he]
    refine ⟨⟨ht.nodup, by rw [TPda.core_after]; exact Pda.WF_call ht.wf hc⟩, rfl, fun r => ?_⟩
    rw [TPda.mem_allRules_after ht.wf hc]
    refine or_congr Iff.rfl ?_
    constructor
    · rintro ⟨u, ⟨h1, h2, h3, h4, h5, h6⟩, rfl⟩
      have h6' : u.pre < t.labels.length := by simpa using h6
      refine ⟨t.labels[u.pre], List.getElem_mem h6', ?_⟩
      unfold TPda.typed TPda.typedRule readBack Pda.toImpl
      simp only [h1, h2, h3, h4, h5, symbol_eq (List.getElem?_eq_getElem h6')]
      by_cases hpn : r0.op = .pop ∨ r0.op = .noop
      · simp only [if_pos hpn]
      · have : r0.op = .push ∨ r0.op = .swap := by revert hpn; cases r0.op <;> simp
        simp only [if_neg hpn, symbol_eq (hop this)]
    · rintro ⟨g, hg, rfl⟩
      obtain ⟨i, hi, rfl⟩ := List.getElem_of_mem hg
      refine ⟨⟨r0.src, i, r0.dst, r0.op, lid, r0.weight⟩, by simp [Adds, hi], ?_⟩
      unfold TPda.typed TPda.typedRule readBack Pda.toImpl
      simp only [symbol_eq (List.getElem?_eq_getElem hi)]
      by_cases hpn : r0.op = .pop ∨ r0.op = .noop
      · simp only [if_pos hpn]
      · have : r0.op = .push ∨ r0.op = .swap := by revert hpn; cases r0.op <;> simp
        simp only [if_neg hpn, symbol_eq (hop this)]
  · rw [hf2 hk]
    simp [hk]

/-- The typed PDA made from a set of labels. -/
theorem c23_typed_empty [LinearOrder L] [Inhabited L] [LinearOrder W] (all : List L) (ha : all.Nodup) :
    TypedOK (TPda.ofLabels all : TPda L W) ∧ (∀ l, l ∈ (TPda.ofLabels all : TPda L W).labels ↔ l ∈ all) ∧
      (TPda.ofLabels all : TPda L W).allRules = [] := by
  refine ⟨⟨?_, Pda.WF_empty _⟩, fun l => mem_sortBy _ _ _, rfl⟩
  exact Strict.nodup (sortBy_strict ha)

/-- C23: building in the hash container and moving the result into the vector container gives the same PDA as
building in the vector container, whatever the iteration order of the hash maps. -/
theorem c23_hash_container [LinearOrder W] (n : Nat) (cs : List (PdaCall W))
    (iter : List (Rule W × Labels) → List (Rule W × Labels)) (hi : ∀ l, (iter l).Perm l) :
    (HPda.build n cs).toVector iter = Pda.build n cs :=
  HPda.toVector_eq iter hi (HPda.agree_build n cs).1 (HPda.agree_build n cs).2

example : (HPda.build 3 exampleCalls).toVector List.reverse = Pda.build 3 exampleCalls :=
  c23_hash_container 3 _ _ List.reverse_perm
example : ((HPda.build 3 (exampleCalls ++ [.rule 0 ⟨0, .pop, (), 0⟩ false [1]])).states.map fun s => s.rules.length)
    = [2, 1, 0, 0] := by decide +kernel

/-- `add_rule(from, to, op, op_label, wildcard, pre_labels)` relies on the pre-labels being given in the order of
their ids (`merge` only asserts it): otherwise the rule is listed but `contains`, which post* uses, misses it. -/
theorem c23_unsorted_pre :
    ∃ t : TPda Nat Unit, (TPda.ofLabels [10, 20, 30]).addRules 0 1 .pop 0 false [30, 10] () = some t ∧
      (⟨0, 10, 1, .pop, 0, ()⟩ : TRule Nat Unit) ∈ t.allRules ∧
      ∀ e ∈ (t.core.st 0).rules, e.2.contains 0 = false := by
  refine ⟨_, rfl, by decide +kernel, by decide +kernel⟩

/-! ## C45 the DFS factory -/

/-- Specification: the states reachable from the initial ones along the rules. -/
inductive FReach (initial : List Nat) (rules : Nat → List (TRule L W)) : Nat → Prop where
  | start {s : Nat} : s ∈ initial → FReach initial rules s
  | next {s : Nat} {r : TRule L W} : FReach initial rules s → r ∈ rules s → FReach initial rules r.dst

/-- Specification: the rule `r` is one that the user's rule `r0` stands for, the label `wildcard` standing for
every label. -/
def StandsFor [Inhabited L] (all : List L) (wildcard : L) (r0 r : TRule L W) : Prop :=
  (r0.pre = wildcard ∧ ∃ g ∈ all, r = readBack { r0 with pre := g }) ∨ (r0.pre ≠ wildcard ∧ r = readBack r0)

/-- The labels of the rule are in the alphabet. -/
def LabelsKnown (all : List L) (wildcard : L) (r0 : TRule L W) : Prop :=
  OperandKnown all r0 ∧ (r0.pre = wildcard ∨ r0.pre ∈ all)

open Factory

section
variable [LinearOrder W] [DecidableEq L] [Inhabited L]

theorem visit_spec (all : List L) (wildcard : L) {s : State L W} (hok : TypedOK s.pda)
    (hl : ∀ l, l ∈ s.pda.labels ↔ l ∈ all) (r0 : TRule L W) :
    (LabelsKnown all wildcard r0 → ∃ s', visit wildcard s r0 = some s') ∧
    ∀ s', visit wildcard s r0 = some s' → TypedOK s'.pda ∧ (∀ l, l ∈ s'.pda.labels ↔ l ∈ all) ∧
      s'.accepting = s.accepting ∧
      (∀ r, r ∈ s'.pda.allRules ↔ r ∈ s.pda.allRules ∨ StandsFor all wildcard r0 r) ∧
      ∃ new, s'.seen = s.seen ++ new ∧ s'.waiting = s.waiting ++ new ∧ new.Nodup ∧ (∀ y ∈ new, y ∉ s.seen) ∧
        ∀ y, y ∈ s'.seen ↔ y ∈ s.seen ∨ y = r0.dst := by
  have hk : OperandKnown s.pda.labels r0 ↔ OperandKnown all r0 := by simp only [OperandKnown, hl]
  have hadd : (LabelsKnown all wildcard r0 →
      ∃ t', (if r0.pre = wildcard then s.pda.addWildcardRule r0 else s.pda.addRule r0) = some t') ∧
      ∀ t', (if r0.pre = wildcard then s.pda.addWildcardRule r0 else s.pda.addRule r0) = some t' →
        TypedOK t' ∧ (∀ l, l ∈ t'.labels ↔ l ∈ all) ∧
        ∀ r, r ∈ t'.allRules ↔ r ∈ s.pda.allRules ∨ StandsFor all wildcard r0 r := by
    by_cases hw : r0.pre = wildcard
    · simp only [if_pos hw]
      obtain ⟨h1, h2⟩ := c23_typed_add_wildcard_rule hok r0
      refine ⟨fun h => ?_, fun t' ht' => ?_⟩
      · cases ht : s.pda.addWildcardRule r0 with
        | none => exact absurd (hk.2 h.1) (h1.1 ht)
        | some t' => exact ⟨t', rfl⟩
      · obtain ⟨h3, h4, h5⟩ := h2 t' ht'
        refine ⟨h3, fun l => by rw [h4, hl], fun r => ?_⟩
        rw [h5]
        simp [StandsFor, hw, hl]
    · simp only [if_neg hw]
      obtain ⟨h1, h2⟩ := c23_typed_add_rule hok r0
      refine ⟨fun h => ?_, fun t' ht' => ?_⟩
      · cases ht : s.pda.addRule r0 with
        | none => exact absurd ⟨hk.2 h.1, (hl _).2 (h.2.resolve_left hw)⟩ (h1.1 ht)
        | some t' => exact ⟨t', rfl⟩
      · obtain ⟨h3, h4, h5⟩ := h2 t' ht'
        refine ⟨h3, fun l => by rw [h4, hl], fun r => ?_⟩
        rw [h5]
        simp [StandsFor, hw]
  unfold visit
  refine ⟨fun h => ?_, fun s' hs' => ?_⟩
  · obtain ⟨t', ht'⟩ := hadd.1 h
    rw [ht']
    exact ⟨_, rfl⟩
  · obtain ⟨t', ht', hs''⟩ := Option.map_eq_some_iff.1 hs'
    obtain ⟨h1, h2, h3⟩ := hadd.2 t' ht'
    subst hs''
    by_cases hc : s.seen.contains r0.dst = true
    · rw [if_pos hc]
      refine ⟨h1, h2, rfl, h3, [], by simp, by simp, by simp, by simp, fun y => ?_⟩
      have : r0.dst ∈ s.seen := by simpa using hc
      constructor
      · exact .inl
      · rintro (h | rfl)
        · exact h
        · exact this
    · rw [if_neg hc]
      have : r0.dst ∉ s.seen := by simpa using hc
      exact ⟨h1, h2, rfl, h3, [r0.dst], rfl, rfl, by simp, by simpa using this, by simp⟩

theorem visitAll_spec (all : List L) (wildcard : L) (rs : List (TRule L W)) {s : State L W} (hok : TypedOK s.pda)
    (hl : ∀ l, l ∈ s.pda.labels ↔ l ∈ all) :
    ((∀ r0 ∈ rs, LabelsKnown all wildcard r0) → ∃ s', visitAll wildcard s rs = some s') ∧
    ∀ s', visitAll wildcard s rs = some s' → TypedOK s'.pda ∧ (∀ l, l ∈ s'.pda.labels ↔ l ∈ all) ∧
      s'.accepting = s.accepting ∧
      (∀ r, r ∈ s'.pda.allRules ↔ r ∈ s.pda.allRules ∨ ∃ r0 ∈ rs, StandsFor all wildcard r0 r) ∧
      ∃ new, s'.seen = s.seen ++ new ∧ s'.waiting = s.waiting ++ new ∧ new.Nodup ∧ (∀ y ∈ new, y ∉ s.seen) ∧
        ∀ y, y ∈ s'.seen ↔ y ∈ s.seen ∨ ∃ r0 ∈ rs, y = r0.dst := by
  unfold visitAll
  induction rs generalizing s with
  | nil =>
    refine ⟨fun _ => ⟨s, rfl⟩, fun s' hs' => ?_⟩
    have : s = s' := Option.some.inj hs'
    subst this
    exact ⟨hok, hl, rfl, by simp, [], by simp, by simp, by simp, by simp, by simp⟩
  | cons r0 rs ih =>
    obtain ⟨hv1, hv2⟩ := visit_spec all wildcard hok hl r0
    rw [List.foldlM_cons]
    refine ⟨fun hk => ?_, fun s' hs' => ?_⟩
    · obtain ⟨s1, hs1⟩ := hv1 (hk r0 (by simp))
      obtain ⟨h1, h2, _⟩ := hv2 s1 hs1
      rw [hs1]
      exact (ih h1 h2).1 fun r hr => hk r (by simp [hr])
    · obtain ⟨s1, hs1, hs2⟩ := Option.bind_eq_some_iff.1 hs'
      obtain ⟨h1, h2, h3, h4, new1, h5, h6, h7, h8, h9⟩ := hv2 s1 hs1
      obtain ⟨g1, g2, g3, g4, new2, g5, g6, g7, g8, g9⟩ := (ih h1 h2).2 s' hs2
      refine ⟨g1, g2, g3.trans h3, fun r => ?_, new1 ++ new2, by rw [g5, h5, List.append_assoc],
        by rw [g6, h6, List.append_assoc], ?_, ?_, fun y => ?_⟩
      · rw [g4, h4]
        simp only [List.mem_cons, exists_eq_or_imp, or_assoc]
      · rw [List.nodup_append]
        refine ⟨h7, g7, fun a ha b hb hab => g8 b hb ?_⟩
        rw [h5, ← hab]; simp [ha]
      · intro y hy
        rcases List.mem_append.1 hy with hy | hy
        · exact h8 y hy
        · exact fun hm => g8 y hy (by rw [h5]; simp [hm])
      · rw [g9, h9]
        simp only [List.mem_cons, exists_eq_or_imp, or_assoc]

variable {all : List L} {wildcard : L} {initial : List Nat} {rules : Nat → List (TRule L W)} {acc : Nat → Bool}

/-- The invariant of the search. -/
structure FInv (all : List L) (wildcard : L) (initial : List Nat) (rules : Nat → List (TRule L W))
    (acc : Nat → Bool) (s : State L W) : Prop where
  ok : TypedOK s.pda
  labels : ∀ l, l ∈ s.pda.labels ↔ l ∈ all
  init : ∀ x ∈ initial, x ∈ s.seen
  reach : ∀ x ∈ s.seen, FReach initial rules x
  waiting : ∀ x ∈ s.waiting, x ∈ s.seen
  closed : ∀ x ∈ s.seen, x ∈ s.waiting ∨ ((∀ r ∈ rules x, r.dst ∈ s.seen) ∧
    (∀ r0 ∈ rules x, ∀ r, StandsFor all wildcard r0 r → r ∈ s.pda.allRules) ∧
    (acc x = true → x ∈ s.accepting))
  rulesIn : ∀ r, r ∈ s.pda.allRules → ∃ x ∈ s.seen, ∃ r0 ∈ rules x, StandsFor all wildcard r0 r
  accIn : ∀ x ∈ s.accepting, x ∈ s.seen ∧ acc x = true
  nodup : initial.Nodup → s.waiting.Nodup ∧ s.accepting.Nodup ∧ ∀ x ∈ s.accepting, x ∉ s.waiting

theorem FInv.step {s : State L W} (hi : FInv all wildcard initial rules acc s) :
    (step wildcard rules acc s = none → s.waiting = []) ∧
    ((∀ x, FReach initial rules x → ∀ r0 ∈ rules x, LabelsKnown all wildcard r0) →
      step wildcard rules acc s ≠ some none) ∧
    ∀ s', step wildcard rules acc s = some (some s') → FInv all wildcard initial rules acc s' ∧
      ∃ new, s'.seen = s.seen ++ new ∧ s'.waiting.length + 1 = s.waiting.length + new.length ∧ new.Nodup ∧
        ∀ y ∈ new, y ∉ s.seen := by
  unfold Factory.step
  cases hw : s.waiting.getLast? with
  | none => simp [List.getLast?_eq_none_iff.1 hw]
  | some src =>
    simp only [Option.some.injEq, reduceCtorEq, false_implies, true_and]
    have hsplit : s.waiting = s.waiting.dropLast ++ [src] := by
      rcases List.eq_nil_or_concat s.waiting with h | ⟨l, a, h⟩
      · rw [h] at hw; simp at hw
      · rw [h] at hw ⊢
        simp at hw
        simp [hw]
    have hsrc : src ∈ s.seen := hi.waiting src (by rw [hsplit]; simp)
    generalize hwl : s.waiting.dropLast = wl at hsplit
    obtain ⟨hv1, hv2⟩ := visitAll_spec all wildcard (rules src)
      (s := { s with waiting := wl, accepting := if acc src then s.accepting ++ [src] else s.accepting })
      hi.ok hi.labels
    refine ⟨fun hk hn => ?_, fun s' hs' => ?_⟩
    · obtain ⟨s', hs'⟩ := hv1 (hk src (hi.reach src hsrc))
      rw [hs'] at hn
      cases hn
    · obtain ⟨h1, h2, h3, h4, new, h5, h6, h7, h8, h9⟩ := hv2 s' hs'
      simp only at h3 h4 h5 h6 h8 h9
      have hacc : ∀ x, x ∈ s'.accepting ↔ x ∈ s.accepting ∨ (x = src ∧ acc src = true) := by
        intro x; rw [h3]; split <;> simp_all
      refine ⟨⟨h1, h2, ?_, ?_, ?_, ?_, ?_, ?_, ?_⟩, new, h5, ?_, h7, h8⟩
      · intro x hx; exact (h9 x).2 (.inl (hi.init x hx))
      · intro x hx
        rcases (h9 x).1 hx with h | ⟨r0, hr0, rfl⟩
        · exact hi.reach x h
        · exact .next (hi.reach src hsrc) hr0
      · intro x hx
        rw [h6] at hx
        rw [h5]
        rcases List.mem_append.1 hx with h | h
        · exact List.mem_append_left _ (hi.waiting x (by rw [hsplit]; simp [h]))
        · exact List.mem_append_right _ h
      · intro x hx
        have key : x ∈ s.seen → x ∈ wl ∨ ((∀ r ∈ rules x, r.dst ∈ s'.seen) ∧
            (∀ r0 ∈ rules x, ∀ r, StandsFor all wildcard r0 r → r ∈ s'.pda.allRules) ∧
            (acc x = true → x ∈ s'.accepting)) := by
          intro h
          rcases hi.closed x h with h | ⟨ha, hb, hc⟩
          · rw [hsplit] at h
            rcases List.mem_append.1 h with h | h
            · exact .inl h
            · have : x = src := by simpa using h
              subst this
              refine .inr ⟨fun r hr => (h9 _).2 (.inr ⟨r, hr, rfl⟩), fun r0 hr0 r hr => (h4 r).2 (.inr ⟨r0, hr0, hr⟩),
                fun h => (hacc x).2 (.inr ⟨rfl, h⟩)⟩
          · exact .inr ⟨fun r hr => (h9 _).2 (.inl (ha r hr)), fun r0 hr0 r hr => (h4 r).2 (.inl (hb r0 hr0 r hr)),
              fun h => (hacc x).2 (.inl (hc h))⟩
        rw [h5] at hx
        rw [h6]
        rcases List.mem_append.1 hx with h | h
        · rcases key h with h | h
          · exact .inl (List.mem_append_left _ h)
          · exact .inr h
        · exact .inl (List.mem_append_right _ h)
      · intro r hr
        rcases (h4 r).1 hr with h | ⟨r0, hr0, h⟩
        · obtain ⟨x, hx, h'⟩ := hi.rulesIn r h
          exact ⟨x, (h9 x).2 (.inl hx), h'⟩
        · exact ⟨src, (h9 src).2 (.inl hsrc), r0, hr0, h⟩
      · intro x hx
        rcases (hacc x).1 hx with h | ⟨rfl, h⟩
        · exact ⟨(h9 x).2 (.inl (hi.accIn x h).1), (hi.accIn x h).2⟩
        · exact ⟨(h9 x).2 (.inl hsrc), h⟩
      · intro hn
        obtain ⟨n1, n2, n3⟩ := hi.nodup hn
        rw [hsplit, List.nodup_append] at n1
        have hsa : src ∉ s.accepting := fun h => n3 src h (by rw [hsplit]; simp)
        refine ⟨?_, ?_, ?_⟩
        · rw [h6, List.nodup_append]
          refine ⟨n1.1, h7, fun a ha b hb hab => h8 b hb ?_⟩
          rw [← hab]; exact hi.waiting a (by rw [hsplit]; simp [ha])
        · rw [h3]
          split
          · rw [List.nodup_append]
            refine ⟨n2, by simp, fun a ha b hb hab => hsa ?_⟩
            have : b = src := by simpa using hb
            rw [← this, ← hab]; exact ha
          · exact n2
        · intro x hx hxw
          rw [h6] at hxw
          rcases (hacc x).1 hx with h | ⟨rfl, _⟩
          · rcases List.mem_append.1 hxw with h' | h'
            · exact n3 x h (by rw [hsplit]; simp [h'])
            · exact h8 x h' (hi.accIn x h).1
          · rcases List.mem_append.1 hxw with h' | h'
            · exact n1.2.2 x h' x (by simp) rfl
            · exact h8 x h' hsrc
      · rw [h6, hsplit]; simp; omega

theorem loop_spec {fuel : Nat} {s : State L W} (hi : FInv all wildcard initial rules acc s) :
    (∀ t as, loop wildcard rules acc fuel s = .done t as → ∃ s', FInv all wildcard initial rules acc s' ∧
      s'.waiting = [] ∧ t = s'.pda ∧ as = sortBy natLt s'.accepting) ∧
    ((∀ x, FReach initial rules x → ∀ r0 ∈ rules x, LabelsKnown all wildcard r0) →
      loop wildcard rules acc fuel s ≠ .unknownLabel) := by
  induction fuel generalizing s with
  | zero =>
    obtain ⟨h1, h2, h3⟩ := hi.step
    unfold loop
    split
    · rename_i h
      refine ⟨fun t as he => ?_, fun _ => by simp⟩
      simp only [Result.done.injEq] at he
      exact ⟨s, hi, h1 h, he.1.symm, he.2.symm⟩
    · rename_i h
      exact ⟨fun t as he => by simp at he, fun hk => absurd h (h2 hk)⟩
    · exact ⟨fun t as he => by simp at he, fun _ => by simp⟩
  | succ fuel ih =>
    obtain ⟨h1, h2, h3⟩ := hi.step
    unfold loop
    split
    · rename_i h
      refine ⟨fun t as he => ?_, fun _ => by simp⟩
      simp only [Result.done.injEq] at he
      exact ⟨s, hi, h1 h, he.1.symm, he.2.symm⟩
    · rename_i h
      exact ⟨fun t as he => by simp at he, fun hk => absurd h (h2 hk)⟩
    · rename_i s' h
      exact ih (h3 s' h).1

theorem loop_terminates (S : List Nat) (hS : ∀ x, FReach initial rules x → x ∈ S) {fuel : Nat} {s : State L W}
    (hi : FInv all wildcard initial rules acc s)
    (hf : s.waiting.length + (S.filter fun x => !s.seen.contains x).length ≤ fuel) :
    loop wildcard rules acc fuel s ≠ .running := by
  induction fuel generalizing s with
  | zero =>
    have hw : s.waiting = [] := List.length_eq_zero_iff.1 (by omega)
    unfold loop
    have : step wildcard rules acc s = none := by unfold step; rw [hw]; rfl
    rw [this]; simp
  | succ fuel ih =>
    obtain ⟨h1, h2, h3⟩ := hi.step
    unfold loop
    split
    · simp
    · simp
    · rename_i s' h
      obtain ⟨hi', new, hn1, hn2, hn3, hn4⟩ := h3 s' h
      refine ih hi' ?_
      have hle : new.length + (S.filter fun x => !s'.seen.contains x).length ≤
          (S.filter fun x => !s.seen.contains x).length := by
        rw [List.length_eq_length_filter_add (l := S.filter fun x => !s.seen.contains x) (fun x => new.contains x)]
        have h4 : new.length ≤ ((S.filter fun x => !s.seen.contains x).filter fun x => new.contains x).length := by
          refine (List.Nodup.subperm hn3 fun y hy => ?_).length_le
          have hyS : y ∈ S := hS y (hi'.reach y (by rw [hn1]; simp [hy]))
          have := hn4 y hy
          simp [hyS, hy, this]
        have h5 : (S.filter fun x => !s'.seen.contains x) =
            (S.filter fun x => !s.seen.contains x).filter fun x => !new.contains x := by
          rw [List.filter_filter]
          apply List.filter_congr
          intro x _
          rw [hn1]
          by_cases h6 : x ∈ s.seen <;> by_cases h7 : x ∈ new <;> simp [h6, h7]
        rw [h5]
        omega
      omega

end

theorem init_inv [LinearOrder W] [LinearOrder L] [Inhabited L] {all : List L} (ha : all.Nodup) (wildcard : L)
    (initial : List Nat) (rules : Nat → List (TRule L W)) (acc : Nat → Bool) :
    FInv all wildcard initial rules acc { pda := TPda.ofLabels all, waiting := initial, seen := initial } := by
  obtain ⟨h1, h2, h3⟩ := c23_typed_empty (W := W) all ha
  refine ⟨h1, h2, fun x hx => hx, fun x hx => .start hx, fun x hx => hx, fun x hx => .inl hx, ?_, ?_, ?_⟩
  · intro r hr
    simp only [h3] at hr
    simp at hr
  · intro x hx; simp at hx
  · intro hn; exact ⟨hn, by simp, by simp⟩

/-- C45: whenever `build_pda` finishes, the PDA has exactly the rules of the states reachable from the initial
ones (the wildcard label standing for every label), and the accepting states are the reachable states for which
`accepting` holds, sorted, without duplicates if `initial()` has none. -/
theorem c45_reachable_part [LinearOrder W] [LinearOrder L] [Inhabited L] (all : List L) (ha : all.Nodup)
    (wildcard : L) (initial : List Nat) (rules : Nat → List (TRule L W)) (acc : Nat → Bool) (fuel : Nat)
    (t : TPda L W) (as : List Nat) (h : buildPda all wildcard initial rules acc fuel = .done t as) :
    (∀ r, r ∈ t.allRules ↔ ∃ s, FReach initial rules s ∧ ∃ r0 ∈ rules s, StandsFor all wildcard r0 r) ∧
    (∀ s, s ∈ as ↔ FReach initial rules s ∧ acc s = true) ∧
    as.Pairwise (· ≤ ·) ∧ (initial.Nodup → as.Nodup) := by
  obtain ⟨s', hi, hw, rfl, rfl⟩ := (loop_spec (init_inv ha wildcard initial rules acc)).1 t as h
  have hseen : ∀ x, FReach initial rules x → x ∈ s'.seen := by
    intro x hx
    induction hx with
    | start h => exact hi.init _ h
    | next _ hr ih =>
      rcases hi.closed _ ih with h | h
      · rw [hw] at h; simp at h
      · exact h.1 _ hr
  refine ⟨fun r => ⟨fun hr => ?_, ?_⟩, fun s => ?_, ?_, fun hn => ?_⟩
  · obtain ⟨x, hx, r0, hr0, h⟩ := hi.rulesIn r hr
    exact ⟨x, hi.reach x hx, r0, hr0, h⟩
  · rintro ⟨x, hx, r0, hr0, h⟩
    rcases hi.closed x (hseen x hx) with h' | h'
    · rw [hw] at h'; simp at h'
    · exact h'.2.1 r0 hr0 r h
  · rw [mem_sortBy]
    constructor
    · intro h; exact ⟨hi.reach s (hi.accIn s h).1, (hi.accIn s h).2⟩
    · rintro ⟨h1, h2⟩
      rcases hi.closed s (hseen s h1) with h' | h'
      · rw [hw] at h'; simp at h'
      · exact h'.2.2 h2
  · exact sortBy_incr s'.accepting
  · exact ((sortBy_perm _ _).nodup_iff).2 (hi.nodup hn).2.1

/-- C45: `build_pda` finishes, with the result above, if finitely many states are reachable and the rules of
reachable states only mention labels of the alphabet (and the wildcard). -/
theorem c45_terminates [LinearOrder W] [LinearOrder L] [Inhabited L] (all : List L) (ha : all.Nodup)
    (wildcard : L) (initial : List Nat) (rules : Nat → List (TRule L W)) (acc : Nat → Bool)
    (hfin : ∃ S : List Nat, ∀ x, FReach initial rules x → x ∈ S)
    (hk : ∀ x, FReach initial rules x → ∀ r0 ∈ rules x, LabelsKnown all wildcard r0) :
    ∃ fuel t as, buildPda all wildcard initial rules acc fuel = .done t as := by
  obtain ⟨S, hS⟩ := hfin
  have hi := init_inv (W := W) ha wildcard initial rules acc
  refine ⟨initial.length + S.length, ?_⟩
  have h1 := loop_terminates S hS (fuel := initial.length + S.length) hi
    (Nat.add_le_add_left (List.length_filter_le _ _) _)
  have h2 := (loop_spec (fuel := initial.length + S.length) hi).2 hk
  unfold buildPda
  cases hr : loop wildcard rules acc (initial.length + S.length)
    { pda := TPda.ofLabels all, waiting := initial, seen := initial } with
  | running => exact absurd hr h1
  | unknownLabel => exact absurd hr h2
  | done t as => exact ⟨t, as, rfl⟩

/-- C45: a state given twice by `initial()` is listed twice as accepting. -/
theorem c45_initial_twice : ∃ t, buildPda (L := Nat) (W := Unit) [1] 0 [5, 5] (fun _ => []) (fun _ => true) 9
    = .done t [5, 5] := ⟨_, rfl⟩

/-- A rule function on infinitely many states of which only some are reachable: state `n` pushes `2` and goes to
`n / 2`, for every label, and swaps `1` for `2` in state `0`. -/
def exampleRules (n : Nat) : List (TRule Nat Unit) :=
  if n = 0 then [⟨0, 1, 0, .swap, 2, ()⟩] else [⟨n, 0, n / 2, .push, 2, ()⟩]

theorem exampleRules_reach (x : Nat) (h : FReach [5] exampleRules x) : x ∈ [0, 1, 2, 5] := by
  induction h with
  | start h => simp_all
  | @next s r _ hr ih =>
    unfold exampleRules at hr
    simp only [List.mem_cons, List.not_mem_nil, or_false] at ih
    rcases ih with rfl | rfl | rfl | rfl <;> simp at hr <;> subst hr <;> simp

example : ∃ fuel t as, buildPda [2, 1] 0 [5] exampleRules (fun n => n % 2 == 1) fuel = .done t as ∧
    (⟨5, 1, 2, .push, 2, ()⟩ : TRule Nat Unit) ∈ t.allRules ∧ (∀ r ∈ t.allRules, r.src ≠ 4) ∧ as = [1, 5] := by
  obtain ⟨fuel, t, as, h⟩ := c45_terminates [2, 1] (by decide) 0 [5] exampleRules (fun n => n % 2 == 1)
    ⟨_, exampleRules_reach⟩ (by
      intro x hx r0 hr0
      have := exampleRules_reach x hx
      unfold exampleRules at hr0
      split at hr0 <;> simp at hr0 <;> subst hr0 <;> simp [LabelsKnown, OperandKnown])
  refine ⟨fuel, t, as, h, ?_⟩
  obtain ⟨h1, h2, h3, h4⟩ := c45_reachable_part [2, 1] (by decide) 0 [5] exampleRules (fun n => n % 2 == 1) fuel t as h
  have r5 : FReach [5] exampleRules 5 := .start (by simp)
  have r2 : FReach [5] exampleRules 2 := .next (r := ⟨5, 0, 2, .push, 2, ()⟩) r5 (by simp [exampleRules])
  have r1 : FReach [5] exampleRules 1 := .next (r := ⟨2, 0, 1, .push, 2, ()⟩) r2 (by simp [exampleRules])
  refine ⟨(h1 _).2 ⟨5, r5, ⟨5, 0, 2, .push, 2, ()⟩, by simp [exampleRules],
    .inl ⟨rfl, 1, by simp, by simp [readBack]⟩⟩, fun r hr => ?_, ?_⟩
  · obtain ⟨s, hs, r0, hr0, hr1⟩ := (h1 r).1 hr
    have := exampleRules_reach s hs
    have hsrc : r0.src = s := by
      unfold exampleRules at hr0; split at hr0 <;> simp at hr0 <;> subst hr0 <;> simp_all
    have : r.src = r0.src := by
      rcases hr1 with ⟨_, g, _, rfl⟩ | ⟨_, rfl⟩ <;> rfl
    simp_all
    rintro rfl
    simp_all
  · refine strict_ext (bs := [1, 5]) (Incr.strict h3 (h4 (by simp))) (by simp [Strict]) fun x => ?_
    rw [h2]
    constructor
    · rintro ⟨hx, ho⟩
      have := exampleRules_reach x hx
      simp at this ho ⊢
      omega
    · intro hx
      simp at hx
      rcases hx with rfl | rfl
      · exact ⟨r1, rfl⟩
      · exact ⟨r5, rfl⟩

end Verif.Props
