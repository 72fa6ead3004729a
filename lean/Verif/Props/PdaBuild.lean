import Verif.Proofs.PdaBuild
import Mathlib.Order.Lattice
import Mathlib.Data.Int.Order.Basic
import Mathlib.Algebra.Order.PUnit

/-!
# C22–C25: label sets, building a PDA, the reverse rule lookup and `clear_state`
-/

namespace Verif.Props

variable {W : Type}

/-! ## C22 label sets -/

/-- Specification: the set of labels (below `n`) that a label set stands for. -/
def labelSet (n : Nat) (l : Labels) : Nat → Prop :=
  fun x => x < n ∧ (l.wildcard = true ∨ x ∈ l.labels)

/-- `contains` is membership. -/
theorem c22_contains (n : Nat) (l : Labels) (h : WSorted l.labels) (x : Nat) (hx : x < n) :
    l.contains x = true ↔ labelSet n l x := by
  rw [Labels.contains_iff h]
  simp [labelSet, hx]

/-- `empty` is emptiness. -/
theorem c22_empty (l : Labels) (n : Nat) (hn : 0 < n) (h : ∀ x ∈ l.labels, x < n) :
    l.isEmpty = true ↔ ∀ x, ¬ labelSet n l x := by
  unfold Labels.isEmpty labelSet
  rcases l with ⟨wc, ls⟩
  cases wc
  · cases ls with
    | nil => simp
    | cons a as =>
      simp only [Bool.not_false, Bool.true_and, List.isEmpty_cons, Bool.false_eq_true, false_or,
        false_iff, not_forall, not_not]
      exact ⟨a, h a (by simp), by simp⟩
  · simp only [Bool.not_true, Bool.false_and, Bool.false_eq_true, true_or, and_true, false_iff,
      not_forall, not_not]
    exact ⟨0, hn⟩

/-- `merge` is union, a wildcard being the whole alphabet; sortedness is preserved. -/
theorem c22_merge (n : Nat) (l : Labels) (wc : Bool) (o : List Nat)
    (hl : WSorted l.labels) (ho : WSorted o) :
    WSorted (l.merge wc o).labels ∧
    ∀ x, x < n → ((l.merge wc o).contains x = true ↔ l.contains x = true ∨ wc = true ∨ x ∈ o) := by
  have hw := Labels.merge_WF (l := l) hl ho wc
  refine ⟨hw, fun x _ => ?_⟩
  rw [Labels.contains_iff hw, Labels.contains_iff hl]
  unfold Labels.merge
  rcases l with ⟨lw, ls⟩
  cases lw <;> cases wc <;> simp [mem_setUnion]

/-- `intersect(other, n)` keeps exactly the labels in `other`, keeps the order, and returns whether
anything is left. -/
theorem c22_intersect (n : Nat) (hn : 0 < n) (l : Labels) (o : List Nat) (hl : WSorted l.labels)
    (hll : ∀ x ∈ l.labels, x < n) (ho : SSorted o) (hol : ∀ x ∈ o, x < n) :
    WSorted (l.intersect o n).1.labels ∧
    (∀ x, x < n → ((l.intersect o n).1.contains x = true ↔ l.contains x = true ∧ x ∈ o)) ∧
    ((l.intersect o n).2 = true ↔ ∃ x, x < n ∧ l.contains x = true ∧ x ∈ o) := by
  have key : WSorted (l.intersect o n).1.labels ∧ (∀ x ∈ (l.intersect o n).1.labels, x < n) ∧
      (∀ x, x < n → ((l.intersect o n).1.contains x = true ↔ l.contains x = true ∧ x ∈ o)) ∧
      (l.intersect o n).2 = !(l.intersect o n).1.isEmpty := by
    unfold Labels.intersect
    split
    · rename_i h
      refine ⟨hl, hll, fun x hx => ?_, rfl⟩
      have := full_of_length n o ho hol h x hx
      simp [this]
    · rename_i h
      rcases l with ⟨lw, ls⟩
      cases lw
      · have hs : WSorted (Labels.intersectLoop ls o) := hl.sublist (intersectLoop_sublist ls o)
        refine ⟨hs, fun x hx => hll x ((intersectLoop_sublist ls o).subset hx), fun x hx => ?_, rfl⟩
        rw [Labels.contains_iff (by exact hs), Labels.contains_iff hl]
        simp [intersectLoop_mem ls o hl ho.wsorted]
      · refine ⟨ho.wsorted, hol, fun x hx => ?_, rfl⟩
        rw [Labels.contains_iff (by exact ho.wsorted), Labels.contains_iff hl]
        simp
  obtain ⟨h1, h2, h3, h4⟩ := key
  refine ⟨h1, h3, ?_⟩
  rw [h4, Bool.not_eq_true', ← Bool.not_eq_true, c22_empty _ n hn h2]
  simp only [not_forall, not_not]
  constructor
  · rintro ⟨x, hx⟩
    have := (c22_contains n _ h1 x hx.1).2 hx
    exact ⟨x, hx.1, (h3 x hx.1).1 this⟩
  · rintro ⟨x, hx, h⟩
    exact ⟨x, (c22_contains n _ h1 x hx).1 ((h3 x hx).2 h)⟩

/-- `noop_pre_filter(useful)` keeps exactly the useful labels and returns `false` only if nothing
was removed. -/
theorem c22_noop_pre_filter (n : Nat) (l : Labels) (u : List Nat) (hl : WSorted l.labels)
    (hwc : l.wildcard = true → l.labels = []) (hu : SSorted u) :
    WSorted (l.noopPreFilter u).1.labels ∧
    (∀ x, x < n → ((l.noopPreFilter u).1.contains x = true ↔ l.contains x = true ∧ x ∈ u)) ∧
    ((l.noopPreFilter u).2 = false → (l.noopPreFilter u).1 = l) := by
  unfold Labels.noopPreFilter
  rcases l with ⟨lw, ls⟩
  cases lw
  · have hs : WSorted (Labels.filterLoop ls u) := by
      rw [filterLoop_eq]; exact hl.sublist (intersectLoop_sublist ls u)
    have hm : ∀ x, x ∈ Labels.filterLoop ls u ↔ x ∈ ls ∧ x ∈ u := by
      intro x; rw [filterLoop_eq]; exact intersectLoop_mem ls u hl hu.wsorted x
    simp only [Bool.false_eq_true, if_false]
    split
    · refine ⟨hs, fun x hx => ?_, by simp⟩
      rw [Labels.contains_iff (by exact hs), Labels.contains_iff hl]
      simp [hm]
    · rename_i h
      have heq : Labels.filterLoop ls u = ls := by
        have hsub : (Labels.filterLoop ls u).Sublist ls := by
          rw [filterLoop_eq]; exact intersectLoop_sublist ls u
        exact hsub.eq_of_length (by simpa using h)
      refine ⟨hl, fun x hx => ?_, fun _ => rfl⟩
      rw [Labels.contains_iff hl]
      have := hm x
      rw [heq] at this
      simp only [Bool.false_eq_true, false_or]
      exact this
  · have hls : ls = [] := hwc rfl
    subst hls
    simp only [if_true, List.append_nil]
    refine ⟨hu.wsorted, fun x hx => ?_, by simp⟩
    rw [Labels.contains_iff (by exact hu.wsorted), Labels.contains_iff hl]
    simp

example : (Labels.intersect ⟨false, [1, 3, 4]⟩ [0, 3, 4, 5] 6).1.labels = [3, 4] := by decide
example : (Labels.noopPreFilter ⟨true, []⟩ [0, 3]).1 = ⟨false, [0, 3]⟩ := by decide

/-! ## C23 building a PDA -/

/-- Specification: the rule `r` is one of those asked for by the call. -/
def Adds (n : Nat) : PdaCall W → URule W → Prop
  | .rule src ru wc pre, r =>
      r.src = src ∧ r.dst = ru.to ∧ r.op = ru.op ∧ r.opLabel = ru.opLabel ∧ r.weight = ru.weight ∧
        (if wc then r.pre < n else r.pre ∈ pre)
  | .state _, _ => False

theorem Has_call [LinearOrder W] {p : Pda W} (hp : p.WF) {c : PdaCall W} (hc : c.OK p.nLabels)
    (r : URule W) : (p.call c).Has r ↔ p.Has r ∨ Adds p.nLabels c r := by
  cases c with
  | state s =>
    simp only [Pda.call, Adds, or_false, Pda.Has_iff, Pda.st_addState, Pda.expand, Pda.nLabels_addState]
  | rule src ru wc pre =>
    have hexp : ∀ l, (p.addRuleImpl src ru wc pre).expand l = p.expand l := by
      intro l; simp [Pda.expand, Pda.nLabels_addRuleImpl]
    simp only [Pda.call, Pda.Has_iff, hexp, Pda.mem_rules_addRuleImpl hp, Adds]
    have hpre : wc = false → ∀ g ∈ pre, g < p.nLabels := fun h => (hc.1 h).2
    have hiff : Pda.toImpl r = ru ↔
        r.dst = ru.to ∧ r.op = ru.op ∧ r.opLabel = ru.opLabel ∧ r.weight = ru.weight := by
      rcases ru with ⟨a, b, c, d⟩
      simp only [Pda.toImpl, Rule.mk.injEq]
      grind
    constructor
    · rintro ⟨l, (⟨h1, h2⟩ | ⟨h1, h2, l0, h3, h4⟩), hg⟩
      · exact .inl ⟨l, h2, hg⟩
      · have h4' : l = l0.merge wc pre := h4
        subst h4'
        have hlt : ∀ g ∈ l0.labels, g < p.nLabels := by
          rcases h3 with h3 | ⟨h3, _⟩
          · exact hp.labLt _ _ h3
          · subst h3; simp
        rcases (mem_expand_merge hlt wc pre hpre r.pre).1 hg with h5 | h5
        · rcases h3 with h3 | ⟨h3, _⟩
          · exact .inl ⟨l0, by rw [show Pda.toImpl r = ru from h2]; exact h3, h5⟩
          · subst h3; simp [Pda.expand] at h5
        · obtain ⟨a, b, c, d⟩ := hiff.1 h2
          exact .inr ⟨h1, a, b, c, d, h5⟩
    · intro h
      by_cases hk : r.src = src ∧ Pda.toImpl r = ru
      · obtain ⟨hk1, hk2⟩ := hk
        have hex : ∃ l, ((ru, l) ∈ (p.st r.src).rules ∨
            (l = {} ∧ ∀ l', (ru, l') ∉ (p.st r.src).rules)) := by
          by_cases hex : ∃ l, (ru, l) ∈ (p.st r.src).rules
          · exact ⟨hex.choose, .inl hex.choose_spec⟩
          · exact ⟨{}, .inr ⟨rfl, fun l' hl' => hex ⟨l', hl'⟩⟩⟩
        obtain ⟨l, hl⟩ := hex
        have hlt : ∀ g ∈ l.labels, g < p.nLabels := by
          rcases hl with h3 | ⟨h3, _⟩
          · exact hp.labLt _ _ h3
          · subst h3; simp
        refine ⟨l.merge wc pre, .inr ⟨hk1, hk2, l, hl, rfl⟩, ?_⟩
        rw [mem_expand_merge hlt wc pre hpre]
        rcases h with ⟨l', h1, h2⟩ | ⟨_, _, _, _, _, h⟩
        · rw [hk2] at h1
          rcases hl with h3 | ⟨_, h3⟩
          · rw [VMap.Sorted.unique Rule.lt_total (hp.sorted _) h3 h1]
            exact .inl h2
          · exact absurd h1 (h3 l')
        · exact .inr h
      · rcases h with ⟨l', h1, h2⟩ | ⟨a, b, c, d, e, _⟩
        · refine ⟨l', .inl ⟨?_, h1⟩, h2⟩
          rcases not_and_or.1 hk with h | h
          · exact .inl h
          · exact .inr h
        · exact absurd ⟨a, hiff.2 ⟨b, c, d, e⟩⟩ hk

/-- C23: after any sequence of construction calls (with sorted, in-range label lists) the rules of
the PDA are exactly those asked for by some call. -/
theorem c23_rules [LinearOrder W] (n : Nat) (cs : List (PdaCall W)) (hcs : ∀ c ∈ cs, c.OK n)
    (r : URule W) : (Pda.build n cs).Has r ↔ ∃ c ∈ cs, Adds n c r := by
  suffices h : ∀ (cs : List (PdaCall W)) (p : Pda W), p.WF → (∀ c ∈ cs, c.OK p.nLabels) →
      ((cs.foldl Pda.call p).Has r ↔ p.Has r ∨ ∃ c ∈ cs, Adds p.nLabels c r) by
    have := h cs { nLabels := n } (Pda.WF_empty n) hcs
    rw [Pda.build, this]
    simp [Pda.Has, Pda.allRules, Pda.size]
  intro cs
  induction cs with
  | nil => intro p _ _; simp
  | cons c cs ih =>
    intro p hp hok
    have hc := hok c (by simp)
    rw [List.foldl_cons, ih _ (Pda.WF_call hp hc)
      (fun c' hc' => by rw [Pda.nLabels_call]; exact hok c' (by simp [hc'])), Has_call hp hc,
      Pda.nLabels_call]
    simp only [List.mem_cons, exists_eq_or_imp]
    grind

/-- C23: a move is possible in the built PDA iff some call asked for its rule. -/
theorem c23_moves [LinearOrder W] (n : Nat) (cs : List (PdaCall W)) (hcs : ∀ c ∈ cs, c.OK n)
    (c c' : Config) : Step (Pda.build n cs).Has c c' ↔
      ∃ r w, (∃ k ∈ cs, Adds n k r) ∧ c = (r.src, r.pre :: w) ∧
        c' = (r.dst, effect r.op r.pre r.opLabel w) := by
  constructor
  · rintro ⟨r, w, h⟩
    exact ⟨r, w, (c23_rules n cs hcs r).1 h, rfl, rfl⟩
  · rintro ⟨r, w, h, rfl, rfl⟩
    exact ⟨r, w, (c23_rules n cs hcs r).2 h⟩

/-- C23: the reverse index used by pre* is consistent: a state with a rule into `q` is listed as a
predecessor of `q`, both states exist, and the labels are in the alphabet. -/
theorem c23_reverse_index [LinearOrder W] (n : Nat) (cs : List (PdaCall W))
    (hcs : ∀ c ∈ cs, c.OK n) (r : URule W) (h : (Pda.build n cs).Has r) :
    r.src ∈ ((Pda.build n cs).st r.dst).preStates ∧ r.src < (Pda.build n cs).size ∧
      r.dst < (Pda.build n cs).size ∧ r.pre < n ∧
      (r.op = .push ∨ r.op = .swap → r.opLabel < n) := by
  have hwf := Pda.WF_build n cs hcs
  obtain ⟨l, hl, hg⟩ := (Pda.Has_iff _ _).1 h
  have hpm := hwf.preMem _ _ hl
  have h1 := (hwf.mem_expand hl r.pre).1 hg
  have h2 := hwf.opLt _ _ hl
  rw [Pda.nLabels_build] at h1 h2
  exact ⟨hpm, hwf.preLt _ _ hpm, hwf.toLt _ _ hl, h1.2, h2⟩

/-- The calls `add_rule` and `add_wildcard_rule` taking a whole rule are instances. -/
theorem c23_add_rule [LinearOrder W] {p : Pda W} (hp : p.WF) (r0 r : URule W) (hpre : r0.pre < p.nLabels)
    (hop : r0.op = .push ∨ r0.op = .swap → r0.opLabel < p.nLabels) :
    (p.addRule r0).WF ∧ ((p.addRule r0).Has r ↔ p.Has r ∨ r = r0) := by
  have hc : (PdaCall.rule r0.src (Pda.toImpl r0) false [r0.pre]).OK p.nLabels := by
    refine ⟨fun _ => ⟨by simp [WSorted], by simpa using hpre⟩, hop⟩
  refine ⟨Pda.WF_call hp hc, ?_⟩
  have := Has_call hp hc r
  rw [Pda.call] at this
  rw [Pda.addRule, this]
  refine or_congr Iff.rfl ?_
  rcases r with ⟨a, b, c, d, e, f⟩
  rcases r0 with ⟨a', b', c', d', e', f'⟩
  simp [Adds, Pda.toImpl]
  grind

theorem c23_add_wildcard_rule [LinearOrder W] {p : Pda W} (hp : p.WF) (r0 r : URule W)
    (hop : r0.op = .push ∨ r0.op = .swap → r0.opLabel < p.nLabels) :
    (p.addWildcardRule r0).WF ∧ ((p.addWildcardRule r0).Has r ↔
      p.Has r ∨ ∃ g, g < p.nLabels ∧ r = { r0 with pre := g }) := by
  have hc : (PdaCall.rule r0.src (Pda.toImpl r0) true []).OK p.nLabels :=
    ⟨fun h => by simp at h, hop⟩
  refine ⟨Pda.WF_call hp hc, ?_⟩
  have := Has_call hp hc r
  rw [Pda.call] at this
  rw [Pda.addWildcardRule, this]
  refine or_congr Iff.rfl ?_
  rcases r with ⟨a, b, c, d, e, f⟩
  rcases r0 with ⟨a', b', c', d', e', f'⟩
  simp [Adds, Pda.toImpl]
  grind

/-- A non-trivial sequence of calls meets the hypotheses. -/
def exampleCalls : List (PdaCall Unit) :=
  [.rule 0 ⟨1, .push, (), 1⟩ false [0, 2], .rule 1 ⟨0, .pop, (), 0⟩ true [],
   .rule 0 ⟨1, .push, (), 1⟩ false [1], .state 3]

theorem exampleCalls_ok : ∀ c ∈ exampleCalls, c.OK 3 := by
  simp [exampleCalls, PdaCall.OK, WSorted]

example : (Pda.build 3 exampleCalls).Has ⟨0, 1, 1, .push, 1, ()⟩ :=
  (c23_rules 3 _ exampleCalls_ok _).2 ⟨_, .tail _ (.tail _ (.head _)), by simp [Adds]⟩

/-! ## C24 the reverse lookup -/

/-- C24: the lookup of rules from `pre` into `s` visits exactly the rules of `pre` whose target is `s`, each with its
position in the table, except PUSH rules with operand label 0 and a weight below zero: these it misses. -/
theorem c24_lookup_exact [LinearOrder W] [Zero W] (n : Nat) (cs : List (PdaCall W))
    (hcs : ∀ c ∈ cs, c.OK n) (pre s i : Nat) (r : Rule W) (l : Labels) :
    (i, r, l) ∈ (Pda.build n cs).rulesInto pre s ↔
      ((Pda.build n cs).st pre).rules[i]? = some (r, l) ∧ r.to = s ∧
        ¬ (r.op = .push ∧ r.opLabel = 0 ∧ r.weight < 0) :=
  Pda.mem_rulesInto (Pda.WF_build n cs hcs) pre s i r l

/-- The condition under which the lookup misses nothing, from the calls that built the PDA. -/
theorem lookupOK_build [LinearOrder W] [Zero W] (n : Nat) (cs : List (PdaCall W))
    (hcs : ∀ c ∈ cs, c.OK n)
    (hneg : ∀ src r wc pre, PdaCall.rule src r wc pre ∈ cs → r.op = .push → r.opLabel = 0 →
      ¬ r.weight < 0) : (Pda.build n cs).LookupOK := by
  suffices h : ∀ (cs : List (PdaCall W)) (p : Pda W), p.WF → (∀ c ∈ cs, c.OK p.nLabels) →
      p.LookupOK → (∀ src r wc pre, PdaCall.rule src r wc pre ∈ cs → r.op = .push → r.opLabel = 0 →
      ¬ r.weight < 0) → (cs.foldl Pda.call p).LookupOK by
    refine h cs _ (Pda.WF_empty n) hcs ?_ hneg
    intro i x hx
    rw [Pda.st_default (Nat.zero_le i)] at hx
    simp [default] at hx
  intro cs
  induction cs with
  | nil => exact fun p _ _ h _ => h
  | cons c cs ih =>
    intro p hp hok hk hneg
    have hc := hok c (by simp)
    refine ih _ (Pda.WF_call hp hc)
      (fun c' hc' => by rw [Pda.nLabels_call]; exact hok c' (by simp [hc'])) ?_
      (fun src r wc pre hm => hneg src r wc pre (by simp [hm]))
    cases c with
    | state s => intro i x hx; rw [Pda.call, Pda.st_addState] at hx; exact hk i x hx
    | rule src ru wc pre =>
      intro i x hx
      rw [Pda.call, Pda.mem_rules_addRuleImpl hp] at hx
      rcases hx with ⟨_, hx⟩ | ⟨_, hx, _⟩
      · exact hk i x hx
      · rw [hx]; exact hneg src ru wc pre (by simp)

/-- C24: the lookup of rules from `pre` into `s` visits exactly the rules of `pre` whose target is
`s`, each with its position in the table, provided no PUSH rule with operand label 0 has a weight
below zero. Full statement without that proviso fails: see `c24_lookup_misses`. -/
theorem c24_lookup_partial [LinearOrder W] [Zero W] (n : Nat) (cs : List (PdaCall W))
    (hcs : ∀ c ∈ cs, c.OK n)
    (hneg : ∀ src r wc pre, PdaCall.rule src r wc pre ∈ cs → r.op = .push → r.opLabel = 0 →
      ¬ r.weight < 0) (pre s i : Nat) (r : Rule W) (l : Labels) :
    (i, r, l) ∈ (Pda.build n cs).rulesInto pre s ↔
      ((Pda.build n cs).st pre).rules[i]? = some (r, l) ∧ r.to = s := by
  rw [c24_lookup_exact n cs hcs]
  refine ⟨fun h => ⟨h.1, h.2.1⟩, fun h => ⟨h.1, h.2, fun hm => ?_⟩⟩
  exact lookupOK_build n cs hcs hneg pre _ (List.mem_of_getElem? h.1) hm.1 hm.2.1 hm.2.2

/-- C24 for the unweighted PDA: no proviso. -/
theorem c24_lookup_unweighted (n : Nat) (cs : List (PdaCall Unit)) (hcs : ∀ c ∈ cs, c.OK n)
    (pre s i : Nat) (r : Rule Unit) (l : Labels) :
    (i, r, l) ∈ (Pda.build n cs).rulesInto pre s ↔
      ((Pda.build n cs).st pre).rules[i]? = some (r, l) ∧ r.to = s :=
  c24_lookup_partial n cs hcs (fun _ _ _ _ _ _ _ h => absurd h (lt_irrefl _)) pre s i r l

/-- C24 for unsigned weights: no proviso. -/
theorem c24_lookup_unsigned (n : Nat) (cs : List (PdaCall Nat)) (hcs : ∀ c ∈ cs, c.OK n)
    (pre s i : Nat) (r : Rule Nat) (l : Labels) :
    (i, r, l) ∈ (Pda.build n cs).rulesInto pre s ↔
      ((Pda.build n cs).st pre).rules[i]? = some (r, l) ∧ r.to = s :=
  c24_lookup_partial n cs hcs (fun _ _ _ _ _ _ _ h => absurd h (Nat.not_lt_zero _)) pre s i r l

/-- C24, the disagreement found: with signed weights the lookup misses a PUSH rule with operand label
0 and negative weight, although the PDA has that rule. -/
theorem c24_lookup_misses :
    let p : Pda Int := Pda.build 1 [.rule 0 ⟨0, .push, -1, 0⟩ false [0]]
    p.Has ⟨0, 0, 0, .push, 0, -1⟩ ∧ p.rulesInto 0 0 = [] := by
  refine ⟨(c23_rules 1 _ (by simp [PdaCall.OK, WSorted]) _).2 ⟨_, .head _, by simp [Adds]⟩, by decide⟩

/-! ## C25 clear_state -/

/-- C25: `clear_state(s)` removes exactly the rules from `s` and into `s`. -/
theorem c25_clear_state [LinearOrder W] {p : Pda W} (hp : p.WF) (s : Nat) (r : URule W) :
    (p.clearState s).Has r ↔ p.Has r ∧ r.src ≠ s ∧ r.dst ≠ s := by
  rw [Pda.Has_iff, Pda.Has_iff]
  simp only [clear_rules hp]
  have : ∀ l, (p.clearState s).expand l = p.expand l := fun l => rfl
  simp only [this, Pda.toImpl]
  constructor
  · rintro ⟨l, ⟨h1, h2, h3⟩, h4⟩; exact ⟨⟨l, h3, h4⟩, h1, h2⟩
  · rintro ⟨⟨l, h3, h4⟩, h1, h2⟩; exact ⟨l, ⟨h1, h2, h3⟩, h4⟩

/-- C25: `clear_state` keeps the PDA well formed and does not renumber states. -/
theorem c25_clear_state_wf [LinearOrder W] {p : Pda W} (hp : p.WF) (s : Nat) :
    (p.clearState s).WF ∧ (p.clearState s).size = p.size :=
  clear_wf hp s

example : (Pda.build 3 exampleCalls).WF := Pda.WF_build 3 _ exampleCalls_ok

end Verif.Props
