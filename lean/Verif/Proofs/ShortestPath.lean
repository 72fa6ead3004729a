import Verif.Model.ShortestPath

/-! # Dijkstra's algorithm -/

namespace Verif

variable {N B T : Type} [LinearOrder T] [DecidableEq N]

/-- The elements that the search may put in the queue. -/
inductive DReach (goal : N → Bool) (start : List (DElem N B T)) (succ : DElem N B T → List (DElem N B T)) :
    DElem N B T → Prop where
  | start {e} : e ∈ start → DReach goal start succ e
  | step {e e'} : DReach goal start succ e → goal e.node = false → e' ∈ succ e → DReach goal start succ e'

/-- What the search needs: weights do not become better along the way, and successors do not depend on more than the
node and, monotonically, on the weight. -/
structure DOK (succ : DElem N B T → List (DElem N B T)) : Prop where
  nonneg : ∀ e, ∀ e' ∈ succ e, e.weight ≤ e'.weight
  mono : ∀ e f, e.node = f.node → e.weight ≤ f.weight → ∀ f' ∈ succ f, ∃ e' ∈ succ e, e'.node = f'.node ∧ e'.weight ≤ f'.weight

/-- An element is represented in the queue or among the visited nodes. -/
def DCov (q : List (DElem N B T)) (vis : N → Option T) (f : DElem N B T) : Prop :=
  (∃ g ∈ q, g.node = f.node ∧ g.weight ≤ f.weight) ∨ ∃ v, vis f.node = some v ∧ v ≤ f.weight

/-- The loop invariant. -/
structure DInv (goal : N → Bool) (start : List (DElem N B T)) (succ : DElem N B T → List (DElem N B T))
    (q : List (DElem N B T)) (vis : N → Option T) : Prop where
  reach : ∀ e ∈ q, DReach goal start succ e
  visited : ∀ n v, vis n = some v → goal n = false ∧ ∃ e, e.node = n ∧ e.weight = v ∧ ∀ e' ∈ succ e, DCov q vis e'
  covers : ∀ e ∈ start, DCov q vis e

theorem DInv.init (goal : N → Bool) (start : List (DElem N B T)) (succ : DElem N B T → List (DElem N B T)) :
    DInv goal start succ start (fun _ => none) :=
  ⟨fun _ he => .start he, fun _ _ h => (by cases h), fun e he => .inl ⟨e, he, rfl, le_refl _⟩⟩

variable {goal : N → Bool} {start : List (DElem N B T)} {succ : DElem N B T → List (DElem N B T)}
  {q r : List (DElem N B T)} {vis : N → Option T} {e : DElem N B T}

theorem DInv.cover (hok : DOK succ) (hi : DInv goal start succ q vis) {f : DElem N B T} (hf : DReach goal start succ f) :
    (∃ g ∈ q, g.weight ≤ f.weight) ∨ ∃ v, vis f.node = some v ∧ v ≤ f.weight := by
  have weak : ∀ f, DCov q vis f → (∃ g ∈ q, g.weight ≤ f.weight) ∨ ∃ v, vis f.node = some v ∧ v ≤ f.weight := by
    rintro f (⟨g, h1, _, h2⟩ | h)
    · exact .inl ⟨g, h1, h2⟩
    · exact .inr h
  induction hf with
  | start he => exact weak _ (hi.covers _ he)
  | @step e e' _ _ he' ih =>
    rcases ih with ⟨g, hg, hle⟩ | ⟨v, hv, hle⟩
    · exact .inl ⟨g, hg, le_trans hle (hok.nonneg _ _ he')⟩
    · obtain ⟨_, e0, hn, hw, hall⟩ := hi.visited _ _ hv
      obtain ⟨e1, h1, h2, h3⟩ := hok.mono e0 e hn (by rw [hw]; exact hle) e' he'
      rcases weak _ (hall e1 h1) with ⟨g, hg, hle'⟩ | ⟨v', hv', hle'⟩
      · exact .inl ⟨g, hg, le_trans hle' h3⟩
      · exact .inr ⟨v', by rw [← h2]; exact hv', le_trans hle' h3⟩

theorem DInv.atGoal (hok : DOK succ) (hi : DInv goal start succ q vis) {f : DElem N B T} (hf : DReach goal start succ f)
    (hg : goal f.node = true) : ∃ g ∈ q, g.weight ≤ f.weight := by
  rcases hi.cover hok hf with h | ⟨v, hv, _⟩
  · exact h
  · have := (hi.visited _ _ hv).1
    rw [hg] at this
    cases this

theorem DInv.skip (hi : DInv goal start succ q vis) (hp : (e :: r).Perm q) (hs : dSkip vis e = true) :
    DInv goal start succ r vis := by
  have cov : ∀ f, DCov q vis f → DCov r vis f := by
    rintro f (⟨g, hg, h1, h2⟩ | h)
    · rcases List.mem_cons.1 (hp.symm.subset hg) with rfl | hg
      · unfold dSkip at hs
        rw [h1] at hs
        rcases hv : vis f.node with _ | v
        · simp [hv] at hs
        · rw [hv] at hs
          simp only [Bool.not_eq_true', decide_eq_false_iff_not, not_lt] at hs
          exact .inr ⟨v, hv, le_trans hs h2⟩
      · exact .inl ⟨g, hg, h1, h2⟩
    · exact .inr h
  exact ⟨fun f hf => hi.reach f (hp.subset (List.mem_cons_of_mem _ hf)),
    fun n v hv => let ⟨h1, e, h2, h3, h4⟩ := hi.visited n v hv; ⟨h1, e, h2, h3, fun e' he' => cov _ (h4 e' he')⟩,
    fun f hf => cov _ (hi.covers f hf)⟩

theorem DInv.expand (hi : DInv goal start succ q vis) (hp : (e :: r).Perm q) (hs : dSkip vis e = false)
    (hg : goal e.node = false) : DInv goal start succ (r ++ succ e) (dVisit vis e) := by
  have cov : ∀ f, DCov q vis f → DCov (r ++ succ e) (dVisit vis e) f := by
    rintro f (⟨g, hg, h1, h2⟩ | ⟨v, hv, hle⟩)
    · rcases List.mem_cons.1 (hp.symm.subset hg) with rfl | hg
      · exact .inr ⟨g.weight, by simp [dVisit, h1], h2⟩
      · exact .inl ⟨g, List.mem_append_left _ hg, h1, h2⟩
    · by_cases hn : f.node = e.node
      · refine .inr ⟨e.weight, by simp [dVisit, hn], ?_⟩
        unfold dSkip at hs
        rw [hn] at hv
        rw [hv] at hs
        simp only [Bool.not_eq_false', decide_eq_true_eq] at hs
        exact le_trans hs.le hle
      · exact .inr ⟨v, by simp [dVisit, hn, hv], hle⟩
  have hr : DReach goal start succ e := hi.reach e (hp.subset (List.mem_cons_self ..))
  refine ⟨?_, ?_, fun f hf => cov _ (hi.covers f hf)⟩
  · intro f hf
    rcases List.mem_append.1 hf with hf | hf
    · exact hi.reach f (hp.subset (List.mem_cons_of_mem _ hf))
    · exact .step hr hg hf
  · intro n v hv
    unfold dVisit at hv
    split at hv
    · rename_i hn
      rw [Option.some.injEq] at hv
      subst hn
      exact ⟨hg, e, rfl, hv, fun e' he' => .inl ⟨e', List.mem_append_right _ he', rfl, le_refl _⟩⟩
    · obtain ⟨h1, e0, h2, h3, h4⟩ := hi.visited n v hv
      exact ⟨h1, e0, h2, h3, fun e' he' => cov _ (h4 e' he')⟩

/-- What the search returns. -/
def DSpec (goal : N → Bool) (start : List (DElem N B T)) (succ : DElem N B T → List (DElem N B T)) :
    Option (DElem N B T) → Prop
  | some e => DReach goal start succ e ∧ goal e.node = true ∧ ∀ f, DReach goal start succ f → goal f.node = true → e.weight ≤ f.weight
  | none => ∀ f, DReach goal start succ f → goal f.node = false

theorem dLoop_inv (hp : Heap (DElem N B T) T DElem.weight) (hok : DOK succ) (fuel : Nat) (q : List (DElem N B T))
    (vis : N → Option T) (hi : DInv goal start succ q vis) (res : Option (DElem N B T))
    (h : dLoop hp goal succ fuel q vis = some res) : DSpec goal start succ res := by
  have hempty : ∀ q vis, hp.pop q = none → DInv goal start succ q vis → DSpec goal start succ none := by
    intro q vis hq hi f hf
    rw [hp.none_iff] at hq
    by_contra hg
    rw [Bool.not_eq_false] at hg
    obtain ⟨g, hg, _⟩ := hi.atGoal hok hf hg
    rw [hq] at hg
    cases hg
  induction fuel generalizing q vis with
  | zero =>
    unfold dLoop at h
    split at h
    · rename_i hq
      rw [Option.isNone_iff_eq_none] at hq
      rw [Option.some.injEq] at h
      subst h
      exact hempty q vis hq hi
    · cases h
  | succ fuel ih =>
    unfold dLoop at h
    split at h
    · rename_i hq
      rw [Option.some.injEq] at h
      subst h
      exact hempty q vis hq hi
    · rename_i e r hq
      obtain ⟨hperm, hmin⟩ := hp.spec _ _ _ hq
      split at h
      · rename_i hg
        rw [Option.some.injEq] at h
        subst h
        refine ⟨hi.reach e (hperm.subset (List.mem_cons_self ..)), hg, fun f hf hgf => ?_⟩
        obtain ⟨g, hgq, hle⟩ := hi.atGoal hok hf hgf
        rcases List.mem_cons.1 (hperm.symm.subset hgq) with rfl | hgr
        · exact hle
        · exact le_trans (hmin g hgr) hle
      · rename_i hg
        rw [Bool.not_eq_true] at hg
        split at h
        · rename_i hs
          exact ih _ _ (hi.skip hperm hs) h
        · rename_i hs
          rw [Bool.not_eq_true] at hs
          exact ih _ _ (hi.expand hperm hs hg) h

/-- The search ends: every node is expanded at most once. -/
theorem dLoop_terminates (hp : Heap (DElem N B T) T DElem.weight) (hok : DOK succ) (U : List N)
    (hU : ∀ e, DReach goal start succ e → e.node ∈ U) (m : Nat) :
    ∀ (k : Nat) (q : List (DElem N B T)) (vis : N → Option T), (U.filter fun n => (vis n).isNone).length = m → q.length = k →
      (∀ e ∈ q, DReach goal start succ e) → (∀ n v, vis n = some v → ∀ g ∈ q, v ≤ g.weight) →
      ∃ fuel res, dLoop hp goal succ fuel q vis = some res := by
  induction m using Nat.strongRecOn with
  | ind m ihm =>
  intro k
  induction k with
  | zero =>
    intro q vis _ hk _ _
    refine ⟨0, none, ?_⟩
    have : q = [] := List.length_eq_zero_iff.1 hk
    unfold dLoop
    rw [if_pos (by rw [(hp.none_iff q).2 this]; rfl)]
  | succ k ihk =>
    intro q vis hm hk hr hv
    rcases hq : hp.pop q with _ | ⟨e, r⟩
    · exact ⟨1, none, by unfold dLoop; rw [hq]⟩
    · obtain ⟨hperm, hmin⟩ := hp.spec _ _ _ hq
      have he := hr e (hperm.subset (List.mem_cons_self ..))
      have hlen := hperm.length_eq
      rw [List.length_cons] at hlen
      have hrr : ∀ f ∈ r, DReach goal start succ f := fun f hf => hr f (hperm.subset (List.mem_cons_of_mem _ hf))
      rcases hg : goal e.node with _ | _
      · rcases hs : dSkip vis e with _ | _
        · have hvn : vis e.node = none := by
            rcases hvn : vis e.node with _ | v
            · rfl
            · have := hv _ _ hvn e (hperm.subset (List.mem_cons_self ..))
              unfold dSkip at hs
              rw [hvn] at hs
              simp only [Bool.not_eq_false', decide_eq_true_eq] at hs
              exact absurd hs (not_lt.2 this)
          have hlt : (U.filter fun n => (dVisit vis e n).isNone).length < m := by
            rw [← hm]
            have hsub : (U.filter fun n => (dVisit vis e n).isNone) = (U.filter fun n => (vis n).isNone).filter fun n => decide (n ≠ e.node) := by
              rw [List.filter_filter]
              apply List.filter_congr
              intro n _
              unfold dVisit
              by_cases hn : n = e.node <;> simp [hn]
            rw [hsub]
            apply Nat.lt_of_le_of_ne (List.length_filter_le ..)
            intro heq
            rw [List.length_filter_eq_length_iff] at heq
            have := heq e.node (List.mem_filter.2 ⟨hU e he, by rw [hvn]; rfl⟩)
            simp at this
          obtain ⟨fuel, res, h⟩ := ihm _ hlt (r ++ succ e).length (r ++ succ e) (dVisit vis e) rfl rfl (by
              intro f hf
              rcases List.mem_append.1 hf with hf | hf
              · exact hrr f hf
              · exact .step he hg hf) (by
              intro n v hnv g hgq
              unfold dVisit at hnv
              split at hnv
              · rw [Option.some.injEq] at hnv
                subst hnv
                rcases List.mem_append.1 hgq with hf | hf
                · exact hmin g hf
                · exact hok.nonneg e g hf
              · rcases List.mem_append.1 hgq with hf | hf
                · exact hv n v hnv g (hperm.subset (List.mem_cons_of_mem _ hf))
                · exact le_trans (hv n v hnv e (hperm.subset (List.mem_cons_self ..))) (hok.nonneg e g hf))
          exact ⟨fuel + 1, res, by unfold dLoop; rw [hq]; simp [hg, hs, h]⟩
        · obtain ⟨fuel, res, h⟩ := ihk r vis hm (by omega) hrr fun n v hnv g hgr => hv n v hnv g (hperm.subset (List.mem_cons_of_mem _ hgr))
          exact ⟨fuel + 1, res, by unfold dLoop; rw [hq]; simp [hg, hs, h]⟩
      · exact ⟨1, some e, by unfold dLoop; rw [hq]; simp [hg]⟩

end Verif
