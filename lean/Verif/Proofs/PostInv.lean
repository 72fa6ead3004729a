import Verif.Proofs.PostStar
import Verif.Proofs.PreFinal

/-! # post*: the loop invariant, its preservation, and termination -/

namespace Verif

variable {W σ : Type}

/-- A transition that post* may hold: in range, not into a control state, and with an epsilon label
only if it leaves a control state. -/
def PValid (p : Pda W) (N : Nat) (t : Tr) : Prop :=
  t.src < N ∧ p.size ≤ t.dst ∧ t.dst < N ∧ (t.label < p.nLabels ∨ (t.label = epsilon ∧ t.src < p.size))

/-- The reasons for which post* inserts a transition. `P` holds of the transitions already there. -/
inductive PostJ (p : Pda W) (qp : List ((Nat × Nat) × Nat)) (P : Tr → Prop) : Tr → Trace → Prop where
  | pop {a g q id : Nat} {r : Rule W} {l : Labels} : (p.st a).rules[id]? = some (r, l) →
      g ∈ p.expand l → r.op = .pop → P ⟨a, g, q⟩ → PostJ p qp P ⟨r.to, epsilon, q⟩ (Trace.post a id g)
  | swap {a g q id : Nat} {r : Rule W} {l : Labels} : (p.st a).rules[id]? = some (r, l) →
      g ∈ p.expand l → r.op = .swap → P ⟨a, g, q⟩ → PostJ p qp P ⟨r.to, r.opLabel, q⟩ (Trace.post a id g)
  | noop {a g q id : Nat} {r : Rule W} {l : Labels} : (p.st a).rules[id]? = some (r, l) →
      g ∈ p.expand l → r.op = .noop → P ⟨a, g, q⟩ → PostJ p qp P ⟨r.to, g, q⟩ (Trace.post a id g)
  | push1 {a g q id : Nat} {r : Rule W} {l : Labels} : (p.st a).rules[id]? = some (r, l) →
      g ∈ p.expand l → r.op = .push → P ⟨a, g, q⟩ →
      PostJ p qp P ⟨r.to, r.opLabel, qFind qp (r.to, r.opLabel)⟩ (Trace.post a id g)
  | push2 {a g q id : Nat} {r : Rule W} {l : Labels} : (p.st a).rules[id]? = some (r, l) →
      g ∈ p.expand l → r.op = .push → P ⟨a, g, q⟩ →
      P ⟨r.to, r.opLabel, qFind qp (r.to, r.opLabel)⟩ →
      PostJ p qp P ⟨qFind qp (r.to, r.opLabel), g, q⟩ (Trace.post a id g)
  | eps {f m g q : Nat} : P ⟨f, epsilon, m⟩ → P ⟨m, g, q⟩ → PostJ p qp P ⟨f, g, q⟩ (Trace.postEps m)

theorem PostJ.mono (p : Pda W) (qp : List ((Nat × Nat) × Nat)) (P Q : Tr → Prop) (h : ∀ t, P t → Q t)
    (t : Tr) (tr : Trace) (hj : PostJ p qp P t tr) : PostJ p qp Q t tr := by
  cases hj with
  | pop h1 h2 h3 h4 => exact .pop h1 h2 h3 (h _ h4)
  | swap h1 h2 h3 h4 => exact .swap h1 h2 h3 (h _ h4)
  | noop h1 h2 h3 h4 => exact .noop h1 h2 h3 (h _ h4)
  | push1 h1 h2 h3 h4 => exact .push1 h1 h2 h3 (h _ h4)
  | push2 h1 h2 h3 h4 h5 => exact .push2 h1 h2 h3 (h _ h4) (h _ h5)
  | eps h1 h2 => exact .eps (h _ h1) (h _ h2)

section
variable [LinearOrder W]

theorem PostJ.valid {p : Pda W} (hp : p.WF) {nQ N : Nat} (hnQ : p.size ≤ nQ) (hN : nQ ≤ N)
    {qp : List ((Nat × Nat) × Nat)} (hq : QOK p nQ N qp)
    {P : Tr → Prop} (hP : ∀ t, P t → PValid p N t) {t : Tr} {tr : Trace} (h : PostJ p qp P t tr) :
    PValid p N t := by
  cases h with
  | @pop a g q id r l h1 h2 h3 h4 =>
    have hm := List.mem_of_getElem? h1
    have := hp.toLt _ _ hm
    have hv := hP _ h4
    refine ⟨?_, hv.2.1, hv.2.2.1, .inr ⟨rfl, ?_⟩⟩ <;> dsimp only at * <;> omega
  | @swap a g q id r l h1 h2 h3 h4 =>
    have hm := List.mem_of_getElem? h1
    have := hp.toLt _ _ hm
    have hv := hP _ h4
    refine ⟨?_, hv.2.1, hv.2.2.1, .inl (hp.opLt _ _ hm (.inr h3))⟩ <;> dsimp only at * <;> omega
  | @noop a g q id r l h1 h2 h3 h4 =>
    have hm := List.mem_of_getElem? h1
    have := hp.toLt _ _ hm
    have hv := hP _ h4
    refine ⟨?_, hv.2.1, hv.2.2.1, .inl ((hp.mem_expand hm g).1 h2).2⟩ <;> dsimp only at * <;> omega
  | @push1 a g q id r l h1 h2 h3 h4 =>
    have hm := List.mem_of_getElem? h1
    have := hp.toLt _ _ hm
    have hr := hq.range _ _ _ hm h3
    refine ⟨?_, ?_, hr.2, .inl (hp.opLt _ _ hm (.inl h3))⟩ <;> dsimp only at * <;> omega
  | @push2 a g q id r l h1 h2 h3 h4 =>
    have hm := List.mem_of_getElem? h1
    have hr := hq.range _ _ _ hm h3
    have hv := hP _ h4
    exact ⟨hr.2, hv.2.1, hv.2.2.1, .inl ((hp.mem_expand hm g).1 h2).2⟩
  | @eps f m g q h1 h2 =>
    have hv := hP _ h1
    have hv2 := hP _ h2
    refine ⟨hv.1, hv2.2.1, hv2.2.2.1, ?_⟩
    rcases hv2.2.2.2 with h3 | ⟨_, h3⟩
    · exact .inl h3
    · have := hv.2.1
      dsimp only at *
      omega

theorem Built.valid_post [Zero W] {p : Pda W} (hp : p.WF) {nQ N : Nat} (hnQ : p.size ≤ nQ) (hN : nQ ≤ N)
    {qp : List ((Nat × Nat) × Nat)} (hq : QOK p nQ N qp)
    {E0 E : List (AEdge W)} (h : Built (PostJ p qp) E0 E) (h0 : ∀ t ∈ keys E0, PValid p N t) :
    ∀ t ∈ keys E, PValid p N t := by
  induction h with
  | base => exact h0
  | cons _ _ hj ih =>
    intro t ht
    rcases List.mem_cons.1 ht with h1 | h1
    · have h1 : t = _ := h1
      subst h1; exact hj.valid hp hnQ hN hq ih
    · exact ih t h1

end

/-- What the rule `r` demands for the transition `t` it applies to. -/
def PostConseq (qp : List ((Nat × Nat) × Nat)) (E : Tr → Prop) (t : Tr) (r : Rule W) : Prop :=
  match r.op with
  | .pop => E ⟨r.to, epsilon, t.dst⟩
  | .swap => E ⟨r.to, r.opLabel, t.dst⟩
  | .noop => E ⟨r.to, t.label, t.dst⟩
  | .push => E ⟨r.to, r.opLabel, qFind qp (r.to, r.opLabel)⟩ ∧
      E ⟨qFind qp (r.to, r.opLabel), t.label, t.dst⟩

theorem PostConseq.mono {qp : List ((Nat × Nat) × Nat)} {E E' : Tr → Prop} (hE : ∀ t, E t → E' t)
    {t : Tr} {r : Rule W} (h : PostConseq qp E t r) : PostConseq qp E' t r := by
  unfold PostConseq at *
  split at h <;> simp_all

section
variable [LinearOrder W] [Zero W]

/-- The invariant of the post* loop. -/
structure PostInv (p : Pda W) (a0 : Aut W) (s : PostSt W σ) : Prop where
  nQ : s.nQ = a0.n
  le : a0.n ≤ s.aut.n
  qok : QOK p a0.n s.aut.n s.qPrime
  acc : ∃ k, s.aut.acc = a0.acc ++ List.replicate k false
  built : Built (PostJ p s.qPrime) a0.edges s.aut.edges
  wsE : ∀ t ∈ s.ws, t ∈ keys s.aut.edges ∧ t.src < p.size
  rel1 : ∀ t, t ∈ s.rel1 ↔ t ∈ keys s.aut.edges ∧ p.size ≤ t.src
  rel2E : ∀ m f, (m, f) ∈ s.rel2 → (⟨f, epsilon, m⟩ : Tr) ∈ keys s.aut.edges
  rel2C : ∀ m f, (⟨f, epsilon, m⟩ : Tr) ∈ keys s.aut.edges → (⟨f, epsilon, m⟩ : Tr) ∉ s.ws → a0.n ≤ m →
    (m, f) ∈ s.rel2
  ruleC : ∀ t ∈ keys s.aut.edges, t.src < p.size → t.label ≠ epsilon → t ∉ s.ws →
    ∀ (id : Nat) (r : Rule W) (l : Labels), (p.st t.src).rules[id]? = some (r, l) →
      l.contains t.label = true → PostConseq s.qPrime (· ∈ keys s.aut.edges) t r
  epsC : ∀ f m g q, (⟨f, epsilon, m⟩ : Tr) ∈ keys s.aut.edges → (⟨f, epsilon, m⟩ : Tr) ∉ s.ws →
    (⟨m, g, q⟩ : Tr) ∈ keys s.aut.edges → (⟨f, g, q⟩ : Tr) ∈ keys s.aut.edges

/-- The precondition on the automaton. -/
structure PostOK (p : Pda W) (a : Aut W) : Prop extends AutOK p a where
  noInto : ∀ t ∈ keys a.edges, p.size ≤ t.dst
  labels : p.nLabels ≤ epsilon

theorem PostOK.pvalid {p : Pda W} {a : Aut W} (ha : PostOK p a) {N : Nat} (hN : a.n ≤ N) :
    ∀ t ∈ keys a.edges, PValid p N t := by
  intro t ht
  obtain ⟨h1, h2, h3⟩ := ha.valid t ht
  exact ⟨by omega, ha.noInto t ht, by omega, .inl h2⟩

theorem PostInv.valid {p : Pda W} (hp : p.WF) {a0 : Aut W} (ha : PostOK p a0) {s : PostSt W σ}
    (h : PostInv p a0 s) : ∀ t ∈ keys s.aut.edges, PValid p s.aut.n t :=
  h.built.valid_post hp ha.size_le h.le h.qok (ha.pvalid h.le)

theorem PostInv.isAcc {p : Pda W} {a0 : Aut W} {s : PostSt W σ} (h : PostInv p a0 s) (f : Nat) :
    s.aut.isAcc f = a0.isAcc f := by
  obtain ⟨k, hk⟩ := h.acc
  unfold Aut.isAcc
  rw [hk, List.getElem?_append]
  split
  · rfl
  · rename_i hf
    rw [List.getElem?_eq_none (l := a0.acc) (by omega)]
    cases hx : (List.replicate k false)[f - a0.acc.length]? with
    | none => rfl
    | some b =>
      have := List.mem_of_getElem? hx
      simp only [List.mem_replicate] at this
      simp [this.2]

/-! ## The requests of a step -/

theorem mem_postRuleReqs {p : Pda W} (hp : p.WF) {t : Tr} {qp : List ((Nat × Nat) × Nat)}
    {rel2 : List (Nat × Nat)} {r : Rule W} {l : Labels} {id : Nat} (ht : t.label < p.nLabels)
    (hr : (p.st t.src).rules[id]? = some (r, l)) {y : PReq} :
    y ∈ postRuleReqs t qp rel2 ((r, l), id) ↔ t.label ∈ p.expand l ∧
      ((r.op = .pop ∧ y = (⟨r.to, epsilon, t.dst⟩, Trace.post t.src id t.label, true)) ∨
       (r.op = .swap ∧ y = (⟨r.to, r.opLabel, t.dst⟩, Trace.post t.src id t.label, true)) ∨
       (r.op = .noop ∧ y = (⟨r.to, t.label, t.dst⟩, Trace.post t.src id t.label, true)) ∨
       (r.op = .push ∧ (y = (⟨r.to, r.opLabel, qFind qp (r.to, r.opLabel)⟩,
          Trace.post t.src id t.label, true) ∨
        y = (⟨qFind qp (r.to, r.opLabel), t.label, t.dst⟩, Trace.post t.src id t.label, false) ∨
        ∃ f, (qFind qp (r.to, r.opLabel), f) ∈ rel2 ∧
          y = (⟨f, t.label, t.dst⟩, Trace.postEps (qFind qp (r.to, r.opLabel)), true)))) := by
  rw [hp.mem_expand (List.mem_of_getElem? hr)]
  unfold postRuleReqs
  by_cases hc : l.contains t.label = true
  · simp only [hc, Bool.not_true, Bool.false_eq_true, if_false, true_and, ht]
    cases hop : r.op <;> simp
    constructor
    · rintro (h | h | ⟨f, h1, h2⟩)
      · exact .inl h
      · exact .inr (.inl h)
      · exact .inr (.inr ⟨f, h1, h2.symm⟩)
    · rintro (h | h | ⟨f, h1, h2⟩)
      · exact .inl h
      · exact .inr (.inl h)
      · exact .inr (.inr ⟨f, h1, h2.symm⟩)
  · simp [hc]

/-- The state from which the requests of a step are computed. -/
theorem PostInv.popped {p : Pda W} {a0 : Aut W} {s : PostSt W σ} (h : PostInv p a0 s) {t : Tr}
    {ws : List Tr} (hws : s.ws = t :: ws) :
    (insertRel p { s with ws := ws } t).aut = s.aut ∧ (insertRel p { s with ws := ws } t).nQ = s.nQ ∧
    (insertRel p { s with ws := ws } t).qPrime = s.qPrime ∧
    (insertRel p { s with ws := ws } t).ws = ws ∧ (insertRel p { s with ws := ws } t).rel1 = s.rel1 ∧
    (insertRel p { s with ws := ws } t).found = s.found ∧
    (insertRel p { s with ws := ws } t).ext = s.ext ∧
    (∀ x, x ∈ (insertRel p { s with ws := ws } t).rel2 ↔
      x ∈ s.rel2 ∨ (x = (t.dst, t.src) ∧ t.label = epsilon ∧ a0.n ≤ t.dst)) := by
  obtain ⟨h1, h2, h3, h4, h5, h6, h7, h8⟩ := insertRel_frame p { s with ws := ws } t
  have ht := (h.wsE t (by simp [hws])).2
  refine ⟨h1, h2, h3, h4, ?_, h7, h8, ?_⟩
  · rw [h5, if_neg (by omega)]
  · intro x
    rw [h6]
    simp only [← h.nQ]
    split
    · rename_i hc; simp [hc]
    · rename_i hc
      constructor
      · exact .inl
      · rintro (h9 | ⟨_, h9⟩)
        · exact h9
        · exact absurd h9 hc

/-- Everything known about the requests of a step. -/
theorem PostInv.reqs {p : Pda W} (hp : p.WF) {a0 : Aut W} (ha : PostOK p a0) {s : PostSt W σ}
    (h : PostInv p a0 s) {t : Tr} {ws : List Tr} (hws : s.ws = t :: ws) (y : PReq) :
    y ∈ postReqs p t (insertRel p { s with ws := ws } t) ↔
      (t.label < p.nLabels ∧ ∃ id r l, (p.st t.src).rules[id]? = some (r, l) ∧
        y ∈ postRuleReqs t s.qPrime s.rel2 ((r, l), id)) ∨
      (t.label = epsilon ∧ ∃ g q, (⟨t.dst, g, q⟩ : Tr) ∈ keys s.aut.edges ∧
        y = (⟨t.src, g, q⟩, Trace.postEps t.dst, true)) := by
  obtain ⟨e1, e2, e3, e4, e5, _, _, e6⟩ := h.popped hws
  have htE := h.wsE t (by simp [hws])
  have hv := h.valid hp ha t htE.1
  have hlab := ha.labels
  unfold postReqs
  rw [e3]
  by_cases ht : t.label = epsilon
  · rw [if_neg (by simp [ht])]
    have hr1 : (insertRel p { s with ws := ws } t).rel1At t.dst = s.rel1At t.dst := by
      unfold PostSt.rel1At; rw [e5]
    rw [hr1]
    constructor
    · intro hy
      obtain ⟨u, hu, rfl⟩ := List.mem_map.1 hy
      unfold PostSt.rel1At at hu
      simp only [List.mem_filter, beq_iff_eq] at hu
      refine .inr ⟨ht, u.label, u.dst, ?_, rfl⟩
      rw [← hu.2]; exact ((h.rel1 u).1 hu.1).1
    · rintro (⟨h1, _⟩ | ⟨_, g, q, h1, rfl⟩)
      · omega
      · refine List.mem_map.2 ⟨⟨t.dst, g, q⟩, ?_, rfl⟩
        unfold PostSt.rel1At
        simp only [List.mem_filter, beq_self_eq_true, and_true]
        exact (h.rel1 _).2 ⟨h1, hv.2.1⟩
  · rw [if_pos ht]
    have hr2 : (insertRel p { s with ws := ws } t).rel2 = s.rel2 := by
      rw [(insertRel_frame p { s with ws := ws } t).2.2.2.2.2.1, if_neg (by simp [ht])]
    rw [hr2]
    have hl : t.label < p.nLabels := by
      rcases hv.2.2.2 with h1 | ⟨h1, _⟩
      · exact h1
      · exact absurd h1 ht
    simp only [List.mem_flatMap, ht, false_and, or_false, hl, true_and]
    constructor
    · rintro ⟨⟨⟨r, l⟩, id⟩, h1, h2⟩
      exact ⟨id, r, l, List.mem_zipIdx_iff_getElem?.1 h1, h2⟩
    · rintro ⟨id, r, l, h1, h2⟩
      exact ⟨((r, l), id), List.mem_zipIdx_iff_getElem?.2 h1, h2⟩

theorem PostInv.reqs_flag {p : Pda W} (hp : p.WF) {a0 : Aut W} (ha : PostOK p a0) {s : PostSt W σ}
    (h : PostInv p a0 s) {t : Tr} {ws : List Tr} (hws : s.ws = t :: ws) :
    ∀ y ∈ postReqs p t (insertRel p { s with ws := ws } t), y.2.2 = decide (y.1.src < p.size) := by
  intro y hy
  have htE := h.wsE t (by simp [hws])
  have hfrom : ∀ m f, (m, f) ∈ s.rel2 → f < p.size := by
    intro m f hmf
    have hv := h.valid hp ha _ (h.rel2E m f hmf)
    have hlab := ha.labels
    rcases hv.2.2.2 with h1 | h1
    · dsimp only at h1; omega
    · exact h1.2
  rcases (h.reqs hp ha hws y).1 hy with ⟨hl, id, r, l, hr, hm⟩ | ⟨_, g, q, _, rfl⟩
  · have hto := hp.toLt _ _ (List.mem_of_getElem? hr)
    dsimp only at hto
    rcases ((mem_postRuleReqs hp hl hr).1 hm).2 with ⟨_, rfl⟩ | ⟨_, rfl⟩ | ⟨_, rfl⟩ |
      ⟨hop, rfl | rfl | ⟨f, hf, rfl⟩⟩
    · simp [hto]
    · simp [hto]
    · simp [hto]
    · simp [hto]
    · have h1 := (h.qok.range _ _ _ (List.mem_of_getElem? hr) hop).1
      have := ha.size_le
      simp; omega
    · simp [hfrom _ _ hf]
  · simp [htE.2]

theorem PostInv.reqs_just {p : Pda W} (hp : p.WF) {a0 : Aut W} (ha : PostOK p a0) {s : PostSt W σ}
    (h : PostInv p a0 s) {t : Tr} {ws : List Tr} (hws : s.ws = t :: ws) :
    ∀ r1 r r2, postReqs p t (insertRel p { s with ws := ws } t) = r1 ++ r :: r2 →
      PostJ p s.qPrime (fun u => u ∈ keys s.aut.edges ∨ u ∈ r1.map Prod.fst) r.1 r.2.1 := by
  obtain ⟨e1, e2, e3, e4, e5, _, _, e6⟩ := h.popped hws
  have htE := h.wsE t (by simp [hws])
  have hv := h.valid hp ha t htE.1
  intro r1 y r2 heq
  by_cases ht : t.label = epsilon
  · have hy : y ∈ postReqs p t (insertRel p { s with ws := ws } t) := by rw [heq]; simp
    rcases (h.reqs hp ha hws y).1 hy with ⟨hl, _⟩ | ⟨_, g, q, hq, rfl⟩
    · have := ha.labels; omega
    · refine .eps (.inl ?_) (.inl hq)
      rw [← ht]; exact htE.1
  · have hl : t.label < p.nLabels := by
      rcases hv.2.2.2 with h1 | ⟨h1, _⟩
      · exact h1
      · exact absurd h1 ht
    unfold postReqs at heq
    rw [if_pos ht, e3] at heq
    have hr2 : (insertRel p { s with ws := ws } t).rel2 = s.rel2 := by
      rw [(insertRel_frame p { s with ws := ws } t).2.2.2.2.2.1, if_neg (by simp [ht])]
    rw [hr2] at heq
    -- find the rule whose requests contain the one in question
    have key : ∀ (xs : List ((Rule W × Labels) × Nat)) (pre : List PReq) (r1 : List PReq),
        (∀ x ∈ xs, (p.st t.src).rules[x.2]? = some x.1) →
        xs.flatMap (postRuleReqs t s.qPrime s.rel2) = r1 ++ y :: r2 →
        PostJ p s.qPrime (fun u => u ∈ keys s.aut.edges ∨ u ∈ (pre ++ r1).map Prod.fst) y.1 y.2.1 := by
      intro xs
      induction xs with
      | nil => intro pre r1 _ h1; simp at h1
      | cons x xs ih =>
        intro pre r1 hx h1
        rw [List.flatMap_cons, List.append_eq_append_iff] at h1
        have hcase : (∃ c, postRuleReqs t s.qPrime s.rel2 x = r1 ++ y :: c) ∨
            ∃ b, r1 = postRuleReqs t s.qPrime s.rel2 x ++ b ∧
              xs.flatMap (postRuleReqs t s.qPrime s.rel2) = b ++ y :: r2 := by
          rcases h1 with ⟨c, h2, h3⟩ | ⟨c, h2, h3⟩
          · exact .inr ⟨c, h2, h3⟩
          · cases c with
            | nil => exact .inr ⟨[], by simpa using h2.symm, by simpa using h3.symm⟩
            | cons z c =>
              simp only [List.cons_append, List.cons.injEq] at h3
              obtain ⟨rfl, h3⟩ := h3
              exact .inl ⟨c, h2⟩
        rcases hcase with ⟨c, h2⟩ | ⟨b, h2, h3⟩
        · obtain ⟨⟨r, l⟩, id⟩ := x
          have hr := hx ((r, l), id) (by simp)
          dsimp only at hr
          have hy : y ∈ postRuleReqs t s.qPrime s.rel2 ((r, l), id) := by rw [h2]; simp
          obtain ⟨hg, hy'⟩ := (mem_postRuleReqs hp hl hr).1 hy
          rcases hy' with ⟨hop, rfl⟩ | ⟨hop, rfl⟩ | ⟨hop, rfl⟩ | ⟨hop, hy'⟩
          · exact .pop hr hg hop (.inl htE.1)
          · exact .swap hr hg hop (.inl htE.1)
          · exact .noop hr hg hop (.inl htE.1)
          · -- a push: the requests are in a fixed order
            have hc := ((hp.mem_expand (List.mem_of_getElem? hr) _).1 hg).1
            unfold postRuleReqs at h2
            simp only [hc, Bool.not_true, Bool.false_eq_true, if_false, hop, List.cons_append,
              List.nil_append] at h2
            rcases r1 with _ | ⟨z1, _ | ⟨z2, r1⟩⟩
            · simp only [List.nil_append, List.cons.injEq] at h2
              obtain ⟨rfl, _⟩ := h2
              exact .push1 hr hg hop (.inl htE.1)
            · simp only [List.cons_append, List.nil_append, List.cons.injEq] at h2
              obtain ⟨rfl, rfl, _⟩ := h2
              exact .push2 hr hg hop (.inl htE.1) (.inr (by simp))
            · simp only [List.cons_append, List.cons.injEq] at h2
              obtain ⟨rfl, rfl, h2⟩ := h2
              have hy2 : y ∈ List.map (fun f => ((⟨f, t.label, t.dst⟩ : Tr),
                  Trace.postEps (qFind s.qPrime (r.to, r.opLabel)), true))
                  (List.map Prod.snd (List.filter (fun x => x.1 == qFind s.qPrime (r.to, r.opLabel))
                    s.rel2)) := by rw [h2]; simp
              simp only [List.mem_map, List.mem_filter, beq_iff_eq, Prod.exists] at hy2
              obtain ⟨f, ⟨m, f', ⟨h5, h6⟩, h7⟩, rfl⟩ := hy2
              subst h6 h7
              exact .eps (.inl (h.rel2E _ _ h5)) (.inr (by simp))
        · have := ih (pre ++ postRuleReqs t s.qPrime s.rel2 x) b (fun z hz => hx z (by simp [hz])) h3
          rw [h2, ← List.append_assoc]
          exact this
    have := key _ [] r1 (fun x hx => List.mem_zipIdx_iff_getElem?.1 hx) heq
    simpa using this

/-! ## Preservation -/

theorem PostInv.step {p : Pda W} (hp : p.WF) {a0 : Aut W} (ha : PostOK p a0) {s : PostSt W σ}
    (h : PostInv p a0 s) (cb : Callback W σ) : PostInv p a0 (postStep p cb s) := by
  rcases hws : s.ws with _ | ⟨t, ws⟩
  · unfold postStep; rw [hws]; exact h
  rw [postStep_eq p cb s t ws hws]
  obtain ⟨e1, e2, e3, e4, e5, _, _, e6⟩ := h.popped hws
  have hflag := h.reqs_flag hp ha hws
  have hjust := h.reqs_just hp ha hws
  have hmem := h.reqs hp ha hws
  have htE := h.wsE t (by simp [hws])
  have hvalid := h.valid hp ha
  have hlabs := ha.labels
  have hsz := ha.size_le
  -- the sources of epsilon transitions are control states
  have hesrc : ∀ f m, (⟨f, epsilon, m⟩ : Tr) ∈ keys s.aut.edges → f < p.size := by
    intro f m hfm
    rcases (hvalid _ hfm).2.2.2 with h1 | h1
    · dsimp only at h1; omega
    · exact h1.2
  generalize insertRel p { s with ws := ws } t = s1 at *
  generalize postReqs p t s1 = rs at *
  have hfr := postReqAll_frame p cb s1 rs
  have hk := postReqAll_keys p cb s1 rs hflag
  rw [e1, e4, e5] at hk
  have hrs : ∀ u, u ∈ rs.map Prod.fst ↔ ∃ y ∈ rs, y.1 = u := by intro u; simp
  have hrel2 : (postReqAll p cb s1 rs).rel2 = s1.rel2 := by
    refine postReqAll_rel2 p cb s1 rs ?_
    intro y hy hf0 heps
    have hge : p.size ≤ y.1.src := by
      have := hflag y hy
      rw [hf0] at this
      simpa using this.symm
    rcases (hmem y).1 hy with ⟨hl, id, r, l, hr, hm⟩ | ⟨_, g, q, _, rfl⟩
    · rcases ((mem_postRuleReqs hp hl hr).1 hm).2 with ⟨_, rfl⟩ | ⟨_, rfl⟩ | ⟨_, rfl⟩ |
        ⟨hop, rfl | rfl | ⟨f, hf, rfl⟩⟩ <;> dsimp only at * <;> (try simp at hf0)
      omega
    · simp at hf0
  have hEsub : ∀ u, u ∈ keys s.aut.edges → u ∈ keys (postReqAll p cb s1 rs).aut.edges :=
    fun u hu => (hk u).1.2 (.inl hu)
  have hreqE : ∀ y ∈ rs, y.1 ∈ keys (postReqAll p cb s1 rs).aut.edges :=
    fun y hy => (hk _).1.2 (.inr ((hrs _).2 ⟨y, hy, rfl⟩))
  -- a transition from a control state outside the new workset is old, and is `t` or was outside
  have hold : ∀ u, u ∈ keys (postReqAll p cb s1 rs).aut.edges → u.src < p.size →
      u ∉ (postReqAll p cb s1 rs).ws → u ∈ keys s.aut.edges ∧ (u = t ∨ u ∉ s.ws) := by
    intro u hu hs hnot
    have huE : u ∈ keys s.aut.edges := by
      rcases (hk u).1.1 hu with h1 | h1
      · exact h1
      · by_contra h2
        exact hnot ((hk u).2.1.2 (.inr ⟨h1, h2, hs⟩))
    refine ⟨huE, ?_⟩
    by_cases hut : u = t
    · exact .inl hut
    · right
      rw [hws]
      intro h3
      rcases List.mem_cons.1 h3 with h3 | h3
      · exact hut h3
      · exact hnot ((hk u).2.1.2 (.inl h3))
  have hn : (postReqAll p cb s1 rs).aut.n = s.aut.n := by unfold Aut.n; rw [hfr.2.2, e1]
  have hbuilt : Built (PostJ p s.qPrime) a0.edges (postReqAll p cb s1 rs).aut.edges := by
    refine postReqAll_built (PostJ.mono p s.qPrime) p cb rs s1 (by rw [e1]; exact h.built) ?_
    intro r1 r r2 heq
    rw [e1]
    exact hjust r1 r r2 heq
  have hvalid' : ∀ u ∈ keys (postReqAll p cb s1 rs).aut.edges, PValid p s.aut.n u :=
    hbuilt.valid_post hp ha.size_le h.le h.qok (ha.pvalid h.le)
  have hesrc' : ∀ f m, (⟨f, epsilon, m⟩ : Tr) ∈ keys (postReqAll p cb s1 rs).aut.edges →
      f < p.size := by
    intro f m hfm
    rcases (hvalid' _ hfm).2.2.2 with h1 | h1
    · dsimp only at h1; omega
    · exact h1.2
  constructor
  · rw [hfr.1, e2]; exact h.nQ
  · rw [hn]; exact h.le
  · rw [hn, hfr.2.1, e3]; exact h.qok
  · rw [hfr.2.2, e1]; exact h.acc
  · rw [hfr.2.1, e3]; exact hbuilt
  · intro u hu
    rcases (hk u).2.1.1 hu with h1 | ⟨h1, h2, h3⟩
    · obtain ⟨h4, h5⟩ := h.wsE u (by rw [hws]; exact List.mem_cons_of_mem _ h1)
      exact ⟨hEsub u h4, h5⟩
    · exact ⟨(hk u).1.2 (.inr h1), h3⟩
  · intro u
    rw [(hk u).2.2, (hk u).1, h.rel1 u]
    by_cases hu : u ∈ keys s.aut.edges <;> simp [hu]
  · intro m f hmf
    rw [hrel2, e6] at hmf
    rcases hmf with h1 | ⟨h1, h2, _⟩
    · exact hEsub _ (h.rel2E m f h1)
    · simp only [Prod.mk.injEq] at h1
      obtain ⟨rfl, rfl⟩ := h1
      rw [← h2]
      exact hEsub _ htE.1
  · intro m f hE hnot hm
    obtain ⟨h1, h2⟩ := hold _ hE (hesrc' _ _ hE) hnot
    rw [hrel2, e6]
    rcases h2 with h2 | h2
    · right
      rw [← h2]
      exact ⟨rfl, rfl, hm⟩
    · exact .inl (h.rel2C m f h1 h2 hm)
  · intro u hu hs hlab hnot id r l hr hc
    rw [hfr.2.1, e3]
    obtain ⟨h1, h2⟩ := hold u hu hs hnot
    rcases h2 with rfl | h2
    · have hl : u.label < p.nLabels := by
        rcases (hvalid u htE.1).2.2.2 with h3 | ⟨h3, _⟩
        · exact h3
        · exact absurd h3 hlab
      have hg := (hp.mem_expand (List.mem_of_getElem? hr) u.label).2 ⟨hc, hl⟩
      have hin : ∀ y, y ∈ postRuleReqs u s.qPrime s.rel2 ((r, l), id) →
          y.1 ∈ keys (postReqAll p cb s1 rs).aut.edges := fun y hy =>
        hreqE y ((hmem y).2 (.inl ⟨hl, id, r, l, hr, hy⟩))
      unfold PostConseq
      cases hop : r.op <;> simp only
      · exact ⟨hin _ ((mem_postRuleReqs hp hl hr).2 ⟨hg, .inr (.inr (.inr ⟨hop, .inl rfl⟩))⟩),
          hin _ ((mem_postRuleReqs hp hl hr).2 ⟨hg, .inr (.inr (.inr ⟨hop, .inr (.inl rfl)⟩))⟩)⟩
      · exact hin _ ((mem_postRuleReqs hp hl hr).2 ⟨hg, .inl ⟨hop, rfl⟩⟩)
      · exact hin _ ((mem_postRuleReqs hp hl hr).2 ⟨hg, .inr (.inl ⟨hop, rfl⟩)⟩)
      · exact hin _ ((mem_postRuleReqs hp hl hr).2 ⟨hg, .inr (.inr (.inl ⟨hop, rfl⟩))⟩)
    · exact (h.ruleC u h1 hs hlab h2 id r l hr hc).mono hEsub
  · intro f m g q hfm hnot hmg
    obtain ⟨h1, h2⟩ := hold _ hfm (hesrc' _ _ hfm) hnot
    by_cases hmE : (⟨m, g, q⟩ : Tr) ∈ keys s.aut.edges
    · rcases h2 with h2 | h2
      · refine hreqE (⟨f, g, q⟩, Trace.postEps m, true) ((hmem _).2 (.inr ?_))
        rw [← h2]
        exact ⟨rfl, g, q, hmE, rfl⟩
      · exact hEsub _ (h.epsC f m g q h1 h2 hmE)
    · have hmsz : p.size ≤ m := (hvalid _ h1).2.1
      obtain ⟨y, hy, hy1⟩ := (hrs _).1 (((hk _).1.1 hmg).resolve_left hmE)
      have hf0 : y.2.2 = false := by
        rw [hflag y hy, hy1]; simp; exact hmsz
      rcases (hmem y).1 hy with ⟨hl, id, r, l, hr, hm⟩ | ⟨_, g', q', _, rfl⟩
      · obtain ⟨hg, hm'⟩ := (mem_postRuleReqs hp hl hr).1 hm
        rcases hm' with ⟨_, rfl⟩ | ⟨_, rfl⟩ | ⟨_, rfl⟩ |
          ⟨hop, rfl | rfl | ⟨f', hf', rfl⟩⟩
        · simp at hf0
        · simp at hf0
        · simp at hf0
        · simp at hf0
        · simp only [Tr.mk.injEq] at hy1
          obtain ⟨rfl, rfl, rfl⟩ := hy1
          have hne : (⟨f, epsilon, qFind s.qPrime (r.to, r.opLabel)⟩ : Tr) ≠ t := by
            intro h3
            rw [← h3] at hl
            dsimp only at hl
            omega
          have h4 := h.rel2C _ _ h1 (h2.resolve_left hne)
            (h.qok.range _ _ _ (List.mem_of_getElem? hr) hop).1
          exact hreqE (⟨f, t.label, t.dst⟩, Trace.postEps (qFind s.qPrime (r.to, r.opLabel)), true)
            ((hmem _).2 (.inl ⟨hl, id, r, l, hr, (mem_postRuleReqs hp hl hr).2
              ⟨hg, .inr (.inr (.inr ⟨hop, .inr (.inr ⟨f, h4, rfl⟩)⟩))⟩⟩))
        · simp at hf0
      · simp at hf0

end

end Verif
