import Verif.Proofs.FixedFrame
import Verif.Proofs.PostFinal

/-! # Weighted post*: derivations, soundness and completeness, for any way of computing the weights -/

namespace Verif

variable {W T : Type}

/-- The weights that post* can derive for a transition; `qf` gives the state added for a PUSH rule. -/
inductive FPostDer [AddCommMonoid T] (R : URule W → Prop) (val : W → T) (qf : Nat × Nat → Nat) (E0 : Tr → Prop) :
    Tr → T → Prop where
  | init {t : Tr} : E0 t → FPostDer R val qf E0 t 0
  | pop {r : URule W} {q : Nat} {x : T} : R r → r.op = .pop → FPostDer R val qf E0 ⟨r.src, r.pre, q⟩ x →
      FPostDer R val qf E0 ⟨r.dst, epsilon, q⟩ (x + val r.weight)
  | swap {r : URule W} {q : Nat} {x : T} : R r → r.op = .swap → FPostDer R val qf E0 ⟨r.src, r.pre, q⟩ x →
      FPostDer R val qf E0 ⟨r.dst, r.opLabel, q⟩ (x + val r.weight)
  | noop {r : URule W} {q : Nat} {x : T} : R r → r.op = .noop → FPostDer R val qf E0 ⟨r.src, r.pre, q⟩ x →
      FPostDer R val qf E0 ⟨r.dst, r.pre, q⟩ (x + val r.weight)
  | push1 {r : URule W} {q : Nat} {x : T} : R r → r.op = .push → FPostDer R val qf E0 ⟨r.src, r.pre, q⟩ x →
      FPostDer R val qf E0 ⟨r.dst, r.opLabel, qf (r.dst, r.opLabel)⟩ 0
  | push2 {r : URule W} {q : Nat} {x : T} : R r → r.op = .push → FPostDer R val qf E0 ⟨r.src, r.pre, q⟩ x →
      FPostDer R val qf E0 ⟨qf (r.dst, r.opLabel), r.pre, q⟩ (x + val r.weight)
  | eps {f m g q : Nat} {x y : T} : FPostDer R val qf E0 ⟨f, epsilon, m⟩ x → FPostDer R val qf E0 ⟨m, g, q⟩ y →
      FPostDer R val qf E0 ⟨f, g, q⟩ (y + x)

/-! ## Soundness -/

section
variable [AddCommMonoid T]

/-- What a path from `q` that reads `v` with weight `y` stands for. -/
def FPostSem (R : URule W → Prop) (val : W → T) (n nQ : Nat) (qf : Nat × Nat → Nat) (E0 : Tr → Prop) (F : Nat → Prop)
    (q : Nat) (v : List Nat) (y : T) : Prop :=
  if q < n then ∃ c, c.1 < n ∧ Accepted E0 F c ∧ CostRun R val c y (q, v)
  else if q < nQ then y = 0 ∧ ∃ f, Path E0 q v f ∧ F f
  else ∀ r, R r → r.op = .push → qf (r.dst, r.opLabel) = q →
    ∃ c, c.1 < n ∧ Accepted E0 F c ∧ CostRun R val c y (r.dst, r.opLabel :: v)

/-- What soundness needs to know about rules and added states. -/
structure PushOK (R : URule W → Prop) (n nQ : Nat) (qf : Nat × Nat → Nat) : Prop where
  range : ∀ r, R r → r.src < n ∧ r.dst < n ∧ r.pre ≠ epsilon ∧ (r.op = .push ∨ r.op = .swap → r.opLabel ≠ epsilon)
  new : ∀ r, R r → r.op = .push → nQ ≤ qf (r.dst, r.opLabel)
  inj : ∀ r r', R r → R r' → r.op = .push → r'.op = .push → qf (r.dst, r.opLabel) = qf (r'.dst, r'.opLabel) →
    r.dst = r'.dst ∧ r.opLabel = r'.opLabel

theorem fpostDer_sem {R : URule W → Prop} {val : W → T} {n nQ : Nat} (hnQ : n ≤ nQ) {qf : Nat × Nat → Nat}
    (hq : PushOK R n nQ qf) {E0 : Tr → Prop} {F : Nat → Prop}
    (h0 : ∀ t, E0 t → t.src < nQ ∧ t.dst < nQ ∧ n ≤ t.dst ∧ t.label ≠ epsilon) {t : Tr} {x : T}
    (h : FPostDer R val qf E0 t x) :
    ∀ v y, FPostSem R val n nQ qf E0 F t.dst v y → FPostSem R val n nQ qf E0 F t.src (read t.label v) (x + y) := by
  have app : ∀ {r : URule W} {q : Nat} {x : T}, R r →
      (∀ v y, FPostSem R val n nQ qf E0 F q v y → FPostSem R val n nQ qf E0 F r.src (read r.pre v) (x + y)) →
      ∀ v y, FPostSem R val n nQ qf E0 F q v y →
      ∃ c, c.1 < n ∧ Accepted E0 F c ∧ CostRun R val c (x + val r.weight + y) (r.dst, effect r.op r.pre r.opLabel v) := by
    intro r q x hr ih v y hv
    obtain ⟨h1, h2, h3, _⟩ := hq.range r hr
    have := ih v y hv
    unfold FPostSem read at this
    rw [if_pos h1, if_neg h3] at this
    obtain ⟨c, hc, ha, hrun⟩ := this
    refine ⟨c, hc, ha, ?_⟩
    have := hrun.snoc hr
    rwa [add_right_comm] at this
  induction h with
  | @init t ht =>
    intro v y hv
    obtain ⟨h1, h2, h3, h4⟩ := h0 t ht
    unfold FPostSem read at *
    rw [if_neg (by omega), if_pos h2] at hv
    rw [if_neg h4]
    obtain ⟨rfl, f, hf, hF⟩ := hv
    have hpath : Path E0 t.src (t.label :: v) f := Path.cons ht hf
    rw [add_zero]
    split
    · rename_i hs
      exact ⟨(t.src, t.label :: v), hs, ⟨f, hpath, hF⟩, .nil _⟩
    · exact ⟨rfl, f, hpath, hF⟩
  | @pop r q x hr hop _ ih =>
    intro v y hv
    have := app hr ih v y hv
    dsimp only
    unfold FPostSem read
    rw [if_pos (hq.range r hr).2.1, if_pos rfl]
    simpa [hop, effect] using this
  | @swap r q x hr hop _ ih =>
    intro v y hv
    have := app hr ih v y hv
    dsimp only
    unfold FPostSem read
    rw [if_pos (hq.range r hr).2.1, if_neg ((hq.range r hr).2.2.2 (.inr hop))]
    simpa [hop, effect] using this
  | @noop r q x hr hop _ ih =>
    intro v y hv
    have := app hr ih v y hv
    dsimp only
    unfold FPostSem read
    rw [if_pos (hq.range r hr).2.1, if_neg (hq.range r hr).2.2.1]
    simpa [hop, effect] using this
  | @push1 r q x hr hop _ ih =>
    intro v y hv
    have hnew := hq.new r hr hop
    dsimp only at hv ⊢
    unfold FPostSem at hv
    rw [if_neg (by omega), if_neg (by omega)] at hv
    unfold FPostSem read
    rw [if_pos (hq.range r hr).2.1, if_neg ((hq.range r hr).2.2.2 (.inl hop)), zero_add]
    exact hv r hr hop rfl
  | @push2 r q x hr hop _ ih =>
    intro v y hv
    have := app hr ih v y hv
    have hnew := hq.new r hr hop
    dsimp only
    unfold FPostSem read
    rw [if_neg (by omega), if_neg (by omega), if_neg (hq.range r hr).2.2.1]
    intro r' hr' hop' heq
    obtain ⟨h1, h2⟩ := hq.inj r' r hr' hr hop' hop heq
    rw [h1, h2]
    simpa [hop, effect] using this
  | @eps f m g q x y _ _ ih1 ih2 =>
    intro v z hv
    have := ih1 _ _ (ih2 v z hv)
    rw [← add_assoc, add_comm x y] at this
    simpa [read] using this

/-- Soundness: the weight of an accepting path is the weight of a run. -/
theorem fpost_sound {R : URule W → Prop} {val : W → T} {n nQ : Nat} (hnQ : n ≤ nQ) {qf : Nat × Nat → Nat}
    (hq : PushOK R n nQ qf) {E0 : Tr → Prop} {F : Nat → Prop}
    (h0 : ∀ t, E0 t → t.src < nQ ∧ t.dst < nQ ∧ n ≤ t.dst ∧ t.label ≠ epsilon) (hF : ∀ f, F f → f < nQ)
    {E : Tr → T → Prop} (hE : ∀ t x, E t x → FPostDer R val qf E0 t x) {q f : Nat} {w : List Nat} {x : T}
    (hp : CostEPath E q w x f) (hf : F f) : FPostSem R val n nQ qf E0 F q w x := by
  induction hp with
  | nil q =>
    unfold FPostSem
    split
    · rename_i h; exact ⟨(q, []), h, ⟨q, .nil q, hf⟩, .nil _⟩
    · rw [if_pos (hF q hf)]
      exact ⟨rfl, q, .nil q, hf⟩
  | cons hne he _ ih =>
    have := fpostDer_sem hnQ hq h0 (hE _ _ he) _ _ (ih hf)
    simpa [read, hne] using this
  | eps he _ ih =>
    have := fpostDer_sem hnQ hq h0 (hE _ _ he) _ _ (ih hf)
    simpa [read] using this

end

/-! ## Completeness -/

section
variable [LinearOrder T] [AddCommMonoid T] [IsOrderedAddMonoid T]

/-- The weights are closed under the saturation rules of post*. -/
structure FPostClosed (R : URule W → Prop) (val : W → T) (n : Nat) (E : Tr → T → Prop) : Prop where
  into : ∀ t x, E t x → n ≤ t.dst
  eps : ∀ t x, E t x → t.label = epsilon → t.src < n
  pre : ∀ r, R r → r.pre ≠ epsilon ∧ (r.op = .push ∨ r.op = .swap → r.opLabel ≠ epsilon)
  rule : ∀ r, R r → ∀ q x, E ⟨r.src, r.pre, q⟩ x → match r.op with
    | .pop => ∃ z, E ⟨r.dst, epsilon, q⟩ z ∧ z ≤ x + val r.weight
    | .swap => ∃ z, E ⟨r.dst, r.opLabel, q⟩ z ∧ z ≤ x + val r.weight
    | .noop => ∃ z, E ⟨r.dst, r.pre, q⟩ z ∧ z ≤ x + val r.weight
    | .push => ∃ m z1 z2, E ⟨r.dst, r.opLabel, m⟩ z1 ∧ z1 ≤ 0 ∧ E ⟨m, r.pre, q⟩ z2 ∧ z2 ≤ x + val r.weight
  trans : ∀ f m g q x y, E ⟨f, epsilon, m⟩ x → E ⟨m, g, q⟩ y → ∃ z, E ⟨f, g, q⟩ z ∧ z ≤ y + x

omit [IsOrderedAddMonoid T] in
/-- From a state that is not a control state a path reads no epsilon. -/
theorem FPostClosed.path {R : URule W → Prop} {val : W → T} {n : Nat} {E : Tr → T → Prop} (hE : FPostClosed R val n E)
    {q f : Nat} {w : List Nat} {x : T} (h : CostEPath E q w x f) (hq : n ≤ q) : CostPath E q w x f := by
  induction h with
  | nil q => exact .nil q
  | cons hne he _ ih => exact .cons he (ih (hE.into _ _ he))
  | eps he _ _ =>
    have := hE.eps _ _ he rfl
    dsimp only at this
    omega

/-- The first symbol can be read by a single transition, at no higher weight. -/
theorem FPostClosed.first {R : URule W → Prop} {val : W → T} {n : Nat} {E : Tr → T → Prop} (hE : FPostClosed R val n E)
    {q f g : Nat} {w : List Nat} {c : T} (h : CostEPath E q (g :: w) c f) :
    ∃ q' x y, g ≠ epsilon ∧ E ⟨q, g, q'⟩ x ∧ CostEPath E q' w y f ∧ x + y ≤ c := by
  generalize hv : g :: w = v at h
  cases h with
  | nil => simp at hv
  | cons hne he hp =>
    simp only [List.cons.injEq] at hv
    obtain ⟨rfl, rfl⟩ := hv
    exact ⟨_, _, _, hne, he, hp, le_rfl⟩
  | @eps _ m _ _ x y he hp =>
    subst hv
    cases hp with
    | @cons _ _ q' _ _ x' y' hne he2 hp2 =>
      obtain ⟨z, hz, hle⟩ := hE.trans _ _ _ _ _ _ he he2
      refine ⟨_, z, y', hne, hz, hp2, ?_⟩
      rw [← add_assoc, add_comm x x']
      exact add_le_add hle le_rfl
    | eps he2 _ =>
      have := hE.eps _ _ he2 rfl
      have := hE.into _ _ he
      dsimp only at *
      omega

theorem FPostClosed.step {R : URule W → Prop} {val : W → T} {n : Nat} {E : Tr → T → Prop} {F : Nat → Prop}
    (hE : FPostClosed R val n E) {r : URule W} (hr : R r) {w : List Nat} {c : T}
    (hc : c ∈ EPathWeights E F (r.src, r.pre :: w)) :
    ∃ c' ∈ EPathWeights E F (r.dst, effect r.op r.pre r.opLabel w), c' ≤ c + val r.weight := by
  obtain ⟨f, hp, hF⟩ := hc
  dsimp only at hp
  obtain ⟨q, x, y, hne, he, hp', hle⟩ := hE.first hp
  have h := hE.rule r hr q x he
  have hpre := (hE.pre r hr).2
  have fin : ∀ z, z ≤ x + val r.weight → z + y ≤ c + val r.weight := by
    intro z hz
    refine le_trans (add_le_add hz le_rfl) ?_
    rw [add_right_comm]
    exact add_le_add hle le_rfl
  cases hop : r.op <;> simp only [hop, effect] at h ⊢
  · obtain ⟨m, z1, z2, h1, h2, h3, h4⟩ := h
    refine ⟨z1 + (z2 + y), ⟨f, .cons (hpre (.inl hop)) h1 (.cons hne h3 hp'), hF⟩, ?_⟩
    refine le_trans (add_le_add h2 (fin z2 h4)) ?_
    rw [zero_add]
  · obtain ⟨z, h1, h2⟩ := h
    exact ⟨z + y, ⟨f, .eps h1 hp', hF⟩, fin z h2⟩
  · obtain ⟨z, h1, h2⟩ := h
    exact ⟨z + y, ⟨f, .cons (hpre (.inr hop)) h1 hp', hF⟩, fin z h2⟩
  · obtain ⟨z, h1, h2⟩ := h
    exact ⟨z + y, ⟨f, .cons hne h1 hp', hF⟩, fin z h2⟩

/-- Completeness: every run continues accepting paths at no higher weight. -/
theorem FPostClosed.run {R : URule W → Prop} {val : W → T} {n : Nat} {E : Tr → T → Prop} {F : Nat → Prop}
    (hE : FPostClosed R val n E) {c c' : Config} {x : T} (hs : CostRun R val c x c') {b : T}
    (hb : ∃ y ∈ EPathWeights E F c, y ≤ b) : ∃ y ∈ EPathWeights E F c', y ≤ b + x := by
  induction hs generalizing b with
  | nil c => rw [add_zero]; exact hb
  | cons r w x c hr _ ih =>
    obtain ⟨y, hy, hle⟩ := hb
    obtain ⟨z, hz, hle'⟩ := hE.step hr hy
    rw [← add_assoc]
    exact ih ⟨z, hz, le_trans hle' (add_le_add hle le_rfl)⟩

end

end Verif
