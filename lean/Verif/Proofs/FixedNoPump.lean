import Verif.Proofs.FixedPreRounds
import Verif.Proofs.FixedPostRounds
import Verif.Spec.Pump

/-! # If the weights of runs cannot be pumped, the weights that saturation derives cannot be pumped either -/

namespace Verif

variable {W T : Type} [LinearOrder T] [AddCommMonoid T]

/-- A weight that can be increased by `c` can be increased any number of times. -/
theorem pump_all {D : Tr → T → Prop} {t : Tr} {x c : T} (hx : D t x) (hc : ∀ y, D t y → D t (c + y)) (k : Nat) :
    D t (x + k • c) := by
  induction k with
  | zero => rwa [zero_nsmul, add_zero]
  | succ k ih =>
    have := hc _ ih
    rwa [succ_nsmul, ← add_assoc, add_comm (x + k • c) c]

theorem noPump_pre [LinearOrder W] {p : Pda W} {val : W → T} {a : Aut (Trace × T)}
    (hR : ∀ r, p.Has r → r.src < p.size ∧ r.dst < p.size) (hno : ∀ t ∈ keys a.edges, p.size ≤ t.dst)
    (hU : UnpumpedTo p.Has val p.size (· ∈ keys a.edges)) : NoPump (FPreD p val a) := by
  intro t x c hx hc
  have hsem : ∀ k : Nat, FPreSem p.Has val p.size (· ∈ keys a.edges) (· = t.dst) t.src [t.label] (x + k • c) := by
    intro k
    have h0 : FPreSem p.Has val p.size (· ∈ keys a.edges) (· = t.dst) t.dst [] 0 := by
      unfold FPreSem
      split
      · exact ⟨_, .nil _, t.dst, .nil _, rfl⟩
      · exact ⟨rfl, t.dst, .nil _, rfl⟩
    have := preDer_sem hR hno (pump_all hx hc k) [] 0 h0
    rwa [add_zero] at this
  by_cases hlt : t.src < p.size
  · refine hU t.src t.label t.dst hlt x c fun k => ?_
    have := hsem k
    unfold FPreSem at this
    rwa [if_pos hlt] at this
  · have z0 := hsem 0
    have z1 := hsem 1
    unfold FPreSem at z0 z1
    rw [if_neg hlt] at z0 z1
    have e0 := z0.1
    have e1 := z1.1
    rw [zero_nsmul, add_zero] at e0
    rw [one_nsmul, e0, zero_add] at e1
    rw [e1]

/-- From where a derived transition leads something can be read, and the states added for PUSH rules belong to a rule. -/
theorem fpostDer_live {R : URule W → Prop} {val : W → T} {n nQ : Nat} (hnQ : n ≤ nQ) {qf : Nat × Nat → Nat}
    (hq : PushOK R n nQ qf) {E0 : Tr → Prop}
    (h0 : ∀ t, E0 t → t.src < nQ ∧ t.dst < nQ ∧ n ≤ t.dst ∧ t.label ≠ epsilon) {t : Tr} {x : T}
    (h : FPostDer R val qf E0 t x) :
    (∃ f v y, FPostSem R val n nQ qf E0 (· = f) t.dst v y) ∧
      (t.src < nQ ∨ ∃ r, R r ∧ r.op = .push ∧ qf (r.dst, r.opLabel) = t.src) := by
  have low : ∀ r, R r → r.dst < nQ := fun r hr => Nat.lt_of_lt_of_le (hq.range r hr).2.1 hnQ
  induction h with
  | @init t ht =>
    obtain ⟨h1, h2, h3, _⟩ := h0 t ht
    refine ⟨⟨t.dst, [], 0, ?_⟩, .inl h1⟩
    unfold FPostSem
    rw [if_neg (by omega), if_pos h2]
    exact ⟨rfl, t.dst, .nil _, rfl⟩
  | pop hr _ _ ih => exact ⟨ih.1, .inl (low _ hr)⟩
  | swap hr _ _ ih => exact ⟨ih.1, .inl (low _ hr)⟩
  | noop hr _ _ ih => exact ⟨ih.1, .inl (low _ hr)⟩
  | @push1 r q x hr hop hd ih =>
    obtain ⟨⟨f, v, y, hv⟩, _⟩ := ih
    exact ⟨⟨f, _, _, fpostDer_sem hnQ hq h0 (.push2 hr hop hd) v y hv⟩, .inl (low _ hr)⟩
  | push2 hr hop _ ih => exact ⟨ih.1, .inr ⟨_, hr, hop, rfl⟩⟩
  | eps _ _ ih1 ih2 => exact ⟨ih2.1, ih1.2⟩

theorem noPump_post [LinearOrder W] {p : Pda W} {val : W → T} {a : Aut (Trace × T)} {qp : List ((Nat × Nat) × Nat)} {N : Nat}
    (hc : PostCtx p a qp N) (hU : UnpumpedFrom p.Has val p.size (· ∈ keys a.edges)) : NoPump (FPostD p val a qp) := by
  intro t x c hx hcx
  have h0 : ∀ t, t ∈ keys a.edges → t.src < a.n ∧ t.dst < a.n ∧ p.size ≤ t.dst ∧ t.label ≠ epsilon := by
    intro t ht
    have hv := hc.ok.valid t ht
    exact ⟨hv.1, hv.2.2, hc.noInto t ht, by have := hv.2.1; have := hc.lab; omega⟩
  obtain ⟨⟨f, v, y, hv⟩, hsrc⟩ := fpostDer_live hc.ok.size_le hc.pushOK h0 hx
  have hsem : ∀ k : Nat, FPostSem p.Has val p.size a.n (qFind qp) (· ∈ keys a.edges) (· = f) t.src (read t.label v)
      (x + y + k • c) := by
    intro k
    have := fpostDer_sem hc.ok.size_le hc.pushOK h0 (pump_all hx hcx k) v y hv
    rwa [add_right_comm] at this
  by_cases hlt : t.src < p.size
  · refine hU t.src (read t.label v) f hlt (x + y) c fun k => ?_
    have := hsem k
    unfold FPostSem at this
    rwa [if_pos hlt] at this
  · by_cases hlt2 : t.src < a.n
    · have z0 := hsem 0
      have z1 := hsem 1
      unfold FPostSem at z0 z1
      rw [if_neg hlt, if_pos hlt2] at z0 z1
      have e0 := z0.1
      have e1 := z1.1
      rw [zero_nsmul, add_zero] at e0
      rw [one_nsmul, e0, zero_add] at e1
      rw [e1]
    · obtain ⟨r, hr, hop, he⟩ := hsrc.resolve_left hlt2
      refine hU r.dst (r.opLabel :: read t.label v) f (hc.pushOK.range r hr).2.1 (x + y) c fun k => ?_
      have := hsem k
      unfold FPostSem at this
      rw [if_neg hlt, if_neg hlt2] at this
      exact this r hr hop he

/-! ## The loops when nothing waits -/

section
variable {X : Type} [OrderBot T]

omit [AddCommMonoid T] in
/-- The second phase ends at once if nothing waits. -/
theorem fixFinalize_idle (stepWith : Bool → FixSt T X → Tr → FixSt T X) {s : FixSt T X} (h1 : s.workset = []) (h2 : s.next = []) :
    ∃ r, ∀ fuel, 1 ≤ fuel → fixFinalize stepWith fuel s = some r := by
  unfold fixFinalize fixLoop
  by_cases hd : ({ s with rounds := 0 } : FixSt T X).isDone = true
  · refine ⟨{ s with rounds := 0 }, fun fuel _ => ?_⟩
    cases fuel <;> simp [whileSome, hd]
  · refine ⟨fixStep stepWith true { s with rounds := 0 }, fun fuel hf => ?_⟩
    obtain ⟨fuel, rfl⟩ : ∃ k, fuel = k + 1 := ⟨fuel - 1, by omega⟩
    have hstep : (fixStep stepWith true { s with rounds := 0 }).isDone = true := by
      unfold fixStep
      simp only [h1, h2, if_true]
      simp [FixSt.isDone]
    rw [whileSome, if_neg hd]
    dsimp only
    cases fuel <;> simp [whileSome, hstep]

omit [AddCommMonoid T] [LinearOrder T] [OrderBot T] in
/-- A loop that steps two states ends if the loop for the first one ends. -/
theorem whileSome_pair {A B : Type} {f : A → Option A} {g : A × B → Option (A × B)}
    (hfg : ∀ a b, f a = none → g (a, b) = none) (hgf : ∀ a b a' x, f a = some a' → g (a, b) = some x → x.1 = a')
    {fuel : Nat} {a r : A} (h : whileSome f fuel a = some r) (b : B) : ∃ x, whileSome g fuel (a, b) = some x := by
  induction fuel generalizing a b with
  | zero =>
    unfold whileSome at h ⊢
    cases hf : f a with
    | none => rw [hfg a b hf]; exact ⟨_, rfl⟩
    | some a' => rw [hf] at h; cases h
  | succ fuel ih =>
    unfold whileSome at h ⊢
    cases hg : g (a, b) with
    | none => exact ⟨_, rfl⟩
    | some x =>
      cases hf : f a with
      | none => rw [hfg a b hf] at hg; cases hg
      | some a' =>
        rw [hf] at h
        obtain ⟨a1, b1⟩ := x
        have : a1 = a' := hgf a b a' _ hf hg
        subst this
        exact ih h b1

end

end Verif
