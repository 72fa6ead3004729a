import Verif.Proofs.ShortestPreFinal
import Verif.Proofs.Accepts

/-! # Shortest pre*: the question for a stack of one symbol -/

namespace Verif

variable {W T : Type}
variable [LinearOrder T] [AddCommMonoid T] [LinearOrder W] [Zero W] [IsOrderedCancelAddMonoid T]
variable {p : Pda W} {val : W → T} {a0 : Aut T}

/-- The transition answers the question. -/
def Hits (a : Aut T) (q g : Nat) (t : Tr) : Prop := t.src = q ∧ t.label = g ∧ a.isAcc t.dst = true

/-- Until the answer is yes, no settled transition answers the question; and then one does. -/
def OneI (p : Pda W) (val : W → T) (a0 : Aut T) (q g : Nat) (s : SPreSt T Unit) : Prop :=
  SPreL p val a0 s ∧ (s.found = false → ∀ t, s.Settled t → ¬ Hits a0 q g t) ∧
    (s.found = true → ∃ t x, s.aut.wt t = some x ∧ Hits a0 q g t)

theorem OneI.step (hcx : SPreCtx p val a0) (junk : Nat → Bool) {q g : Nat} {s : SPreSt T Unit} (h : OneI p val a0 q g s)
    (hnf : s.found = false) {e : ShElem T} {r : List (ShElem T)} (hp : (e :: r).Perm s.ws) (hle : ∀ u ∈ r, e.key ≤ u.key) :
    OneI p val a0 q g (spreStepWith val (oneSymbolSCb q g) true junk p { s with ws := r } e) := by
  obtain ⟨hL, h1, h2⟩ := h
  obtain ⟨w, hw, _, _, i1, i2, _, i4⟩ := hL.step_cases hcx (oneSymbolSCb q g) junk hp hle rfl
  generalize spreStepWith val (oneSymbolSCb q g) true junk p { s with ws := r } e = s' at *
  refine ⟨⟨⟨_, i1⟩, i2⟩, ?_⟩
  rcases i4 with ⟨_, g1, g2, _, g3, g4⟩ | ⟨_, g1, g2, _, g3⟩
  · rw [g3, g1]
    refine ⟨fun hf t ht => h1 hf t ?_, h2⟩
    unfold SPreSt.Settled at ht ⊢
    rwa [g1, g4] at ht
  · have hacc : ∀ u, s.aut.isAcc u = a0.isAcc u := by
      intro u
      obtain ⟨⟨κ, hi⟩, _⟩ := hL
      unfold Aut.isAcc; rw [hi.acc]
    have hacc' : ∀ u, s'.aut.isAcc u = a0.isAcc u := by
      intro u
      unfold Aut.isAcc; rw [i1.acc]
    have hhit : ∀ b : Bool, b = (e.edge.src == q && e.edge.label == g && a0.isAcc e.edge.dst) →
        (b = true ↔ Hits a0 q g e.edge) := by
      rintro b rfl
      unfold Hits
      simp only [Bool.and_eq_true, beq_iff_eq, and_assoc]
    have hf : s'.found = true ↔ Hits a0 q g e.edge := by
      apply hhit
      unfold oneSymbolSCb at g3
      dsimp only at g3
      split at g3
      · rw [g3.2, hacc']
      · rw [g3.2, hnf, Bool.or_false, hacc]
    have hset : ∀ t, s'.Settled t → s.Settled t ∨ t = e.edge := by
      rintro t ⟨⟨x, hx⟩, hn⟩
      rcases (g2 t x).2 ⟨hx, hn⟩ with ⟨k1, k2⟩ | ⟨k1, _⟩
      · exact .inl ⟨⟨x, k1⟩, k2⟩
      · exact .inr k1
    refine ⟨fun hff t ht hh => ?_, fun hff => ?_⟩
    · rcases hset t ht with hs | rfl
      · exact h1 hnf t hs hh
      · rw [hf.2 hh] at hff; cases hff
    · obtain ⟨k1, _⟩ := (g2 e.edge w).1 (.inr ⟨rfl, rfl⟩)
      exact ⟨e.edge, w, k1, hf.1 hff⟩

/-- At the end the answer is whether some transition answers the question. -/
theorem one_end (hcx : SPreCtx p val a0) (hp : Heap (ShElem T) (WithTop T) ShElem.key) (h : HashOrder) (junk : Nat → Bool)
    {q g : Nat} {fuel : Nat} {s : SPreSt T Unit}
    (hs : preStarShortest val hp h (oneSymbolSCb q g) true junk p a0 () fuel = some s) :
    SPreL p val a0 s ∧ (s.found = false → s.ws = []) ∧
      (s.found = true ↔ ∃ t x, s.aut.wt t = some x ∧ Hits a0 q g t) := by
  obtain ⟨j1, j2, j3, _, j4, _⟩ := spreInit_inv (σ := Unit) h hcx ()
  have h0 : OneI p val a0 q g (spreInit val h p a0 ()) := by
    refine ⟨j1, fun _ t ht => ?_, fun hf => by rw [j3] at hf; cases hf⟩
    obtain ⟨⟨x, hx⟩, hn⟩ := ht
    obtain ⟨⟨κ, hi⟩, _⟩ := j1
    exfalso
    rw [j2] at hx
    obtain ⟨rfl, ht⟩ := (wt_of_zero hcx.zero t x).1 hx
    refine hn ⟨0, ⟨0, t, {}⟩, by rw [j2]; exact hx, (j4 _).2 ⟨t, ht, rfl⟩, rfl, ?_⟩
    have hk := hi.entry ⟨0, t, {}⟩ ((j4 _).2 ⟨t, ht, rfl⟩)
    obtain ⟨_, _, ⟨y, hy, hle⟩, _⟩ := hk
    dsimp only at hy hle ⊢
    rw [j2, hx] at hy
    cases hy
    refine le_antisymm ?_ hle
    unfold SPreSt.key
    rw [WithTop.coe_zero, add_zero]
    exact hi.mpos _
  obtain ⟨⟨hL, h1, h2⟩, hnone⟩ := whileSome_inv (I := OneI p val a0 q g) (by
    intro s s' hs hst
    unfold spreStep at hst
    split at hst
    · cases hst
    · rename_i hnf
      rcases hpop : hp.pop s.ws with _ | ⟨e, r⟩
      · rw [hpop] at hst; cases hst
      · rw [hpop] at hst
        simp only [Option.map_some, Option.some.injEq] at hst
        obtain ⟨h1, h2⟩ := hp.spec _ _ _ hpop
        rw [← hst]
        exact hs.step hcx junk (by simpa using hnf) h1 h2) h0 hs
  have hws : s.found = false → s.ws = [] := by
    intro hf
    unfold spreStep at hnone
    rw [hf] at hnone
    simp only [Bool.and_false, Bool.false_eq_true, if_false, Option.map_eq_none_iff] at hnone
    exact (hp.none_iff _).1 hnone
  refine ⟨hL, hws, h2, ?_⟩
  rintro ⟨t, x, hx, hh⟩
  by_contra hf
  have hf : s.found = false := by simpa using hf
  refine h1 hf t ⟨⟨x, hx⟩, ?_⟩ hh
  rintro ⟨_, e, _, he, _⟩
  rw [hws hf] at he
  cases he

end Verif
