import Verif.Proofs.FixedLoop
import Verif.Props.FixedPoint
import Verif.Proofs.FixedSearch

/-!
# C70: the fixed-point search when weights are not bounded below

`FP.run` is `PAutomatonFixedPoint::run()`, `getWeight` is `get_weight()` and `getPathWithLoop` is `get_path_with_loop`.
Unlike in C46 and C63 there may be cycles of negative weight.
-/

namespace Verif.Props

open Verif.WAut

section
variable {T : Type} [LinearOrder T] [AddCommMonoid T] [IsOrderedAddMonoid T] [OrderTop T] [OrderBot T]

/-- C70: whatever cycles there are, `not_accepting()` holds exactly if there is no accepting path. -/
theorem c70_accepting (A : WAut T) (hA : A.OK) (h0 : (0 : T) ≠ ⊤) (hadd : ∀ a b : T, a ≠ ⊤ → b ≠ ⊤ → a + b ≠ ⊤)
    (fuel : Nat) (r : FP T) (hr : FP.run A fuel (FP.init A) = some r) :
    r.notAccepting = true ↔ ¬ ∃ i p a w, A.Accepting i p a w := by
  unfold FP.notAccepting
  rcases hm : r.minAcc with _ | a
  · exact ⟨fun _ => FP.run_accepting hA h0 hadd hr hm, fun _ => rfl⟩
  · refine ⟨fun h => (by cases h), fun h => (h ?_).elim⟩
    obtain ⟨hW, hmin⟩ := FP.run_web hA h0 hadd hr
    obtain ⟨P, k, i, _, hi, _, _, w, hp⟩ := FP.getPathWithLoop_part hW hm (hmin a hm).2
    exact ⟨i, _, a, w, hi, hp, (hmin a hm).1⟩

/-- C70: `get_weight()` is `bottom()` exactly if a negative cycle lies on an accepting path, or an accepting path has
that weight itself. -/
theorem c70_infinite (A : WAut T) (hA : A.OK) (h0 : (0 : T) ≠ ⊤) (hadd : ∀ a b : T, a ≠ ⊤ → b ≠ ⊤ → a + b ≠ ⊤)
    (hB : Bottomed T) (fuel : Nat) (r : FP T) (hr : FP.run A fuel (FP.init A) = some r) :
    r.getWeight = some ⊥ ↔ ¬ A.NoNegativeCycle ∨ ∃ i p a, A.Accepting i p a ⊥ := by
  constructor
  · intro h
    by_cases hN : A.NoNegativeCycle
    · exact .inr ((c46_minimum A hA hN h0 hadd fuel r hr).2 _ h).1
    · exact .inl hN
  · intro h
    by_cases hN : A.NoNegativeCycle
    · rcases h with h | ⟨i, p, a, h⟩
      · exact absurd hN h
      · have hacc : ¬ r.notAccepting = true := fun hn =>
          (c70_accepting A hA h0 hadd fuel r hr).1 hn ⟨i, p, a, ⊥, h⟩
        unfold FP.notAccepting at hacc
        rcases hm : r.minAcc with _ | b
        · rw [hm] at hacc; exact absurd rfl hacc
        · have hw : r.getWeight = some (r.d b) := by unfold FP.getWeight; rw [hm]; rfl
          have := ((c46_minimum A hA hN h0 hadd fuel r hr).2 _ hw).2 i p a ⊥ h
          rw [hw, le_bot_iff.1 this]
    · obtain ⟨a, h1, h2⟩ := FP.run_unbounded hA h0 hadd hB hr hN
      unfold FP.getWeight
      rw [h1]
      exact congrArg some h2

/-- C70: if there is an accepting path then `get_path_with_loop` returns, also along a negative cycle, and what it
returns is an accepting path, with the states mapped by the given function. -/
theorem c70_path {S : Type} (f : Nat → S) (A : WAut T) (hA : A.OK) (h0 : (0 : T) ≠ ⊤)
    (hadd : ∀ a b : T, a ≠ ⊤ → b ≠ ⊤ → a + b ≠ ⊤) (fuel : Nat) (r : FP T)
    (hr : FP.run A fuel (FP.init A) = some r) (hacc : r.notAccepting = false) :
    ∃ (p : APath Nat) (w : T) (fuel' : Nat), (∀ k, fuel' ≤ k → r.getPathWithLoop f k = some (p.map f)) ∧
      A.Accepting p.frontState (p.stack.zip p.states.tail) p.fin w := by
  unfold FP.notAccepting at hacc
  rcases hm : r.minAcc with _ | a
  · rw [hm] at hacc; cases hacc
  · obtain ⟨hW, hmin⟩ := FP.run_web hA h0 hadd hr
    obtain ⟨P, k, i, h1, hi, h2, h3, w, hp⟩ := FP.getPathWithLoop_part hW hm (hmin a hm).2
    refine ⟨P, w, k, ?_, ?_⟩
    · intro k' hk'
      rw [FP.getPathWithLoop_map, h1 k' hk']
      rfl
    · rw [h2, h3]
      exact ⟨hi, hp, (hmin a hm).1⟩

end

/-! ## The solver -/

section
variable {T : Type} [LinearOrder T] [AddCommMonoid T]

/-- The set contains the weights of something that can be repeated, each time improving the weight by the same
amount. -/
def Pumped [OrderTop T] (R : Set T) : Prop :=
  ∃ x y z : T, x ≠ ⊤ ∧ z ≠ ⊤ ∧ y < 0 ∧ ∀ k : Nat, x + k • y + z ∈ R

end

end Verif.Props

namespace Verif.Product

open WAut

variable {T : Type} [LinearOrder T] [AddCommMonoid T] [IsOrderedAddMonoid T] [OrderTop T] [OrderBot T]
  {A B : Aut (Trace × T)} {s : Product (Trace × T)}

omit [LinearOrder T] [IsOrderedAddMonoid T] [OrderTop T] [OrderBot T] in
/-- An accepting path of the product gives a path of the first automaton. -/
theorem FixedEnd.meet (h : HashOrder) {size : Nat} (hE : FixedEnd size A B s)
    (hBe : ∀ t ∈ keys B.edges, t.label ≠ epsilon) {P : APath Nat} {w : T}
    (hacc : (s.wAut h).Accepting P.frontState (FP.steps P) P.fin w) :
    MeetPath size A B (P.map fun q => (s.orig q).1) w := by
  obtain ⟨hi, hpath, hfin⟩ := hacc
  have hi : P.frontState < s.size := hi
  obtain ⟨_, c2, c3⟩ := hE.inv.costPath hE.ann hBe hpath
  have hfr : (P.map fun q => (s.orig q).1).frontState = P.frontState := by
    rw [APath.frontState_map, orig_lt hi]
  have hf := (hE.inv.acc P.fin (Aut.isAcc_lt hfin)).1 hfin
  refine ⟨by rw [hfr, ← hE.size]; exact hi, ?_, ?_, ?_⟩
  · obtain ⟨fin, es⟩ := P
    exact hE.spells (h := h) fin es _ hpath
  · exact hf.1
  · rw [hfr, APath.stack_map]
    rw [orig_lt hi] at c2
    have hword : wordOf (FP.steps P) = P.stack.filter fun g => decide (g ≠ epsilon) := by
      unfold wordOf FP.steps
      rw [List.map_fst_zip]
      · congr 1
        funext g
        by_cases hg : g = epsilon <;> simp [hg]
      · rw [APath.stack_eq]
        unfold APath.states
        simp
    rw [hword] at c2
    exact ⟨_, c2.toPath hBe, hf.2⟩

/-- What `find_path_fixed_point` returns if there is a negative cycle. -/
theorem FixedEnd.find_neg (h : HashOrder) {size : Nat} (hE : FixedEnd size A B s)
    (hBe : ∀ t ∈ keys B.edges, t.label ≠ epsilon) (hw : ∀ t x, pairWts A t x → x ≠ ⊤) (h0 : (0 : T) ≠ ⊤)
    (hadd : ∀ a b : T, a ≠ ⊤ → b ≠ ⊤ → a + b ≠ ⊤) (hB : Bottomed T) (hN : ¬ (s.wAut h).NoNegativeCycle) :
    ∃ fuel0 P w, (∀ fuel, fuel0 ≤ fuel → s.findPathFixedPoint h fuel = some (P, ⊥)) ∧
      Props.Pumped (MeetWeights size A B) ∧ MeetPath size A B P w := by
  obtain ⟨fuel1, r, hr⟩ := FP.run_terminates (A := s.wAut h)
  have hOK := hE.ok h hw
  have hacc := fun x => hE.inv.accepting (h := h) hE.ann hE.complete hBe x
  rw [hE.size] at hacc
  have hmono : ∀ fuel, fuel1 ≤ fuel → FP.run (s.wAut h) fuel (FP.init (s.wAut h)) = some r := by
    intro fuel hle
    unfold FP.run at hr ⊢
    rcases h1 : FP.loop (s.wAut h) false fuel1 (FP.init (s.wAut h)) with _ | s1
    · rw [h1] at hr; cases hr
    · rw [h1] at hr
      have h2 : FP.loop (s.wAut h) false fuel (FP.init (s.wAut h)) = some s1 := Reducer.whileSome_mono hle h1
      rw [h2]
      exact Reducer.whileSome_mono hle hr
  have hwt := (Props.c70_infinite _ hOK h0 hadd hB fuel1 r hr).2 (.inl hN)
  have hna : r.notAccepting = false := by
    unfold FP.getWeight at hwt
    unfold FP.notAccepting
    rcases hm : r.minAcc with _ | a
    · rw [hm] at hwt; cases hwt
    · rfl
  obtain ⟨P, w, fuel2, h1, h2⟩ := Props.c70_path (fun q => (s.orig q).1) _ hOK h0 hadd fuel1 r hr hna
  refine ⟨max fuel1 fuel2, P.map fun q => (s.orig q).1, w, ?_, ?_, hE.meet h hBe h2⟩
  · intro fuel hle
    unfold findPathFixedPoint
    rw [hmono fuel (by omega)]
    simp only [Option.bind_some]
    unfold fixedPointPath
    rw [hwt]
    dsimp only
    rw [if_pos rfl, h1 fuel (by omega)]
    rfl
  · unfold WAut.NoNegativeCycle at hN
    simp only [not_forall] at hN
    obtain ⟨i, v, a, p, c, q, w, x, y, hi, hp, hc, hq, ha, hx⟩ := hN
    refine ⟨w, x, y, hp.ne_top hOK h0 hadd, hq.ne_top hOK h0 hadd, not_le.1 hx, fun k => ?_⟩
    obtain ⟨c', hc'⟩ := hc.power k
    exact (hacc _).1 ⟨i, _, a, hi, (hp.append hc').append hq, ha⟩

end Verif.Product
