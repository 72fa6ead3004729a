import Verif.Proofs.ShortestPostFinal
import Verif.Proofs.WeightedTraceBack
import Verif.Props.TraceBack

/-! # Traces after shortest post* -/

namespace Verif

variable {W T : Type} [LinearOrder W] [LinearOrder T] [AddCommMonoid T] [IsOrderedCancelAddMonoid T]

omit [LinearOrder T] [AddCommMonoid T] [IsOrderedCancelAddMonoid T] in
theorem Aut.wt_of_mem {a : Aut T} {t : Tr} (h : t ∈ keys a.edges) : ∃ x, a.wt t = some x := by
  rcases hw : a.wt t with _ | x
  · exact absurd h ((Aut.wt_none_iff a t).1 hw)
  · exact ⟨x, rfl⟩

/-- Unwinding an accepting path of the automaton at any point of shortest post* gives a run of the weight of the path. -/
theorem ShI.trace {p : Pda W} {val : W → T} {a0 : Aut T} {qp : List ((Nat × Nat) × Nat)} {N : Nat} {κ : WithTop T} {s : ShSt T}
    (hc : ShCtx p val a0 qp N) (hi : ShI p val a0 qp N κ s) (hl : p.nLabels < epsilon) (hN : N ≤ sizeMax)
    (h0 : ∀ e ∈ a0.edges, e.2.1 = Trace.null) (path : APath Nat) (hacc : AcceptingPath s.aut p.size path) :
    ∃ cs c', getTrace p s.aut path = some cs ∧ CostTrace p.Has val cs (sumW s.aut path.trs) ∧
      cs.head? = some c' ∧ c'.1 < p.size ∧ Accepted (· ∈ keys a0.edges) (fun q => a0.isAcc q = true) c' ∧
      cs.getLast? = some (confE path) := by
  obtain ⟨hsp, hfr, hfin⟩ := hacc
  have hE : ∀ t ∈ path.trs, t ∈ keys s.aut.edges := (trs_spells _ path.fin path.edges).1 hsp
  have hv : ∀ t ∈ keys s.aut.edges, PValid p N t := by
    intro t ht
    obtain ⟨x, hx⟩ := Aut.wt_of_mem ht
    obtain ⟨k, hk⟩ := hi.autw t x hx
    exact hi.valid t x k hk
  have hfin' : a0.isAcc path.fin = true := (hi.acc _).symm.trans hfin
  have hlt := Aut.isAcc_lt hfin'
  have hround := postTBW_round hc.wf hi.built (HoldsIn.self hi.nodup) hc.size_le hc.valid hc.noInto hv hc.qok hl hN h0
    path.fin hlt
  have hdec : ∀ tb, PostTBW p s.aut.edges path.fin tb → decodeEdges p tb.path = (confE tb.path, sumW s.aut tb.path.trs).1 := by
    intro tb htb
    unfold decodeEdges confE
    congr 1
    apply List.filter_congr
    intro g hg
    have := Props.trs_labels (P := fun g => g < p.nLabels ∨ g = epsilon)
      (fun t ht => by
        rcases (hv t (htb.edges t ht)).2.2.2 with h1 | h1
        · exact .inl h1
        · exact .inr h1.1) g hg
    rw [decide_eq_decide]
    omega
  have hm := Props.pathMeasure_fuel hE
  have hi0 : PostTBW p s.aut.edges path.fin ⟨path, false⟩ := ⟨hE, hfr, rfl⟩
  obtain ⟨rs, cs, tb', h1, h2, h3, h4, h5, h6⟩ := tbAll_specC Prod.fst hround hdec _ _ ⟨path, false⟩ hi0 hm hm
  obtain ⟨x, h7, h8, h9⟩ := h5.costTrace_rev
  dsimp only at h8 h9
  have hz : sumW s.aut tb'.path.trs = 0 := sumW_zero _ _ fun t ht => hi.input t (h4 t ht)
  rw [hz, zero_add] at h8
  subst h8
  have heps : ∀ g ∈ tb'.path.stack, g ≠ epsilon := by
    refine Props.trs_labels (P := fun g => g ≠ epsilon) fun t ht => ?_
    have := (hc.valid t (h4 t ht)).2.1
    omega
  have hce : confE tb'.path = (tb'.path.frontState, tb'.path.stack) := by
    unfold confE
    congr 1
    rw [List.filter_eq_self]
    intro g hg
    simpa using heps g hg
  have hnn : path.isNull = false := by
    have := hc.le
    unfold APath.isNull
    rw [beq_eq_false_iff_ne]
    omega
  refine ⟨_, _, ?_, h7, h9, ?_, ?_, ?_⟩
  · unfold getTrace
    rw [h2, hnn]
    simp only [Bool.false_eq_true, if_false, Option.map_some]
    rw [hdec ⟨path, false⟩ hi0]
    rcases h6 with ⟨rfl, h6⟩ | ⟨_, h6⟩
    · have hcs : cs = [] := by
        generalize (confE path, sumW s.aut path.trs) = c at h5
        generalize (confE tb'.path, sumW s.aut tb'.path.trs) = c' at h5
        cases h5
        rfl
      simp [hcs, h6]
    · simp [h6]
  · rw [hce]; exact h3.front
  · rw [hce]
    refine ⟨tb'.path.fin, ?_, by rw [h3.fin]; exact hfin'⟩
    exact ((trs_spells (· ∈ keys a0.edges) tb'.path.fin tb'.path.edges).2 h4).path tb'.path.head_states tb'.path.last_states
  · simp

end Verif
