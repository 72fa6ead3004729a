import Verif.Model.ShortestRuleTrace
import Verif.Proofs.ShortestPostTrace
import Verif.Proofs.ShortestPreSearchTrace

/-! # The rules of a trace after shortest post* -/

namespace Verif

open SProd Product

variable {W T : Type}

/-- The rules have a counterpart each in the PDA that differs at most in the weight, and those weights have the sum `x`. -/
def Reweighted [AddCommMonoid T] (p : Pda W) (val : W → T) (rs : List (URule W)) (x : T) : Prop :=
  ∃ ws : List W, List.Forall₂ (fun (r : URule W) w => p.Has { r with weight := w }) rs ws ∧ (ws.map val).sum = x

theorem Trail.run_rev_cost [AddCommMonoid T] {p : Pda W} {val : W → T} {c c' : Config × T} {rs : List (URule W)}
    {cs : List (Config × T)}
    (h : Trail (fun c r c' => ∃ w, Move (fun r => p.Has { r with weight := w }) c'.1 r c.1 ∧ c.2 = c'.2 + val w) c rs cs c') :
    Run c'.1 rs.reverse c.1 ∧ ∃ x, Reweighted p val rs.reverse x ∧ c.2 = c'.2 + x := by
  induction h with
  | nil c => exact ⟨.nil _, 0, ⟨[], .nil, rfl⟩, (add_zero _).symm⟩
  | @cons c c1 c2 r rs cs hm _ ih =>
    obtain ⟨w, ⟨st, hok, h1, h2⟩, h3⟩ := hm
    obtain ⟨h4, x, ⟨ws, h5, h6⟩, h7⟩ := ih
    refine ⟨?_, x + val w, ⟨ws ++ [w], ?_, ?_⟩, ?_⟩
    · rw [List.reverse_cons]
      rw [h1] at h4
      rw [h2]
      exact h4.append (.cons r st [] _ (.nil _))
    · rw [List.reverse_cons]
      exact List.rel_append h5 (.cons hok .nil)
    · rw [List.map_append, List.sum_append, h6]
      simp
    · rw [h3, h7, add_assoc]

theorem tbAll_bare [Zero W] (p : Pda W) (a : Aut T) (f k : Nat) (tb : TB) :
    tbAll p (a.bare : Aut W) f k tb = tbAll p a f k tb := by
  induction k generalizing tb with
  | zero => rfl
  | succ k ih => simp only [tbAll, tbNext_bare, ih]

theorem tbFuel_bare [Zero W] (a : Aut T) (path : APath Nat) : tbFuel (a.bare : Aut W) path = tbFuel a path := by
  unfold tbFuel
  simp [Aut.bare]

variable [LinearOrder W] [LinearOrder T] [AddCommMonoid T] [IsOrderedCancelAddMonoid T]
variable {p : Pda W} {val : W → T} {a b A : Aut T} {qp : List ((Nat × Nat) × Nat)} {N : Nat} {e : SProd T}

/-- The rules of `TraceBack` for an accepting path of the automaton after the search, and the path that is left. -/
theorem PostEnd.unwind (hc : SearchCtx p val a b qp N) (he : PostEnd p val a b qp N A e) (hl : p.nLabels < epsilon) (hN : N ≤ sizeMax)
    (h0 : ∀ x ∈ a.edges, x.2.1 = Trace.null) (path : APath Nat) (hacc : AcceptingPath A p.size path) :
    ∃ rs tb, tbAll p A (tbFuel A path) (tbFuel A path) { path := path } = some (rs, tb) ∧
      (rs = [] ∧ tb.post = false ∨ rs ≠ [] ∧ tb.post = true) ∧ tb.path.pathAndStack = (tb.path.states, tb.path.stack) ∧
      Run (tb.path.frontState, tb.path.stack) rs.reverse (confE path) ∧ Reweighted p val rs.reverse (sumW A path.trs) ∧
      tb.path.frontState < p.size ∧ Spells (· ∈ keys a.edges) tb.path.states tb.path.stack ∧ a.isAcc tb.path.fin = true := by
  have plain : ∀ pa : APath Nat, (∀ t ∈ pa.trs, t ∈ keys a.edges) →
      pa.pathAndStack = (pa.states, pa.stack) ∧ confE pa = (pa.frontState, pa.stack) ∧
      Spells (· ∈ keys a.edges) pa.states pa.stack := by
    intro pa hE
    have heps : ∀ g ∈ pa.stack, g ≠ epsilon := by
      refine Props.trs_labels (P := fun g => g ≠ epsilon) fun t ht => ?_
      have := (hc.ctx.valid t (hE t ht)).2.1
      omega
    refine ⟨?_, ?_, (trs_spells _ pa.fin pa.edges).2 hE⟩
    · rw [APath.stack_eq] at *
      have : (pa.edges.filter fun x => decide (x.1 ≠ epsilon)) = pa.edges := by
        rw [List.filter_eq_self]
        intro x hx
        simpa using heps x.1 (List.mem_map_of_mem hx)
      rw [APath.pathAndStack_eq, this]
      rfl
    · unfold confE
      congr 1
      rw [List.filter_eq_self]
      intro g hg
      simpa using heps g hg
  rcases he.aut with rfl | ⟨κ, s, hi, rfl⟩
  · obtain ⟨hsp, hfr, hfin⟩ := hacc
    have hE : ∀ t ∈ path.trs, t ∈ keys A.edges := (trs_spells _ path.fin path.edges).1 hsp
    obtain ⟨h1, h2, h3⟩ := plain path hE
    have h4 := tbNext_untraced (p := p) h0 hE (path.edges.length * 3 ^ A.edges.length)
    refine ⟨[], { path := path }, ?_, .inl ⟨rfl, rfl⟩, h1, ?_, ⟨[], .nil, ?_⟩, hfr, h3, hfin⟩
    · unfold tbFuel tbAll
      rw [h4]
    · rw [h2]
      exact .nil _
    · exact (sumW_zero _ _ fun t ht => (wt_of_zero hc.ctx.zero t 0).2 ⟨rfl, hE t ht⟩).symm
  · obtain ⟨hsp, hfr, hfin⟩ := hacc
    have hE : ∀ t ∈ path.trs, t ∈ keys s.aut.edges := (trs_spells _ path.fin path.edges).1 hsp
    have hv : ∀ t ∈ keys s.aut.edges, PValid p N t := by
      intro t ht
      obtain ⟨x, hx⟩ := Aut.wt_of_mem ht
      obtain ⟨k, hk⟩ := hi.autw t x hx
      exact hi.valid t x k hk
    have hfin' : a.isAcc path.fin = true := (hi.acc _).symm.trans hfin
    have hround := postTBW_round hc.ctx.wf hi.built (HoldsIn.self hi.nodup) hc.ctx.size_le hc.ctx.valid hc.ctx.noInto hv
      hc.ctx.qok hl hN h0 path.fin (Aut.isAcc_lt hfin')
    have hdec : ∀ tb, PostTBW p s.aut.edges path.fin tb → decodeEdges p tb.path = (confE tb.path, sumW s.aut tb.path.trs).1 := by
      intro tb htb
      unfold decodeEdges confE
      congr 1
      apply List.filter_congr
      intro g hg
      have := Props.trs_labels (P := fun g => g < p.nLabels ∨ g = epsilon)
        (fun t ht => by
          rcases (hv t (htb.edges t ht)).2.2.2 with h1 | h1
          · exact .inl h1
          · exact .inr h1.1) g hg
      rw [decide_eq_decide]
      omega
    have hm := Props.pathMeasure_fuel hE
    have hi0 : PostTBW p s.aut.edges path.fin ⟨path, false⟩ := ⟨hE, hfr, rfl⟩
    obtain ⟨rs, cs, tb', h1, _, h3, h4, h5, h6⟩ := tbAll_specC Prod.fst hround hdec _ _ ⟨path, false⟩ hi0 hm hm
    obtain ⟨h7, x, h8, h9⟩ := h5.run_rev_cost
    obtain ⟨k1, k2, k3⟩ := plain tb'.path h4
    dsimp only at h7 h9
    rw [sumW_zero _ tb'.path.trs fun t ht => hi.input t (h4 t ht), zero_add] at h9
    rw [k2] at h7
    rw [h9]
    exact ⟨rs, tb', h1, h6, k1, h7, h8, h3.front, k3, by rw [h3.fin]; exact hfin'⟩

end Verif
