import Verif.Proofs.ShortestDualEnd
import Verif.Proofs.ShortestPreSearchTrace

/-! # The back edges after a shortest dual search -/

namespace Verif

open SProd
open Product (Mv PInv)

variable {W T : Type} [LinearOrder W] [Zero W] [LinearOrder T] [AddCommMonoid T] [IsOrderedCancelAddMonoid T]
variable {p : Pda W} {val : W → T} {a b : Aut T} {qp : List ((Nat × Nat) × Nat)} {N : Nat}

/-- The shape of the transitions of post*. -/
theorem FPostDer.shape (hc : ShCtx p val a qp N) {t : Tr} {x : T}
    (h : FPostDer p.Has val (qFind qp) (· ∈ keys a.edges) t x) :
    PValid p N t ∧ (p.size ≤ t.src → t.src < a.n → t ∈ keys a.edges) := by
  have hle := hc.le
  have hsz := hc.size_le
  have hlab := hc.lab
  induction h with
  | @init t h =>
    have h1 := hc.valid t h
    have h2 := hc.noInto t h
    exact ⟨⟨Nat.lt_of_lt_of_le h1.1 hle, h2, Nat.lt_of_lt_of_le h1.2.2 hle, .inl h1.2.1⟩, fun _ _ => h⟩
  | @pop r q x hr _ _ ih =>
    rw [Pda.Has_iff] at hr
    obtain ⟨l, hm, hg⟩ := hr
    have h1 : r.dst < p.size := hc.wf.toLt _ _ hm
    obtain ⟨⟨_, h2, h3, _⟩, _⟩ := ih
    dsimp only at *
    refine ⟨⟨by dsimp only; omega, h2, h3, .inr ⟨rfl, h1⟩⟩, fun h4 _ => ?_⟩
    omega
  | @swap r q x hr hop _ ih =>
    rw [Pda.Has_iff] at hr
    obtain ⟨l, hm, hg⟩ := hr
    have h1 : r.dst < p.size := hc.wf.toLt _ _ hm
    obtain ⟨⟨_, h2, h3, _⟩, _⟩ := ih
    dsimp only at *
    refine ⟨⟨by dsimp only; omega, h2, h3, .inl (hc.wf.opLt _ _ hm (.inr hop))⟩, fun h4 _ => ?_⟩
    omega
  | @noop r q x hr _ _ ih =>
    rw [Pda.Has_iff] at hr
    obtain ⟨l, hm, hg⟩ := hr
    have h1 : r.dst < p.size := hc.wf.toLt _ _ hm
    obtain ⟨⟨_, h2, h3, _⟩, _⟩ := ih
    dsimp only at *
    refine ⟨⟨by dsimp only; omega, h2, h3, .inl ((hc.wf.mem_expand hm _).1 hg).2⟩, fun h4 _ => ?_⟩
    omega
  | @push1 r q x hr hop _ ih =>
    rw [Pda.Has_iff] at hr
    obtain ⟨l, hm, hg⟩ := hr
    have h1 : r.dst < p.size := hc.wf.toLt _ _ hm
    have h2 : a.n ≤ qFind qp (r.dst, r.opLabel) ∧ qFind qp (r.dst, r.opLabel) < N := hc.qok.range _ _ _ hm hop
    dsimp only at *
    refine ⟨⟨by dsimp only; omega, by dsimp only; omega, h2.2, .inl (hc.wf.opLt _ _ hm (.inl hop))⟩, fun h4 _ => ?_⟩
    omega
  | @push2 r q x hr hop _ ih =>
    rw [Pda.Has_iff] at hr
    obtain ⟨l, hm, hg⟩ := hr
    have h2 : a.n ≤ qFind qp (r.dst, r.opLabel) ∧ qFind qp (r.dst, r.opLabel) < N := hc.qok.range _ _ _ hm hop
    obtain ⟨⟨_, h3, h4, _⟩, _⟩ := ih
    dsimp only at *
    refine ⟨⟨h2.2, h3, h4, .inl ((hc.wf.mem_expand hm _).1 hg).2⟩, fun _ h5 => ?_⟩
    omega
  | @eps f m g q x y _ _ ih1 ih2 =>
    obtain ⟨⟨h1, h2, h3, h4⟩, _⟩ := ih1
    obtain ⟨⟨k1, k2, k3, k4⟩, _⟩ := ih2
    dsimp only at *
    have hf : f < p.size := by
      rcases h4 with h4 | h4
      · omega
      · exact h4.2
    refine ⟨⟨h1, k2, k3, ?_⟩, fun h5 _ => ?_⟩
    · rcases k4 with k4 | k4
      · exact .inl k4
      · exact .inr ⟨k4.1, hf⟩
    · omega

/-- No move of the two saturations leads out of these pairs. -/
theorem early_closed_dual (hc : DualCtx p val a b qp N) : Closed true (PostW p val a qp) (PreW p val b) (Early p.size a b) := by
  have hlab := hc.post.lab
  rintro x g y w (⟨rfl, ⟨⟨_, h3, _⟩, h4⟩ | ⟨⟨_, h3, _⟩, h4⟩⟩ | ⟨h0, c, d, ⟨_, h3, _⟩, ⟨_, h4, _⟩, h5⟩) hx
  · obtain ⟨⟨t, h6, h7⟩, _⟩ := hx.dst
    have h8 := hc.post.noInto t h6
    obtain ⟨⟨_, _, _, h9 | h9⟩, _⟩ := FPostDer.shape hc.post h3
    · dsimp only at h9; omega
    · have := h9.2; dsimp only at this; omega
  · have := PreDer.label hc.pre.wf (fun t ht => (hc.pre.valid t ht).2.1) h3
    dsimp only at *
    omega
  · obtain ⟨⟨t, h6, h7⟩, ⟨t', h6', h7'⟩⟩ := hx.dst
    refine hx.snoc ((FPostDer.shape hc.post h3).2 ?_ ?_) (PreDer.old h4 ?_)
    · dsimp only; rw [← h7]; exact hc.post.noInto t h6
    · dsimp only; rw [← h7]; exact (hc.post.valid t h6).2.2
    · dsimp only; rw [← h7']; exact hc.pre.noInto t' h6'

/-- The state of the two saturations and the product at the end of a search that did not end at once. -/
theorem dualSearchAccepts_back (hc : DualCtx p val a b (shQ p a) (shN p a))
    (hp : Heap (ShElem T) (WithTop T) ShElem.key) (hq : Heap (T × Nat) T Prod.fst) (h : HashOrder) (junk : Nat → Bool)
    {best : Nat → T} (hj : ∀ u, 0 ≤ best u) (hno : ¬ CommonConf p a b) {fuel : Nat} {r : SInstance T × Bool}
    (hr : SInstance.dualSearchAccepts val hp hq h junk p (SInstance.ofAutomata p.size a b best) fuel = .ok (some r)) :
    ∃ (st : ShSt T) (pr : SPreSt T (SProd T)) (e : SProd T), ShL p val a (shQ p a) (shN p a) st ∧
      SPreT p b (fun _ => True) (keys b.edges) pr ∧ r.1 = ⟨st.aut, pr.aut, e⟩ ∧
      PInv true st.aut pr.aut e.base ∧ e.base.size = p.size ∧
      ∀ u, Acc e u → BackPath e u (e.walk e.base.aut.n u ⟨u, []⟩) := by
  unfold SInstance.dualSearchAccepts at hr
  dsimp only at hr
  have e1 : (SInstance.ofAutomata p.size a b best).initial = a := rfl
  have e2 : (SInstance.ofAutomata p.size a b best).final = b := rfl
  have e3 : (SInstance.ofAutomata p.size a b best).prod = { base := Product.ofAutomata p.size a b, best := best } := rfl
  rw [e1, e2, e3] at hr
  dsimp only at hr
  obtain ⟨k1, k2, k3, k4⟩ := dualProduct_spec hc h
  have hR : ((Product.ofAutomata p.size a b).initProduct h true true a b).2 = false := by
    rw [Bool.eq_false_iff]
    exact fun hR => hno (k3.1 hR)
  obtain ⟨h1, h2⟩ := dual_linv hc h hj hR
  rw [if_neg (by rw [hR]; decide)] at hr
  split at hr
  · cases hr
  simp only [Except.ok.injEq, Option.map_eq_some_iff] at hr
  obtain ⟨d, d1, d2⟩ := hr
  obtain ⟨_, _, _, hI, _⟩ := dual_end hc hp hq h junk
    (dual_start hq h hc (i := SInstance.ofAutomata p.size a b best) e1 e2 k2 h1 h2) d1
  have hlab := hc.post.lab
  have hb := hI.back _ (early_closed_dual hc) (BInv.start _ _ _ fun u hu hs => by
    have := Early.of_product k1 hc.post.otherAut.noEps (fun t ht => by have := (hc.pre.valid t ht).2.1; omega) hu hs
    rwa [k2] at this)
  refine ⟨d.post.st, d.pre, d.post.ext, hI.post, hI.just, by rw [← d2], hI.l.base, hI.size, fun u hu => ?_⟩
  obtain ⟨_, _, _, h5, _⟩ := hb.path hu.2.1 (by
    rintro ⟨q, w, q1, _, q3, q4⟩
    obtain ⟨f1, f2⟩ := (hI.l.base.acc u hu.2.1).1 hu.2.2
    exact hno ⟨(q, w), q1, ⟨_, q3, (hI.post.facts.1 _).symm.trans f1⟩, ⟨_, q4, (hI.pre.facts.2.2.1 _).symm.trans f2⟩⟩)
  exact h5

end Verif
