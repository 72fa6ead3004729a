import Verif.Proofs.ShortestPreFinal
import Verif.Proofs.ShortestPostSearch

/-! # Shortest pre* with early termination on the product -/

namespace Verif

variable {W T σ : Type} [LinearOrder W] [Zero W] [LinearOrder T] [AddCommMonoid T] [IsOrderedCancelAddMonoid T]
variable {p : Pda W} {val : W → T} {a0 : Aut T}

open SProd
open Product (Mv PInv PExt EdgeOK InRange ann)

/-! ## Weights that are at least those of `E` -/

/-- The transition has a weight of at most `x`. -/
def Above (E : Tr → T → Prop) (t : Tr) (x : T) : Prop := ∃ y, E t y ∧ y ≤ x

omit [LinearOrder W] [Zero W] [AddCommMonoid T] [IsOrderedCancelAddMonoid T] in
theorem Above.of {E : Tr → T → Prop} {t : Tr} {x : T} (h : E t x) : Above E t x := ⟨x, h, le_refl _⟩

theorem Above.path {E : Tr → T → Prop} {q f : Nat} {w : List Nat} {x : T} (h : CostEPath (Above E) q w x f) :
    ∃ y, CostEPath E q w y f ∧ y ≤ x := by
  induction h with
  | nil q => exact ⟨0, .nil q, le_refl _⟩
  | cons hg he _ ih =>
    obtain ⟨y, h1, h2⟩ := ih
    obtain ⟨z, h3, h4⟩ := he
    exact ⟨z + y, .cons hg h3 h1, add_le_add h4 h2⟩
  | eps he _ ih =>
    obtain ⟨y, h1, h2⟩ := ih
    obtain ⟨z, h3, h4⟩ := he
    exact ⟨z + y, .eps h3 h1, add_le_add h4 h2⟩

theorem CostEPath.plain {E : Tr → T → Prop} (hE : ∀ t x, E t x → t.label ≠ epsilon) {q f : Nat} {w : List Nat} {x : T}
    (h : CostEPath E q w x f) : CostPath E q w x f := by
  induction h with
  | nil q => exact .nil q
  | cons _ he _ ih => exact .cons he ih
  | eps he _ _ => exact absurd rfl (hE _ _ he)

theorem CostPath.withEps {E : Tr → T → Prop} (hE : ∀ t x, E t x → t.label ≠ epsilon) {q f : Nat} {w : List Nat} {x : T}
    (h : CostPath E q w x f) : CostEPath E q w x f := by
  induction h with
  | nil q => exact .nil q
  | cons he _ ih => exact .cons (hE _ _ he) he ih

theorem PreDer.nonneg {R : URule W → Prop} {E0 : Tr → Prop} (hR : ∀ r, R r → 0 ≤ val r.weight) {t : Tr} {x : T}
    (h : PreDer R val E0 t x) : 0 ≤ x := by
  induction h with
  | init => exact le_refl _
  | pop hr _ => exact hR _ hr
  | swap hr _ _ ih => exact add_nonneg (hR _ hr) ih
  | noop hr _ _ ih => exact add_nonneg (hR _ hr) ih
  | push hr _ _ _ i1 i2 => exact add_nonneg (add_nonneg (hR _ hr) i1) i2

theorem PreDer.label {E0 : Tr → Prop} (hw : p.WF) (h0 : ∀ t, E0 t → t.label < p.nLabels) {t : Tr} {x : T}
    (h : PreDer p.Has val E0 t x) : t.label < p.nLabels := by
  have hR : ∀ r, p.Has r → r.pre < p.nLabels := by
    intro r hr
    rw [Pda.Has_iff] at hr
    obtain ⟨l, hm, hg⟩ := hr
    exact ((hw.mem_expand hm r.pre).1 hg).2
  cases h with
  | init h => exact h0 _ h
  | pop hr _ => exact hR _ hr
  | swap hr _ _ => exact hR _ hr
  | noop hr _ _ => exact hR _ hr
  | push hr _ _ _ => exact hR _ hr

/-! ## While the saturation runs -/

/-- The transitions that have been processed, with their weights, which do not change any more. -/
def SPreSt.Done (s : SPreSt T σ) (t : Tr) (x : T) : Prop := s.aut.wt t = some x ∧ ¬ s.Pend t

/-- While the saturation runs: every run to the input language is represented already by processed transitions, and
weighs no less, or its weight is at least the least key in the queue. -/
theorem SPreL.below (hcx : SPreCtx p val a0) (hk : p.LookupOK) (hp : Heap (ShElem T) (WithTop T) ShElem.key) {s : SPreSt T σ}
    (hs : SPreL p val a0 s) {c : Config} {x : T}
    (hx : x ∈ RunWeightsTo p.Has val (· ∈ keys a0.edges) (fun q => a0.isAcc q = true) c) (k0 : WithTop T)
    (hk0 : ∀ e ∈ s.ws, k0 ≤ e.key) :
    (∃ y ∈ PathWeights s.Done (fun q => a0.isAcc q = true) c, y ≤ x) ∨ k0 ≤ (x : WithTop T) := by
  have hs0 : SPreL p val a0 ({ s with found := false } : SPreSt T σ) := by
    obtain ⟨⟨κ, hi⟩, hC⟩ := hs
    exact ⟨⟨κ, hi.withExt s.ext false⟩, hC.withExt s.ext false⟩
  let cb : SCallback T σ := fun _ e _ _ _ => (e, false)
  obtain ⟨fuel, r, hr⟩ := spre_terminates hcx hp cb (fun _ => false) hs0
  obtain ⟨⟨hL, hnf, hq1, hq2⟩, hnone⟩ := whileSome_inv (I := fun s' : SPreSt T σ => SPreL p val a0 s' ∧ s'.found = false ∧
      (∀ e ∈ s'.ws, k0 ≤ e.key) ∧ ∀ t x, s'.aut.wt t = some x → k0 ≤ s'.key t x ∨ s.Done t x) (by
    rintro s1 s2 ⟨h1, hf, h2, h3⟩ hst
    unfold spreStep at hst
    rw [if_neg (by rw [hf]; decide)] at hst
    rcases hpop : hp.pop s1.ws with _ | ⟨e, r⟩
    · rw [hpop] at hst; cases hst
    · rw [hpop] at hst
      simp only [Option.map_some, Option.some.injEq] at hst
      obtain ⟨g1, g2⟩ := hp.spec _ _ _ hpop
      have hmem : ∀ u, u ∈ s1.ws ↔ u = e ∨ u ∈ r := fun u => by rw [← g1.mem_iff, List.mem_cons]
      obtain ⟨w, c1, c2, _, c4, c5, c6, c7⟩ := h1.step_cases hcx cb (fun _ => false) g1 g2 hst.symm
      refine ⟨⟨⟨_, c4⟩, c5⟩, ?_⟩
      have hke : k0 ≤ e.key := h2 e ((hmem e).2 (.inl rfl))
      have hq : ∀ u ∈ s2.ws, k0 ≤ u.key := fun u hu => le_trans hke (c4.entry u hu).1
      have hfix := fun t x h => (let ⟨⟨_, hi⟩, _⟩ := h1; hi.fix t x h : s1.Fix p (fun _ => False) t.dst)
      have hkeep : ∀ t x, s1.aut.wt t = some x → s2.key t x = s1.key t x := by
        intro t x ht
        unfold SPreSt.key
        rw [c6 _ (hfix t x ht)]
      have hpend : ∀ t x, s2.aut.wt t = some x → s2.Pend t → k0 ≤ s2.key t x := by
        rintro t x ht ⟨x', e', f1, f2, f3, f4⟩
        rw [ht] at f1
        cases f1
        rw [← f4]
        exact hq e' f2
      rcases c7 with ⟨_, d1, d2, d3, d4, d5⟩ | ⟨d1, d2, d3, d4, d5⟩
      · refine ⟨by rw [d4]; exact hf, hq, ?_⟩
        intro t x ht
        rw [d1] at ht
        rw [hkeep t x ht]
        exact h3 t x ht
      · refine ⟨?_, hq, ?_⟩
        · dsimp only [cb] at d5
          split at d5
          · exact d5.2
          · rw [d5.2, hf]; rfl
        · intro t x ht
          by_cases hpd : s2.Pend t
          · exact .inl (hpend t x ht hpd)
          · rcases (d3 t x).2 ⟨ht, hpd⟩ with ⟨k1, _⟩ | ⟨rfl, rfl⟩
            · rw [hkeep t x k1]
              exact h3 t x k1
            · rw [hkeep _ _ c1, d1]
              exact .inl hke) (by
    refine ⟨hs0, rfl, hk0, ?_⟩
    intro t x ht
    by_cases hpd : s.Pend t
    · obtain ⟨x', e', f1, f2, f3, f4⟩ := hpd
      have ht' : s.aut.wt t = some x := ht
      rw [ht'] at f1
      cases f1
      left
      show k0 ≤ s.key t x
      rw [← f4]
      exact hk0 e' f2
    · exact .inr ⟨ht, hpd⟩) hr
  have hws : r.ws = [] := by
    unfold spreStep at hnone
    rw [hnf] at hnone
    simp only [Bool.and_false, Bool.false_eq_true, if_false, Option.map_eq_none_iff] at hnone
    exact (hp.none_iff _).1 hnone
  have hcl := hL.closed hcx hk hws
  obtain ⟨⟨κ, hi⟩, _⟩ := hL
  obtain ⟨c', hrun, f, hpath, hF⟩ := hx
  have key : ∀ {q w f}, Path (· ∈ keys a0.edges) q w f → CostPath (fun t x => r.aut.wt t = some x) q w 0 f := by
    intro q w f hp
    induction hp with
    | nil q => exact .nil q
    | cons he _ ih =>
      have h2 := CostPath.cons (E := fun t x => r.aut.wt t = some x) (hi.input _ he) ih
      rwa [add_zero] at h2
  obtain ⟨z, ⟨f', hz, hF'⟩, hzle⟩ := hcl.run (F := fun q => a0.isAcc q = true) hrun (b := 0) ⟨0, ⟨f, key hpath, hF⟩, le_refl _⟩
  rw [add_zero] at hzle
  have hbig : p.size ≤ f' := by
    by_contra hn
    rw [hcx.noAcc f' (Nat.lt_of_not_le hn)] at hF'
    cases hF'
  have hset : ∀ t, ¬ r.Pend t := by
    rintro t ⟨_, e, _, he, _⟩
    rw [hws] at he
    cases he
  have walk : ∀ {q w y f}, CostPath (fun t x => r.aut.wt t = some x) q w y f → p.size ≤ f →
      0 ≤ y ∧ (w = [] ∧ q = f ∨ r.minpath q ≤ (y : WithTop T)) ∧ (CostPath s.Done q w y f ∨ k0 ≤ (y : WithTop T)) := by
    intro q w y f hp
    induction hp with
    | nil q => exact fun _ => ⟨le_refl _, .inl ⟨rfl, rfl⟩, .inl (.nil q)⟩
    | @cons q g m f w x y he hp ih =>
      intro hf
      obtain ⟨i1, i2, i3⟩ := ih hf
      have hx0 := hi.pos _ _ he
      have hmp : r.minpath m ≤ (y : WithTop T) := by
        rcases i2 with ⟨_, rfl⟩ | i2
        · have := hi.bigDst _ _ he hf
          dsimp only at this
          rw [this, ← WithTop.coe_zero]
          exact WithTop.coe_le_coe.2 i1
        · exact i2
      have hke : r.key ⟨q, g, m⟩ x ≤ ((x + y : T) : WithTop T) := by
        unfold SPreSt.key
        rw [add_comm x y, WithTop.coe_add]
        exact add_le_add hmp (le_refl _)
      refine ⟨add_nonneg hx0 i1, .inr (le_trans (hi.tri _ _ he ?_) hke), ?_⟩
      · by_cases hq : p.size ≤ q
        · exact .inl hq
        · exact .inr ((hi.settled _ _ he (hset _)).2.2 (Nat.lt_of_not_le hq))
      · rcases hq2 _ _ he with h1 | h1
        · exact .inr (le_trans h1 hke)
        · rcases i3 with i3 | i3
          · exact .inl (.cons h1 i3)
          · exact .inr (le_trans i3 (WithTop.coe_le_coe.2 (le_add_of_nonneg_left hx0)))
  obtain ⟨_, _, h3⟩ := walk hz hbig
  rcases h3 with h3 | h3
  · exact .inl ⟨z, ⟨f', h3, hF'⟩, hzle⟩
  · exact .inr (le_trans h3 (WithTop.coe_le_coe.2 hzle))

/-! ## The product after `initialize_product` without back edges -/

/-- The invariant holds of the product before anything is announced, whatever the members `_best_weight` hold, as long
as it is not negative. -/
theorem base_linv {dual : Bool} {SA SB : Tr → T → Prop} {A B : Aut T} {b : Product T} (hb : PInv dual A B b)
    (hA : ∀ t ∈ keys A.edges, ∀ x, 0 ≤ x → SA t x) (hB : ∀ t ∈ keys B.edges, SB t 0)
    (hBe : ∀ t ∈ keys B.edges, t.label ≠ epsilon) (hacc : ∀ u, b.size ≤ u → u < b.aut.n → b.aut.isAcc u = false)
    {best : Nat → T} (hj : ∀ u, 0 ≤ best u) :
    LInv dual SA SB A B { prod := ({ base := b, best := best } : SProd T) } := by
  refine ⟨hb, ?_, fun _ _ => rfl, ?_, (fun _ he => by cases he), (fun _ _ he => by cases he), (fun _ he => by cases he)⟩
  · intro u hu
    dsimp only at hu ⊢
    have hmove : ∀ x g y, Mv A B x g y → ∀ k : T, 0 ≤ k → MvR dual SA SB x g y k := by
      rintro x g y (⟨rfl, ⟨h1, h2⟩ | ⟨h1, h2⟩⟩ | ⟨h0, h1, h2⟩) k hk
      · exact .inl ⟨rfl, .inl ⟨hA _ h1 k hk, h2⟩⟩
      · exact absurd rfl (hBe _ h1)
      · exact .inr ⟨h0, k, 0, hA _ h1 k hk, hB _ h2, by cases dual <;> simp⟩
    have hpath : ∀ {v w u}, Path (· ∈ keys b.aut.edges) v w u → v = u ∨ ∀ k : T, 0 ≤ k → PPath (MvR dual SA SB) (b.orig v) k (b.orig u) := by
      intro v w u h
      induction h with
      | nil => exact .inl rfl
      | cons he _ ih =>
        right
        intro k hk
        have hm := (hb.edges _ he).2.2
        rcases ih with rfl | ih
        · have := PPath.snoc (M := MvR dual SA SB) .nil (hmove _ _ _ hm k hk)
          rwa [zero_add] at this
        · have := PPath.cons (M := MvR dual SA SB) (hmove _ _ _ hm 0 (le_refl _)) (ih k hk)
          rwa [zero_add] at this
    obtain ⟨q, hq, w, h1⟩ := hb.reach u hu
    unfold SProd.key
    dsimp only
    split
    · rename_i hlt
      exact ⟨u, hlt, by rw [Product.orig_lt hlt]; exact .nil⟩
    · rename_i hge
      refine ⟨q, hq, ?_⟩
      rcases hpath h1 with rfl | h2
      · exact absurd hq hge
      · have := h2 (best u) (hj u)
        rwa [Product.orig_lt hq] at this
  · intro u h1 h2 h3
    dsimp only at h1 h2 h3
    rw [hacc u h1 h2] at h3
    cases h3

/-! ## The search -/

/-- The weights that can be derived for the transitions of pre*, and larger ones. -/
abbrev PreW (p : Pda W) (val : W → T) (b : Aut T) : Tr → T → Prop := Above (PreDer p.Has val (· ∈ keys b.edges))

/-- The setting: `a` is the initial automaton and `b` the final one, which is saturated. -/
structure PreSearchCtx (p : Pda W) (val : W → T) (a b : Aut T) : Prop where
  ctx : SPreCtx p val b
  lookup : p.LookupOK
  lab : p.nLabels ≤ epsilon
  other : OtherAut p a

variable {a b : Aut T}

theorem SPreCtx.preW_nonneg (hc : SPreCtx p val b) : NonNeg (PreW p val b) := by
  rintro t x ⟨y, h1, h2⟩
  refine le_trans (PreDer.nonneg (fun r hr => ?_) h1) h2
  rw [Pda.Has_iff] at hr
  obtain ⟨l, hm, _⟩ := hr
  exact hc.nonneg _ _ hm

/-- Facts about the automaton while pre* runs. -/
theorem SPreL.facts {s : SPreSt T σ} (h : SPreL p val b s) : InRange s.aut ∧ s.aut.n = b.n ∧ (∀ q, s.aut.isAcc q = b.isAcc q) ∧
    (∀ t x, s.aut.wt t = some x → PreW p val b t x) ∧ (∀ t x, s.aut.wt t = some x → t.label < p.nLabels) := by
  obtain ⟨⟨κ, hi⟩, _⟩ := h
  have hn : s.aut.n = b.n := by unfold Aut.n; rw [hi.acc]
  refine ⟨?_, hn, fun q => by unfold Aut.isAcc; rw [hi.acc], fun t x hx => .of (hi.der t x hx), fun t x hx => (hi.valid t x hx).2.1⟩
  intro t ht
  have := hi.valid t _ (SProd.wt_ann ht)
  rw [hn]
  exact ⟨this.1, this.2.2⟩

omit [Zero W] [IsOrderedCancelAddMonoid T] [LinearOrder W] in
theorem keys_of_bound {s s' : SPreSt T σ} (h : ∀ u y, s.Bound u y → s'.Bound u y) : ∀ t ∈ keys s.aut.edges, t ∈ keys s'.aut.edges := by
  intro t ht
  obtain ⟨x, hx, _⟩ := h t _ ⟨_, SProd.wt_ann ht, le_refl _⟩
  exact SProd.mem_of_wt hx

/-- What holds while pre* runs with the product, which was `e0` in the beginning. -/
structure PreSearchI (p : Pda W) (val : W → T) (a b : Aut T) (e0 : SProd T) (s : SPreSt T (SProd T)) : Prop where
  loop : SPreL p val b s
  size : s.ext.base.size = p.size
  l : LInv false (PreW p val b) (WtOf a) s.aut a { prod := s.ext }
  tri : s.found = false → Tri (MvR false s.Done (WtOf a)) s.ext fun _ => True
  pos : s.found = false → ∀ u, Acc s.ext u → 0 < s.ext.best u
  hit : s.found = true → ∃ u, Acc s.ext u
  least : s.found = true → ∀ x ∈ Between p val a b, ∃ u, Acc s.ext u ∧ s.ext.best u ≤ x
  back : BKeep false (PreW p val b) (WtOf a) e0 s.ext

/-- Every run leads to an accepting state of the product that weighs no more, or weighs at least the least key. -/
theorem presearch_lower (hc : PreSearchCtx p val a b) (hp : Heap (ShElem T) (WithTop T) ShElem.key) {σ : Type} {s : SPreSt T σ} {ext : SProd T}
    (hL : SPreL p val b s) (hsz : ext.base.size = p.size)
    (hl : LInv false (PreW p val b) (WtOf a) s.aut a { prod := ext }) (ht : Tri (MvR false s.Done (WtOf a)) ext fun _ => True)
    {x : T} (hx : x ∈ Between p val a b) (k0 : WithTop T) (hk0 : ∀ e ∈ s.ws, k0 ≤ e.key) :
    (∃ u, Acc ext u ∧ ext.best u ≤ x) ∨ k0 ≤ (x : WithTop T) := by
  obtain ⟨c, c', h1, ⟨f, h2, h2'⟩, h3, h4⟩ := hx
  obtain ⟨_, _, hacc, _, hlab⟩ := hL.facts
  rcases hL.below hc.ctx hc.lookup hp (c := c) ⟨c', h3, h4⟩ k0 hk0 with ⟨y, ⟨f', g1, g2⟩, g3⟩ | h
  · left
    have hl1 := hc.lab
    have hpath := PPath.merge (dual := false) (fun t y hy => hc.other.noEps t (SProd.mem_of_wt hy))
      (g1.withEps fun t x hx => by have := hlab t x hx.1; omega) (hc.other.path h2)
    obtain ⟨v, v1, v2, v3, v4⟩ := ht.path (by have := hl.base.n; dsimp only at this; omega) (by rw [hsz]; exact h1) hpath
    have hva : ext.base.aut.isAcc v = true := by
      rw [hl.base.acc v v1]
      dsimp only
      rw [v2]
      exact ⟨by rw [hacc]; exact g2, h2'⟩
    have hA : Acc ext v := acc_of hl (fun q hq => by
      rw [hacc, hc.ctx.noAcc q (by rw [← hsz]; exact hq)]
      rintro ⟨h, _⟩
      cases h) v1 hva
    refine ⟨v, hA, ?_⟩
    rw [← key_of_acc hA]
    exact le_trans v4 g3
  · exact .inr h

/-- The weight of an accepting state is at least the weight of a run. -/
theorem presearch_sound (hc : PreSearchCtx p val a b) {σ : Type} {s : SPreSt T σ} {ext : SProd T} (hL : SPreL p val b s)
    (hsz : ext.base.size = p.size) (hl : LInv false (PreW p val b) (WtOf a) s.aut a { prod := ext }) {u : Nat} (hu : Acc ext u) :
    ∃ x ∈ Between p val a b, x ≤ ext.best u := by
  obtain ⟨_, _, hacc, _, _⟩ := hL.facts
  obtain ⟨q, q1, q2⟩ := hl.sound u hu.2.1
  obtain ⟨w, c, d, p1, p2, p3⟩ := q2.split fun t y hy => hc.other.noEps t (SProd.mem_of_wt hy)
  obtain ⟨f1, f2⟩ := (hl.base.acc u hu.2.1).1 hu.2.2
  have hk : ext.best u = c := by
    rw [← key_of_acc hu]
    simpa using p3
  rw [hk]
  dsimp only at f1 f2 p1 p2 q1
  rw [hacc] at f1
  rw [hsz] at q1
  obtain ⟨c', r1, r2⟩ := Above.path p1
  have hl1 := hc.lab
  have h1 := fpre_sound (F := fun q => b.isAcc q = true) (n := p.size) (fun r hr => by
      rw [Pda.Has_iff] at hr
      obtain ⟨l, hm, _⟩ := hr
      obtain ⟨i, hi⟩ := List.mem_iff_getElem?.1 hm
      exact ⟨Pda.lt_size_of_rule hi, hc.ctx.wf.toLt _ _ hm⟩) hc.ctx.noInto (fun _ _ h => h)
    (r1.plain fun t x hx => by
      have := PreDer.label hc.ctx.wf (fun t ht => (hc.ctx.valid t ht).2.1) hx
      omega) f1
  unfold FPreSem at h1
  rw [if_pos q1] at h1
  obtain ⟨c1, g1, g2⟩ := h1
  exact ⟨c', ⟨(q, w), c1, q1, ⟨_, (hc.other.path' p2).1, f2⟩, g1, g2⟩, r2⟩

/-- A call of the callback. -/
theorem pre_announce (hc : PreSearchCtx p val a b) (hq : Heap (T × Nat) T Prod.fst) (h : HashOrder) {A : Aut T} (hrA : InRange A)
    (hA : ∀ t x, A.wt t = some x → PreW p val b t x) (hAb : ∀ q, A.isAcc q = b.isAcc q) {e : SProd T} (hsz : e.base.size = p.size)
    (hl : LInv false (PreW p val b) (WtOf a) A a { prod := e }) {D D' : Tr → T → Prop} {t : Tr} {tr : Trace} {w : T} (k : WithTop T)
    (htri : Tri (MvR false D (WtOf a)) e fun _ => True) (hw : A.wt t = some w) (hD' : ∀ u x, D' u x → A.wt u = some x)
    (hD : ∀ u x, D' u x → D u x ∨ u = t) :
    let r := SInstance.cbFirst hq h false a A e t (tr, w) k
    LInv false (PreW p val b) (WtOf a) A a { prod := r.1 } ∧ r.1.base.size = p.size ∧ (∀ u, Acc e u → Acc r.1 u ∧ r.1.best u ≤ e.best u) ∧
      (r.2 = true → ∃ u, Acc r.1 u ∧ (r.1.best u : WithTop T) ≤ k) ∧
      (r.2 = false → Tri (MvR false D' (WtOf a)) r.1 (fun _ => True) ∧ ∀ u, Acc r.1 u → k < (r.1.best u : WithTop T)) ∧
      BKeep false (PreW p val b) (WtOf a) e r.1 := by
  intro r
  obtain ⟨d1, d2, d3, d4, d5⟩ := addEdge_spec hq h (inFirst := true) (dual := false) (M := MvR false D (WtOf a))
    (M' := MvR false D' (WtOf a)) hrA hc.other.range hc.ctx.preW_nonneg hc.other.nonneg hA (fun _ _ h => h) (by simp)
    t (tr, w) k (by simpa using hw) ⟨hl, htri⟩ (fun _ _ _ _ h => h.mono hD' fun _ _ h => h) (by
      rintro x g y z (⟨rfl, ⟨h3, h4⟩ | ⟨h3, h4⟩⟩ | ⟨h0, c, d, h3, h4, h5⟩)
      · rcases hD _ _ h3 with h1 | h1
        · exact .inl (.inl ⟨rfl, .inl ⟨h1, h4⟩⟩)
        · exact .inr (.inl ⟨rfl, .inl ⟨⟨hD' _ _ h3, by simpa using h1⟩, h4⟩⟩)
      · exact .inl (.inl ⟨rfl, .inr ⟨h3, h4⟩⟩)
      · rcases hD _ _ h3 with h1 | h1
        · exact .inl (.inr ⟨h0, c, d, h1, h4, h5⟩)
        · exact .inr (.inr ⟨h0, c, d, ⟨hD' _ _ h3, by simpa using h1⟩, ⟨h4, by simpa using h0⟩, h5⟩))
  have hr : r = addEdge hq h true false A a e t (tr, w) k := rfl
  rw [← hr] at d1 d2 d3 d4
  have hsz' : r.1.base.size = p.size := by rw [d2.ext.size]; exact hsz
  have hno : ∀ q, q < r.1.base.size → ¬ (A.isAcc q = true ∧ a.isAcc q = true) := by
    intro q hq
    rw [hAb, hc.ctx.noAcc q (by rw [← hsz']; exact hq)]
    rintro ⟨h, _⟩
    cases h
  refine ⟨d1, hsz', fun u hu => Acc.le hl d1 d2 (fun _ => rfl) (fun _ => rfl) hu, ?_, ?_, d5⟩
  · intro h2
    rw [d3] at h2
    obtain ⟨u, u1, u2, u3⟩ := stop_true h2
    exact ⟨u, acc_of d1 hno u1 u2, u3⟩
  · intro h2
    refine ⟨(d4 h2).tri, fun u hu => stop_false (by rw [← d3]; exact h2) hu.2.1 hu.2.2⟩

/-- One round with the callback. -/
theorem PreSearchI.step (hc : PreSearchCtx p val a b) (hp : Heap (ShElem T) (WithTop T) ShElem.key)
    (hq : Heap (T × Nat) T Prod.fst) (h : HashOrder) (junk : Nat → Bool) {e0 : SProd T} {s : SPreSt T (SProd T)} (hs : PreSearchI p val a b e0 s)
    (hf : s.found = false) {e : ShElem T} {r : List (ShElem T)} (hperm : (e :: r).Perm s.ws) (hle : ∀ u ∈ r, e.key ≤ u.key) :
    PreSearchI p val a b e0 (spreStepWith val (SInstance.cbFirst hq h false a) true junk p { s with ws := r } e) := by
  obtain ⟨w, hw, _, hk0, i1, i2, i3, i4⟩ := hs.loop.step_cases hc.ctx (SInstance.cbFirst hq h false a) junk hperm hle rfl
  generalize spreStepWith val (SInstance.cbFirst hq h false a) true junk p { s with ws := r } e = s' at *
  have hL' : SPreL p val b s' := ⟨⟨_, i1⟩, i2⟩
  have hmem : ∀ u, u ∈ s.ws ↔ u = e ∨ u ∈ r := fun u => by rw [← hperm.mem_iff, List.mem_cons]
  have hke : ∀ u ∈ s.ws, e.key ≤ u.key := by
    intro u hu
    rcases (hmem u).1 hu with rfl | hu
    · exact le_refl _
    · exact hle u hu
  rcases i4 with ⟨_, g1, g2, g3, g4, g5⟩ | ⟨_, g1, g2, g3, g4⟩
  · refine ⟨hL', by rw [g3]; exact hs.size, by rw [g1, g3]; exact hs.l, ?_, by rw [g3, g4]; exact hs.pos, by rw [g3, g4]; exact hs.hit,
      by rw [g3, g4]; exact hs.least, by rw [g3]; exact hs.back⟩
    have : s'.Done = s.Done := by
      funext t x
      unfold SPreSt.Done
      rw [g1, g5]
    rw [g3, g4, this]
    exact hs.tri
  · obtain ⟨fr, fn, facc, fd, flab⟩ := hs.loop.facts
    obtain ⟨fr', fn', facc', fd', flab'⟩ := hL'.facts
    obtain ⟨b1, b2, b3, b4, b5, b6⟩ := pre_announce hc hq h fr fd facc hs.size hs.l (D := s.Done)
      (D' := fun u x => s.Done u x ∨ (u = e.edge ∧ x = w)) (tr := e.trace) e.key (hs.tri hf) hw
      (by rintro u x (hu | ⟨rfl, rfl⟩); exacts [hu.1, hw]) (fun u x hu => hu.imp_right fun h => h.1)
    generalize SInstance.cbFirst hq h false a s.aut s.ext e.edge (e.trace, w) e.key = c at b1 b2 b3 b4 b5 b6 g4
    have hD : (fun u x => s.Done u x ∨ (u = e.edge ∧ x = w)) = s'.Done := by
      funext u x
      exact propext (g2 u x)
    rw [hD] at b5
    have hb1 : LInv false (PreW p val b) (WtOf a) s'.aut a { prod := c.1 } :=
      b1.mono (keys_of_bound g3) (fun _ h => h) (fun q => by rw [facc', facc]) (fun _ => rfl) (Nat.le_of_eq (fn.trans fn'.symm)) (Nat.le_refl _)
        (fun _ _ h => h) (fun _ _ h => h)
    have hlow : ∀ x ∈ Between p val a b, (∃ u, Acc c.1 u ∧ c.1.best u ≤ x) ∨ e.key ≤ (x : WithTop T) := by
      intro x hx
      rcases presearch_lower hc hp hs.loop hs.size hs.l (hs.tri hf) hx e.key hke with ⟨u, u1, u2⟩ | h3
      · obtain ⟨u3, u4⟩ := b3 u u1
        exact .inl ⟨u, u3, le_trans u4 u2⟩
      · exact .inr h3
    have hposc : ∀ (z : SProd T), (∀ u, Acc z u → e.key < (z.best u : WithTop T)) → ∀ u, Acc z u → 0 < z.best u := by
      intro z hz u hu
      have := lt_of_le_of_lt hk0 (hz u hu)
      rw [← WithTop.coe_zero] at this
      exact WithTop.coe_lt_coe.1 this
    dsimp only at g4
    split at g4
    · rename_i hlast
      obtain ⟨g4, g5⟩ := g4
      have hwe : s'.aut.wt e.edge = some w := ((g2 e.edge w).1 (.inr ⟨rfl, rfl⟩)).1
      have hall : s'.found = true → ∀ x ∈ Between p val a b, ∃ u, Acc c.1 u ∧ c.1.best u ≤ x := by
        intro _ x hx
        cases hcf : c.2 with
        | false =>
          rcases presearch_lower hc hp hL' b2 hb1 (b5 hcf).1 hx ⊤ (by rw [hlast.2]; intro e he; cases he) with h3 | h3
          · exact h3
          · exact absurd h3 (not_le.2 (WithTop.coe_lt_top x))
        | true =>
          rcases hlow x hx with h3 | h3
          · exact h3
          · obtain ⟨u, u1, u2⟩ := b4 hcf
            exact ⟨u, u1, WithTop.coe_le_coe.1 (le_trans u2 h3)⟩
      cases hcf : c.2 with
      | false =>
        obtain ⟨c1, c2, c3, c4, c5, c6⟩ := pre_announce hc hq h fr' fd' facc' b2 hb1 (D := s'.Done)
          (D' := s'.Done) (tr := e.trace) ⊤ (b5 hcf).1 hwe (fun u x hu => hu.1) (fun u x hu => .inl hu)
        generalize SInstance.cbFirst hq h false a s'.aut c.1 e.edge (e.trace, w) ⊤ = c' at c1 c2 c3 c4 c5 c6 g4 g5
        refine ⟨hL', by rw [g4]; exact c2, by rw [g4]; exact c1, ?_, ?_, ?_, ?_, by rw [g4]; exact (hs.back.trans b6).trans c6⟩
        · rw [g5, g4]
          exact fun h1 => (c5 h1).1
        · rw [g5, g4]
          intro h1 u hu
          exact absurd le_top (not_le.2 ((c5 h1).2 u hu))
        · rw [g5, g4]
          intro h1
          obtain ⟨u, u1, _⟩ := c4 h1
          exact ⟨u, u1⟩
        · rw [g4]
          intro h1 x hx
          obtain ⟨u, u1, u2⟩ := hall h1 x hx
          exact ⟨u, (c3 u u1).1, le_trans (c3 u u1).2 u2⟩
      | true =>
        obtain ⟨c1, c2, c3, c4, c5, c6⟩ := pre_announce hc hq h fr' fd' facc' b2 hb1 (D := fun _ _ => False)
          (D' := fun _ _ => False) (tr := e.trace) ⊤ (by
            rintro u hu _ g y z (⟨rfl, ⟨h3, h4⟩ | ⟨h3, h4⟩⟩ | ⟨h0, c, d, h3, h4, h5⟩)
            · exact h3.elim
            · exact absurd rfl (hc.other.noEps _ (SProd.mem_of_wt h3))
            · exact h3.elim) hwe (fun u x hu => hu.elim) (fun u x hu => hu.elim)
        generalize SInstance.cbFirst hq h false a s'.aut c.1 e.edge (e.trace, w) ⊤ = c' at c1 c2 c3 c4 c5 c6 g4 g5
        have hyes : s'.found = true := by
          rw [g5]
          by_contra h1
          obtain ⟨u, u1, _⟩ := b4 hcf
          exact absurd le_top (not_le.2 ((c5 (by simpa using h1)).2 u (c3 u u1).1))
        refine ⟨hL', by rw [g4]; exact c2, by rw [g4]; exact c1, (fun h1 => by rw [hyes] at h1; cases h1),
          (fun h1 => by rw [hyes] at h1; cases h1), ?_, ?_, by rw [g4]; exact (hs.back.trans b6).trans c6⟩
        · intro _
          obtain ⟨u, u1, _⟩ := b4 hcf
          exact ⟨u, by rw [g4]; exact (c3 u u1).1⟩
        · rw [g4]
          intro h1 x hx
          obtain ⟨u, u1, u2⟩ := hall h1 x hx
          exact ⟨u, (c3 u u1).1, le_trans (c3 u u1).2 u2⟩
    · obtain ⟨g4, g5⟩ := g4
      rw [hf, Bool.or_false] at g5
      refine ⟨hL', by rw [g4]; exact b2, by rw [g4]; exact hb1, ?_, ?_, ?_, ?_, by rw [g4]; exact hs.back.trans b6⟩
      · rw [g5, g4]
        exact fun h1 => (b5 h1).1
      · rw [g5, g4]
        intro h1
        exact hposc _ (b5 h1).2
      · rw [g5, g4]
        intro h1
        obtain ⟨u, u1, _⟩ := b4 h1
        exact ⟨u, u1⟩
      · rw [g5, g4]
        intro h1 x hx
        rcases hlow x hx with h3 | h3
        · exact h3
        · obtain ⟨u, u1, u2⟩ := b4 h1
          exact ⟨u, u1, WithTop.coe_le_coe.1 (le_trans u2 h3)⟩

end Verif
