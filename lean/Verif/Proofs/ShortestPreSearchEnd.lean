import Verif.Proofs.ShortestPreSearch
import Verif.Proofs.ProductLang

/-! # `pre_star_accepts<Shortest>`: the end of the search -/

namespace Verif

variable {W T σ : Type} [LinearOrder W] [Zero W] [LinearOrder T] [AddCommMonoid T] [IsOrderedCancelAddMonoid T]
variable {p : Pda W} {val : W → T} {a b : Aut T}

open SProd
open Product (Mv PInv PExt EdgeOK InRange ann Meets)

/-- What is known at the end of a search: as `SearchEnd`, but the weight of an accepting state need not be the weight of
a run, only at least as much. -/
structure WeakEnd (S : Set T) (e : SProd T) : Prop where
  apart : ∀ u, u < e.base.aut.n → e.base.aut.isAcc u = true → Acc e u
  sound : ∀ u, Acc e u → ∃ x ∈ S, x ≤ e.best u
  least : ∀ x ∈ S, ∃ u, Acc e u ∧ e.best u ≤ x

/-- The answer read off the product at the end. -/
theorem WeakEnd.findFirst {S : Set T} {e : SProd T} (h : WeakEnd S e) :
    (∀ x, e.findFirst.2 = ((x : T) : WithTop T) ↔ IsLeast S x) ∧ (e.findFirst.2 = ⊤ ↔ S = ∅) := by
  have hle : ∀ x, e.findFirst.2 = ((x : T) : WithTop T) → IsLeast S x := by
    intro x hx
    obtain ⟨⟨u, u1, u2, u3⟩, h2⟩ := findFirst_coe hx
    have hlow : x ∈ lowerBounds S := by
      intro y hy
      obtain ⟨v, v1, v2⟩ := h.least y hy
      exact le_trans (h2 v v1.2.1 v1.2.2) v2
    obtain ⟨y, y1, y2⟩ := h.sound u (h.apart u u1 u2)
    rw [u3] at y2
    have : y = x := le_antisymm y2 (hlow y1)
    exact ⟨this ▸ y1, hlow⟩
  have htop : e.findFirst.2 = ⊤ ↔ S = ∅ := by
    rw [findFirst_top]
    constructor
    · intro h1
      refine Set.ext fun x => ⟨fun hx => ?_, fun hx => hx.elim⟩
      obtain ⟨v, v1, _⟩ := h.least x hx
      have := h1 v v1.2.1
      rw [v1.2.2] at this
      cases this
    · intro h1 u hu
      by_contra hn
      obtain ⟨x, hx, _⟩ := h.sound u (h.apart u hu (by simpa using hn))
      rw [h1] at hx
      exact hx
  refine ⟨fun x => ⟨hle x, ?_⟩, htop⟩
  intro hx
  cases hf : e.findFirst.2 with
  | top =>
    rw [htop] at hf
    rw [hf] at hx
    exact hx.1.elim
  | coe y =>
    have := hle y hf
    rw [le_antisymm (this.2 hx.1) (hx.2 this.1)]

omit [Zero W] [LinearOrder W] in
theorem CostRun.nonneg {R : URule W → Prop} (hR : ∀ r, R r → 0 ≤ val r.weight) {c c' : Config} {x : T} (h : CostRun R val c x c') :
    0 ≤ x := by
  induction h with
  | nil => exact le_refl _
  | cons r w x c hr _ ih => exact add_nonneg (hR r hr) ih

/-- The loop starts with the invariant. -/
theorem spreInit_search (hc : PreSearchCtx p val a b) (h : HashOrder) {e : SProd T} (hsz : e.base.size = p.size)
    (hl : LInv false (PreW p val b) (WtOf a) b a { prod := e }) (hno : ∀ u, ¬ Acc e u) :
    PreSearchI p val a b e (spreInit val h p b e) := by
  obtain ⟨j1, j2, j3, j4, j5, _⟩ := spreInit_inv (val := val) h hc.ctx e
  refine ⟨j1, by rw [j4]; exact hsz, by rw [j2, j4]; exact hl, ?_, ?_, (fun hf => by rw [j3] at hf; cases hf),
    (fun hf => by rw [j3] at hf; cases hf), by rw [j4]; exact .refl _ _ _ _⟩
  · intro _
    have hdone : ∀ t x, ¬ (spreInit val h p b e).Done t x := by
      rintro t x ⟨hx, hn⟩
      obtain ⟨⟨κ, hi⟩, _⟩ := j1
      rw [j2] at hx
      obtain ⟨rfl, ht⟩ := (wt_of_zero hc.ctx.zero t x).1 hx
      refine hn ⟨0, ⟨0, t, {}⟩, by rw [j2]; exact hx, (j5 _).2 ⟨t, ht, rfl⟩, rfl, ?_⟩
      have hk := hi.entry ⟨0, t, {}⟩ ((j5 _).2 ⟨t, ht, rfl⟩)
      obtain ⟨_, _, ⟨y, hy, hle⟩, _⟩ := hk
      dsimp only at hy hle ⊢
      rw [j2, hx] at hy
      cases hy
      refine le_antisymm ?_ hle
      unfold SPreSt.key
      rw [WithTop.coe_zero, add_zero]
      exact hi.mpos _
    rintro u hu _ g y z (⟨rfl, ⟨h3, h4⟩ | ⟨h3, h4⟩⟩ | ⟨h0, c, d, h3, h4, h5⟩)
    · exact (hdone _ _ h3).elim
    · exact absurd rfl (hc.other.noEps _ (SProd.mem_of_wt h3))
    · exact (hdone _ _ h3).elim
  · rw [j4]
    exact fun _ u hu => (hno u hu).elim

/-- What the loop ends with. -/
theorem presearch_end (hc : PreSearchCtx p val a b) (hp : Heap (ShElem T) (WithTop T) ShElem.key)
    (hq : Heap (T × Nat) T Prod.fst) (h : HashOrder) (junk : Nat → Bool) {e0 : SProd T} {s r : SPreSt T (SProd T)} {fuel : Nat}
    (hs : PreSearchI p val a b e0 s)
    (hr : whileSome (spreStep val hp (SInstance.cbFirst hq h false a) true junk p) fuel s = some r) :
    WeakEnd (Between p val a b) r.ext ∧ (r.found = true → ∃ u, Acc r.ext u) ∧ (r.found = false → ∀ u, Acc r.ext u → 0 < r.ext.best u) ∧
      PreSearchI p val a b e0 r := by
  obtain ⟨h1, h2⟩ := whileSome_inv (I := PreSearchI p val a b e0) (by
    intro s s' hs hst
    unfold spreStep at hst
    split at hst
    · cases hst
    rename_i hf
    rcases hpop : hp.pop s.ws with _ | ⟨e, r⟩
    · rw [hpop] at hst; cases hst
    · rw [hpop] at hst
      simp only [Option.map_some, Option.some.injEq] at hst
      obtain ⟨h1, h2⟩ := hp.spec _ _ _ hpop
      rw [← hst]
      exact hs.step hc hp hq h junk (by simpa using hf) h1 h2) hs hr
  obtain ⟨_, _, hacc, _, _⟩ := h1.loop.facts
  have hno : ∀ q, q < r.ext.base.size → ¬ (r.aut.isAcc q = true ∧ a.isAcc q = true) := by
    intro q hq
    rw [h1.size] at hq
    rw [hacc, hc.ctx.noAcc q hq]
    rintro ⟨h, _⟩
    cases h
  refine ⟨⟨fun u hu ha => acc_of h1.l hno hu ha, fun u hu => presearch_sound hc h1.loop h1.size h1.l hu, ?_⟩, h1.hit, h1.pos, h1⟩
  intro x hx
  cases hf : r.found with
  | true => exact h1.least hf x hx
  | false =>
    unfold spreStep at h2
    rw [hf] at h2
    simp only [Bool.and_false, Bool.false_eq_true, if_false, Option.map_eq_none_iff] at h2
    have hws := (hp.none_iff _).1 h2
    rcases presearch_lower hc hp h1.loop h1.size h1.l (h1.tri hf) hx ⊤ (by rw [hws]; simp) with h3 | h3
    · exact h3
    · exact absurd (top_le_iff.1 h3) (WithTop.coe_ne_top)

theorem Product.ofAutomata_swap (size : Nat) (a b : Aut T) : Product.ofAutomata size a b = Product.ofAutomata size b a := by
  unfold Product.ofAutomata
  have : ∀ i, (a.isAcc i && b.isAcc i) = (b.isAcc i && a.isAcc i) := fun i => Bool.and_comm _ _
  simp only [this]

theorem Path.labels_ne {E : Tr → Prop} (hE : ∀ t, E t → t.label ≠ epsilon) {q f : Nat} {w : List Nat} (h : Path E q w f) :
    ∀ g ∈ w, g ≠ epsilon := by
  induction h with
  | nil => simp
  | cons h1 _ ih =>
    intro g hg
    rcases List.mem_cons.1 hg with rfl | hg
    · exact hE _ h1
    · exact ih g hg

/-- A configuration of both languages. -/
def CommonConf (p : Pda W) (a b : Aut T) : Prop :=
  ∃ c, c.1 < p.size ∧ Accepted (· ∈ keys a.edges) (fun q => a.isAcc q = true) c ∧
    Accepted (· ∈ keys b.edges) (fun q => b.isAcc q = true) c

omit [LinearOrder T] [AddCommMonoid T] [IsOrderedCancelAddMonoid T] [LinearOrder W] [Zero W] in
theorem commonConf_of_meets {a b : Aut T} (ha : ∀ t ∈ keys a.edges, t.label ≠ epsilon) (hb : ∀ t ∈ keys b.edges, t.label ≠ epsilon) :
    Meets p.size b a ↔ CommonConf p a b := by
  constructor
  · rintro ⟨q, w, h1, ⟨f, h2, h3⟩, ⟨f', h4, h5⟩⟩
    exact ⟨(q, w), h1, ⟨f', h4.toPath ha, h5⟩, ⟨f, h2.toPath hb, h3⟩⟩
  · rintro ⟨c, h1, ⟨f, h2, h3⟩, ⟨f', h4, h5⟩⟩
    exact ⟨c.1, c.2, h1, ⟨f', h4.toEPath (h4.labels_ne hb), h5⟩, ⟨f, h2.toEPath (h2.labels_ne ha), h3⟩⟩

/-- The product that `initialize_product` leaves. -/
theorem preProduct_spec (hc : PreSearchCtx p val a b) (h : HashOrder) :
    let r := (Product.ofAutomata p.size a b).initProduct h false true b a
    PInv false b a r.1 ∧ r.1.size = p.size ∧ (r.2 = true ↔ CommonConf p a b) ∧ (r.2 = r.1.hasAcc) := by
  intro r
  have hrb : InRange b := fun t ht => ⟨(hc.ctx.valid t ht).1, (hc.ctx.valid t ht).2.2⟩
  have hl := hc.lab
  obtain ⟨h1, h2⟩ := Product.initProduct_spec h (dual := false) (et := true) hrb hc.other.range
    (Product.ofAutomata_inv false hc.ctx.size_le hc.other.size_le)
  rw [Product.ofAutomata_swap p.size b a] at h1 h2
  refine ⟨h1.inv, h2.size, ?_, h1.flag⟩
  rw [h1.iff, h2.size]
  exact commonConf_of_meets hc.other.noEps fun t ht => by have := (hc.ctx.valid t ht).2.1; omega

/-- `pre_star_accepts` ends, and what it ends with. -/
theorem preStarAccepts_terminates (hc : PreSearchCtx p val a b) (hp : Heap (ShElem T) (WithTop T) ShElem.key)
    (hq : Heap (T × Nat) T Prod.fst) (h : HashOrder) (junk : Nat → Bool) (best : Nat → T) :
    ∃ fuel r, SInstance.preStarAccepts val hp hq h junk p (SInstance.ofAutomata p.size a b best) fuel = some r := by
  unfold SInstance.preStarAccepts
  dsimp only
  have e1 : (SInstance.ofAutomata p.size a b best).initial = a := rfl
  have e2 : (SInstance.ofAutomata p.size a b best).final = b := rfl
  rw [e1, e2]
  split
  · exact ⟨0, _, rfl⟩
  · obtain ⟨fuel, r, hr⟩ := spre_terminates hc.ctx hp (SInstance.cbFirst hq h false a) junk
      (spreInit_inv (val := val) h hc.ctx
        { (SInstance.ofAutomata p.size a b best).prod with
          base := ((SInstance.ofAutomata p.size a b best).prod.base.initProduct h false true b a).1 }).1
    unfold preStarShortest
    exact ⟨fuel, _, by rw [hr]; rfl⟩

theorem preStarAccepts_end (hc : PreSearchCtx p val a b) (hp : Heap (ShElem T) (WithTop T) ShElem.key)
    (hq : Heap (T × Nat) T Prod.fst) (h : HashOrder) (junk : Nat → Bool) {best : Nat → T} (hj : ∀ u, 0 ≤ best u)
    (hj0 : CommonConf p a b → ∀ u, best u = 0) {fuel : Nat} {r : SInstance T × Bool}
    (hr : SInstance.preStarAccepts val hp hq h junk p (SInstance.ofAutomata p.size a b best) fuel = some r) :
    WeakEnd (Between p val a b) r.1.prod ∧ (r.2 = true → ∃ u, Acc r.1.prod u) ∧
      (r.2 = false → ∀ u, Acc r.1.prod u → 0 < r.1.prod.best u) ∧ (CommonConf p a b → r.2 = true) := by
  obtain ⟨k1, k2, k3, k4⟩ := preProduct_spec (val := val) hc h
  unfold SInstance.preStarAccepts at hr
  dsimp only at hr
  have e1 : (SInstance.ofAutomata p.size a b best).initial = a := rfl
  have e2 : (SInstance.ofAutomata p.size a b best).final = b := rfl
  have e3 : (SInstance.ofAutomata p.size a b best).prod = { base := Product.ofAutomata p.size a b, best := best } := rfl
  rw [e1, e2, e3] at hr
  dsimp only at hr
  generalize (Product.ofAutomata p.size a b).initProduct h false true b a = R at *
  have hnoacc : ∀ q, q < R.1.size → ¬ (b.isAcc q = true ∧ a.isAcc q = true) := by
    intro q hq
    rw [hc.ctx.noAcc q (by rw [← k2]; exact hq)]
    rintro ⟨h, _⟩
    cases h
  have hge : ∀ u, u < R.1.aut.n → R.1.aut.isAcc u = true → R.1.size ≤ u := by
    intro u hu ha
    by_contra hlt
    rw [k1.acc u hu, Product.orig_lt (by omega)] at ha
    exact hnoacc u (by omega) ha
  cases hR : R.2 with
  | true =>
    rw [hR] at hr
    simp only [if_true, Option.some.injEq] at hr
    have hcc := k3.1 hR
    have h0 := hj0 hcc
    obtain ⟨c, c1, c2, c3⟩ := hcc
    have hz : (0 : T) ∈ Between p val a b := ⟨c, c, c1, c2, .nil _, c3⟩
    have hu : ∃ u, Acc ({ base := R.1, best := best } : SProd T) u := by
      rw [k4, k1.hasAcc] at hR
      obtain ⟨u, u1, u2⟩ := hR
      have := (k1.acc u u1).2 u2
      exact ⟨u, hge u u1 this, u1, this⟩
    rw [← hr]
    dsimp only
    refine ⟨⟨fun u hu ha => ⟨hge u hu ha, hu, ha⟩, fun u _ => ⟨0, hz, hj u⟩, ?_⟩, fun _ => hu, (fun hf => by cases hf), fun _ => rfl⟩
    rintro x ⟨c, c', _, _, hrun, _⟩
    obtain ⟨u, hu⟩ := hu
    refine ⟨u, hu, ?_⟩
    dsimp only
    rw [h0 u]
    exact CostRun.nonneg (R := p.Has) (val := val) (fun r hr => by
      rw [Pda.Has_iff] at hr
      obtain ⟨l, hm, _⟩ := hr
      exact hc.ctx.nonneg _ _ hm) hrun
  | false =>
    rw [hR] at hr
    simp only [Bool.false_eq_true, if_false, Option.map_eq_some_iff] at hr
    obtain ⟨s, h1, h2⟩ := hr
    have hna : ∀ u, u < R.1.aut.n → R.1.aut.isAcc u = false := by
      intro u hu
      by_contra hn
      rw [Bool.not_eq_false, k1.acc u hu] at hn
      rw [k4] at hR
      have := k1.hasAcc.2 ⟨u, hu, hn⟩
      rw [hR] at this
      cases this
    have hl0 : LInv false (PreW p val b) (WtOf a) b a { prod := ({ base := R.1, best := best } : SProd T) } :=
      base_linv k1 (fun t ht x hx => ⟨0, .init ht, hx⟩) (fun t ht => by
        have hw := SProd.wt_ann ht
        have := hc.other.zero t _ hw
        rw [this] at hw
        exact hw) hc.other.noEps (fun u _ hu => hna u hu) hj
    have hI := spreInit_search hc h (e := { base := R.1, best := best }) k2 hl0 (fun u hu => by
      have h1 := hna u hu.2.1
      have h2 := hu.2.2
      dsimp only at h2
      rw [h1] at h2
      cases h2)
    unfold preStarShortest at h1
    obtain ⟨g1, g2, g3, _⟩ := presearch_end hc hp hq h junk hI h1
    rw [← h2]
    exact ⟨g1, g2, g3, fun hcc => by rw [k3.2 hcc] at hR; cases hR⟩

end Verif
