import Verif.Proofs.ShortestPreSearchEnd
import Verif.Proofs.ShortestPreTrace
import Verif.Proofs.ShortestBack

/-! # The back edges after a shortest pre* search -/

namespace Verif

open SProd
open Product (Mv PInv)

variable {W T σ : Type}

/-- The pair of states is reached by some nonempty stack in both automata. -/
def Early (n : Nat) (A B : Aut T) (x : Nat × Nat) : Prop :=
  ∃ q w, q < n ∧ w ≠ [] ∧ Path (· ∈ keys A.edges) q w x.1 ∧ Path (· ∈ keys B.edges) q w x.2

theorem Early.snoc {n : Nat} {A B : Aut T} {x y : Nat × Nat} (h : Early n A B x) {g : Nat} (h1 : ⟨x.1, g, y.1⟩ ∈ keys A.edges)
    (h2 : ⟨x.2, g, y.2⟩ ∈ keys B.edges) : Early n A B y := by
  obtain ⟨q, w, h3, _, h4, h5⟩ := h
  exact ⟨q, w ++ [g], h3, by simp, Product.Path.snoc' h4 h1, Product.Path.snoc' h5 h2⟩

theorem Early.dst {n : Nat} {A B : Aut T} {x : Nat × Nat} (h : Early n A B x) :
    (∃ t ∈ keys A.edges, t.dst = x.1) ∧ ∃ t ∈ keys B.edges, t.dst = x.2 := by
  obtain ⟨q, w, _, h2, h3, h4⟩ := h
  have key : ∀ {E : Tr → Prop} {q f : Nat} {w : List Nat}, Path E q w f → w ≠ [] → ∃ t, E t ∧ t.dst = f := by
    intro E q f w hp
    induction hp with
    | nil => exact fun h => absurd rfl h
    | cons he hp ih =>
      intro _
      cases hp with
      | nil => exact ⟨_, he, rfl⟩
      | cons h5 h6 => exact ih (by simp)
  exact ⟨key h3 h2, key h4 h2⟩

theorem Early.of_product {dual : Bool} {A B : Aut T} {s : Product T} (h : PInv dual A B s)
    (hA : ∀ t ∈ keys A.edges, t.label ≠ epsilon) (hB : ∀ t ∈ keys B.edges, t.label ≠ epsilon) {u : Nat} (hu : u < s.aut.n)
    (hs : s.size ≤ u) : Early s.size A B (s.orig u) := by
  obtain ⟨q, hq, w, hp⟩ := h.reach u hu
  have key : ∀ {v w u}, Path (· ∈ keys s.aut.edges) v w u →
      Path (· ∈ keys A.edges) (s.orig v).1 w (s.orig u).1 ∧ Path (· ∈ keys B.edges) (s.orig v).2 w (s.orig u).2 := by
    intro v w u hp
    induction hp with
    | nil => exact ⟨.nil _, .nil _⟩
    | cons he _ ih =>
      rcases (h.edges _ he).2.2 with ⟨_, ⟨h1, _⟩ | ⟨h1, _⟩⟩ | ⟨_, h1, h2⟩
      · exact absurd rfl (hA _ h1)
      · exact absurd rfl (hB _ h1)
      · exact ⟨.cons h1 ih.1, .cons h2 ih.2⟩
  obtain ⟨h1, h2⟩ := key hp
  rw [Product.orig_lt hq] at h1 h2
  refine ⟨q, w, hq, ?_, h1, h2⟩
  rintro rfl
  cases hp
  omega

variable [LinearOrder W] [Zero W] [LinearOrder T] [AddCommMonoid T] [IsOrderedCancelAddMonoid T]
variable {p : Pda W} {val : W → T} {a b : Aut T}

theorem PreDer.old {E0 : Tr → Prop} {t : Tr} {x : T} (h : PreDer p.Has val E0 t x) (ht : p.size ≤ t.src) : E0 t := by
  have hR : ∀ r, p.Has r → r.src < p.size := by
    intro r hr
    rw [Pda.Has_iff] at hr
    obtain ⟨l, hm, _⟩ := hr
    obtain ⟨i, hi⟩ := List.mem_iff_getElem?.1 hm
    exact Pda.lt_size_of_rule hi
  cases h with
  | init h => exact h
  | pop hr _ => have := hR _ hr; dsimp only at ht; omega
  | swap hr _ _ => have := hR _ hr; dsimp only at ht; omega
  | noop hr _ _ => have := hR _ hr; dsimp only at ht; omega
  | push hr _ _ _ => have := hR _ hr; dsimp only at ht; omega

/-- No move of pre* leads out of these pairs. -/
theorem early_closed_pre (hc : PreSearchCtx p val a b) : Closed false (PreW p val b) (WtOf a) (Early p.size b a) := by
  rintro x g y w (⟨rfl, ⟨⟨_, h3, _⟩, h4⟩ | ⟨h3, h4⟩⟩ | ⟨h0, c, d, ⟨_, h3, _⟩, h4, h5⟩) hx
  · have := PreDer.label hc.ctx.wf (fun t ht => (hc.ctx.valid t ht).2.1) h3
    have := hc.lab
    dsimp only at *
    omega
  · exact absurd rfl (hc.other.noEps _ (SProd.mem_of_wt h3))
  · obtain ⟨⟨t, h6, h7⟩, _⟩ := hx.dst
    exact hx.snoc (PreDer.old h3 (by dsimp only; rw [← h7]; exact hc.ctx.noInto t h6)) (SProd.mem_of_wt h4)

/-- The state of the saturation and the product at the end of a search that did not end at once. -/
theorem preStarAccepts_back (hc : PreSearchCtx p val a b) (hp : Heap (ShElem T) (WithTop T) ShElem.key)
    (hq : Heap (T × Nat) T Prod.fst) (h : HashOrder) (junk : Nat → Bool) {best : Nat → T} (hj : ∀ u, 0 ≤ best u)
    (hno : ¬ CommonConf p a b) {fuel : Nat} {r : SInstance T × Bool}
    (hr : SInstance.preStarAccepts val hp hq h junk p (SInstance.ofAutomata p.size a b best) fuel = some r) :
    ∃ s : SPreSt T (SProd T), SPreT p b (fun _ => True) (keys b.edges) s ∧ r.1 = ⟨a, s.aut, s.ext⟩ ∧
      PInv false s.aut a s.ext.base ∧ s.ext.base.size = p.size ∧
      ∀ u, Acc s.ext u → BackPath s.ext u (s.ext.walk s.ext.base.aut.n u ⟨u, []⟩) := by
  obtain ⟨k1, k2, k3, k4⟩ := preProduct_spec (val := val) hc h
  unfold SInstance.preStarAccepts at hr
  dsimp only at hr
  have e1 : (SInstance.ofAutomata p.size a b best).initial = a := rfl
  have e2 : (SInstance.ofAutomata p.size a b best).final = b := rfl
  have e3 : (SInstance.ofAutomata p.size a b best).prod = { base := Product.ofAutomata p.size a b, best := best } := rfl
  rw [e1, e2, e3] at hr
  dsimp only at hr
  generalize (Product.ofAutomata p.size a b).initProduct h false true b a = R at *
  have hR : R.2 = false := by
    rw [Bool.eq_false_iff]
    exact fun hR => hno (k3.1 hR)
  rw [hR] at hr
  simp only [Bool.false_eq_true, if_false, Option.map_eq_some_iff] at hr
  obtain ⟨s, h1, h2⟩ := hr
  have hna : ∀ u, u < R.1.aut.n → R.1.aut.isAcc u = false := by
    intro u hu
    by_contra hn
    rw [Bool.not_eq_false, k1.acc u hu] at hn
    rw [k4] at hR
    have := k1.hasAcc.2 ⟨u, hu, hn⟩
    rw [hR] at this
    cases this
  have hl0 : LInv false (PreW p val b) (WtOf a) b a { prod := ({ base := R.1, best := best } : SProd T) } :=
    base_linv k1 (fun t ht x hx => ⟨0, .init ht, hx⟩) (fun t ht => by
      have hw := SProd.wt_ann ht
      have := hc.other.zero t _ hw
      rw [this] at hw
      exact hw) hc.other.noEps (fun u _ hu => hna u hu) hj
  have hI := spreInit_search hc h (e := { base := R.1, best := best }) k2 hl0 (fun u hu => by
    have h1 := hna u hu.2.1
    have h2 := hu.2.2
    dsimp only at h2
    rw [h1] at h2
    cases h2)
  have hT := spre_built (H := fun _ => True) hc.ctx.wf hc.ctx.nodup (fun t ht => (hc.ctx.valid t ht).2.1) hp h
    (fun _ _ _ _ _ _ _ => trivial) true junk h1
  unfold preStarShortest at h1
  obtain ⟨_, _, _, g4⟩ := presearch_end hc hp hq h junk hI h1
  have hlab := hc.lab
  have hb0 : BInv false (PreW p val b) (WtOf a) (Early p.size b a) ({ base := R.1, best := best } : SProd T) :=
    BInv.start _ _ _ fun u hu hs => by
      have := Early.of_product k1 (fun t ht => by have := (hc.ctx.valid t ht).2.1; omega) hc.other.noEps hu hs
      rwa [k2] at this
  have hb := g4.back _ (early_closed_pre hc) hb0
  refine ⟨s, hT, by rw [← h2], g4.l.base, g4.size, fun u hu => ?_⟩
  obtain ⟨_, _, _, h5, _⟩ := hb.path hu.2.1 (by
    rintro ⟨q, w, q1, _, q3, q4⟩
    obtain ⟨f1, f2⟩ := (g4.l.base.acc u hu.2.1).1 hu.2.2
    obtain ⟨_, _, hacc, _⟩ := g4.loop.facts
    exact hno ⟨(q, w), q1, ⟨_, q4, f2⟩, ⟨_, q3, (hacc _).symm.trans f1⟩⟩)
  exact h5

end Verif
