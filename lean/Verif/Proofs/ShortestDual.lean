import Verif.Proofs.ShortestPreSearchEnd
import Verif.Proofs.ShortestPreTrace

/-! # Shortest dual search: the two saturations and the product -/

namespace Verif

variable {W T σ : Type} [LinearOrder W] [Zero W] [LinearOrder T] [AddCommMonoid T] [IsOrderedCancelAddMonoid T]
variable {p : Pda W} {val : W → T} {a b : Aut T} {qp : List ((Nat × Nat) × Nat)} {N : Nat}

open SProd
open Product (Mv PInv PExt EdgeOK InRange ann Meets)

omit [Zero W] [LinearOrder W] in
theorem FPostDer.nonneg {R : URule W → Prop} {qf : Nat × Nat → Nat} {E0 : Tr → Prop} (hR : ∀ r, R r → 0 ≤ val r.weight) {t : Tr} {x : T}
    (h : FPostDer R val qf E0 t x) : 0 ≤ x := by
  induction h with
  | init => exact le_refl _
  | pop hr _ _ ih => exact add_nonneg ih (hR _ hr)
  | swap hr _ _ ih => exact add_nonneg ih (hR _ hr)
  | noop hr _ _ ih => exact add_nonneg ih (hR _ hr)
  | push1 => exact le_refl _
  | push2 hr _ _ ih => exact add_nonneg ih (hR _ hr)
  | eps _ _ ih1 ih2 => exact add_nonneg ih2 ih1

/-- The weights that can be derived for the transitions of post*, and larger ones. -/
abbrev PostW (p : Pda W) (val : W → T) (a : Aut T) (qp : List ((Nat × Nat) × Nat)) : Tr → T → Prop :=
  Above (FPostDer p.Has val (qFind qp) (· ∈ keys a.edges))

theorem ShCtx.postW_nonneg (hc : ShCtx p val a qp N) : NonNeg (PostW p val a qp) := by
  rintro t x ⟨y, h1, h2⟩
  refine le_trans (FPostDer.nonneg (fun r hr => ?_) h1) h2
  rw [Pda.Has_iff] at hr
  obtain ⟨l, hm, _⟩ := hr
  exact hc.nonneg _ _ hm

/-- The product that pre* carries along plays no role in its invariant. -/
theorem SPreL.ext {s : SPreSt T σ} (h : SPreL p val b s) (e : σ) : SPreL p val b { s with ext := e } := by
  obtain ⟨⟨κ, hi⟩, hC⟩ := h
  exact ⟨⟨κ, hi.1, hi.2, hi.3, hi.4, hi.5, hi.6, hi.7, hi.8, hi.9, hi.10, hi.11, hi.12, hi.13, hi.14, hi.15, hi.16, hi.17, hi.18, hi.19,
    hi.20, hi.21⟩, hC.1, hC.2, hC.3, hC.4, hC.5⟩

/-- The setting: post* on `a`, pre* on `b`. -/
structure DualCtx (p : Pda W) (val : W → T) (a b : Aut T) (qp : List ((Nat × Nat) × Nat)) (N : Nat) : Prop where
  post : ShCtx p val a qp N
  pre : SPreCtx p val b
  lookup : p.LookupOK

/-- The moves accounted for: both transitions have been announced, or one of them has and the other is in the input. -/
def DM (a b : Aut T) (EA EB : Tr → T → Prop) (x : Nat × Nat) (g : Nat) (y : Nat × Nat) (w : T) : Prop :=
  MvR true EA (fun t z => EB t z ∨ (t ∈ keys b.edges ∧ z = 0)) x g y w ∨
    MvR true (fun t z => t ∈ keys a.edges ∧ z = 0) EB x g y w

/-- A call of the callback. -/
theorem announce {inFirst : Bool} (hq : Heap (T × Nat) T Prod.fst) (h : HashOrder) {SA SB : Tr → T → Prop} (hSA : NonNeg SA) (hSB : NonNeg SB)
    {A B : Aut T} (hrA : InRange A) (hrB : InRange B)
    (hA : ∀ t x, A.wt t = some x → SA t x) (hB : ∀ t x, B.wt t = some x → SB t x)
    {n : Nat} (hno : ∀ q, q < n → ¬ (A.isAcc q = true ∧ B.isAcc q = true)) {e : SProd T} (hsz : e.base.size = n)
    (hl : LInv true SA SB A B { prod := e }) {M M' : Nat × Nat → Nat → Nat × Nat → T → Prop} {t : Tr} {an : Ann T} (k : WithTop T)
    (htri : Tri M e fun _ => True) (hw : (if inFirst then A else B).wt t = some an.2)
    (hM : ∀ x g y z, M' x g y z → MvR true (WtOf A) (WtOf B) x g y z)
    (hM' : ∀ x g y z, M' x g y z → M x g y z ∨ Uses inFirst true A B t x g y z) :
    let r := addEdge hq h inFirst true A B e t an k
    LInv true SA SB A B { prod := r.1 } ∧ r.1.base.size = n ∧ (∀ u, Acc e u → Acc r.1 u ∧ r.1.best u ≤ e.best u) ∧
      (r.2 = true → ∃ u, Acc r.1 u ∧ (r.1.best u : WithTop T) ≤ k) ∧
      (r.2 = false → Tri M' r.1 (fun _ => True) ∧ ∀ u, Acc r.1 u → k < (r.1.best u : WithTop T)) ∧
      BKeep true SA SB e r.1 := by
  intro r
  obtain ⟨d1, d2, d3, d4, d5⟩ := addEdge_spec hq h (inFirst := inFirst) (dual := true) hrA hrB hSA hSB hA hB (fun _ => rfl)
    t an k hw ⟨hl, htri⟩ hM hM'
  have hr : r = addEdge hq h inFirst true A B e t an k := rfl
  rw [← hr] at d1 d2 d3 d4
  have hsz' : r.1.base.size = n := by rw [d2.ext.size]; exact hsz
  have hno : ∀ q, q < r.1.base.size → ¬ (A.isAcc q = true ∧ B.isAcc q = true) := by rw [hsz']; exact hno
  refine ⟨d1, hsz', fun u hu => Acc.le hl d1 d2 (fun _ => rfl) (fun _ => rfl) hu, ?_, ?_, d5⟩
  · intro h2
    rw [d3] at h2
    obtain ⟨u, u1, u2, u3⟩ := stop_true h2
    exact ⟨u, acc_of d1 hno u1 u2, u3⟩
  · intro h2
    refine ⟨(d4 h2).tri, fun u hu => stop_false (by rw [← d3]; exact h2) hu.2.1 hu.2.2⟩

/-- What holds while the two saturations run with the product `e`. -/
structure DualI (p : Pda W) (val : W → T) (a b : Aut T) (qp : List ((Nat × Nat) × Nat)) (N : Nat) (e0 : SProd T) (st : ShSt T)
    (pr : SPreSt T (SProd T)) (e : SProd T) (found : Bool) : Prop where
  post : ShL p val a qp N st
  n : st.aut.n = N
  pre : SPreL p val b pr
  size : e.base.size = p.size
  l : LInv true (PostW p val a qp) (PreW p val b) st.aut pr.aut { prod := e }
  tri : found = false → Tri (DM a b st.Ann pr.Done) e fun _ => True
  pos : found = false → ∀ u, Acc e u → 0 < e.best u
  hit : found = true → ∃ u, Acc e u
  least : found = true → ∀ x ∈ Between p val a b, ∃ u, Acc e u ∧ e.best u ≤ x
  back : BKeep true (PostW p val a qp) (PreW p val b) e0 e
  just : SPreT p b (fun _ => True) (keys b.edges) pr

/-- Facts about the automaton of post*. -/
theorem ShL.facts {st : ShSt T} (h : ShL p val a qp N st) : (∀ q, st.aut.isAcc q = a.isAcc q) ∧
    (∀ t x, st.aut.wt t = some x → PostW p val a qp t x) ∧ (∀ t ∈ keys a.edges, st.aut.wt t = some 0) := by
  obtain ⟨⟨κ, hi⟩, _⟩ := h
  refine ⟨hi.acc, fun t x hx => ?_, hi.input⟩
  obtain ⟨k, hk⟩ := hi.autw t x hx
  exact .of (hi.der t x k hk)

theorem SPreL.input {s : SPreSt T σ} (h : SPreL p val b s) : ∀ t ∈ keys b.edges, s.aut.wt t = some 0 := by
  obtain ⟨⟨κ, hi⟩, _⟩ := h
  exact hi.input

section lower
variable {st : ShSt T} {pr : SPreSt T (SProd T)} {e : SProd T}

/-- The paths through the moves accounted for lead to an accepting state. -/
theorem dual_reach (hc : DualCtx p val a b qp N) (hpost : ShL p val a qp N st) (hpre : SPreL p val b pr) (hsz : e.base.size = p.size)
    (hl : LInv true (PostW p val a qp) (PreW p val b) st.aut pr.aut { prod := e }) (ht : Tri (DM a b st.Ann pr.Done) e fun _ => True)
    {q f f' : Nat} (hq : q < p.size) {y : T} (hpath : PPath (DM a b st.Ann pr.Done) (q, q) y (f, f'))
    (hf : a.isAcc f = true) (hf' : b.isAcc f' = true) : ∃ u, Acc e u ∧ e.best u ≤ y := by
  obtain ⟨hacc, _, _⟩ := hpost.facts
  obtain ⟨_, _, hacc', _, _⟩ := hpre.facts
  obtain ⟨v, v1, v2, v3, v4⟩ := ht.path (by have := hl.base.n; dsimp only at this; omega) (by rw [hsz]; exact hq) hpath
  have hva : e.base.aut.isAcc v = true := by
    rw [hl.base.acc v v1]
    dsimp only
    rw [v2]
    exact ⟨by rw [hacc]; exact hf, by rw [hacc']; exact hf'⟩
  have hA : Acc e v := acc_of hl (fun q hq => by
    rw [hacc', hc.pre.noAcc q (by rw [← hsz]; exact hq)]
    rintro ⟨_, h⟩
    cases h) v1 hva
  exact ⟨v, hA, by rw [← key_of_acc hA]; exact v4⟩

/-- Every run leads to an accepting state of the product that weighs no more, or weighs at least the least key of post*. -/
theorem dual_lower_post (hc : DualCtx p val a b qp N) (hp : Heap (ShElem T) (WithTop T) ShElem.key)
    (hpost : ShL p val a qp N st) (hpre : SPreL p val b pr) (hsz : e.base.size = p.size)
    (hl : LInv true (PostW p val a qp) (PreW p val b) st.aut pr.aut { prod := e }) (ht : Tri (DM a b st.Ann pr.Done) e fun _ => True)
    {x : T} (hx : x ∈ Between p val a b) (k0 : WithTop T) (hk0 : ∀ e ∈ st.ws, k0 ≤ e.key) :
    (∃ u, Acc e u ∧ e.best u ≤ x) ∨ k0 ≤ (x : WithTop T) := by
  obtain ⟨c, c', h1, h2, h3, f', h4, h5⟩ := hx
  have hlt : c'.1 < p.size := h3.lt hc.post.wf h1
  rcases hpost.belowAnn hc.post hp (c := c') ⟨c, h1, h2, h3⟩ k0 hk0 with ⟨y, ⟨f, g1, g2⟩, g3⟩ | h
  · left
    have hlab := hc.post.lab
    have hin : ∀ {q w f}, Path (· ∈ keys b.edges) q w f → CostEPath (fun t z => t ∈ keys b.edges ∧ z = (0 : T)) q w 0 f := by
      intro q w f hp
      induction hp with
      | nil q => exact .nil q
      | cons he _ ih =>
        have := (hc.pre.valid _ he).2.1
        dsimp only at this
        have h2 := CostEPath.cons (E := fun t z => t ∈ keys b.edges ∧ z = (0 : T)) (by omega) ⟨he, rfl⟩ ih
        rwa [add_zero] at h2
    have hpath := PPath.merge (dual := true) (fun t y hy => by
      have := (hc.pre.valid t hy.1).2.1
      omega) g1 (hin h4)
    simp only [if_true, add_zero] at hpath
    obtain ⟨u, u1, u2⟩ := dual_reach hc hpost hpre hsz hl ht hlt
      (hpath.mono fun _ _ _ _ hm => .inl (hm.mono (fun _ _ h => h) fun _ _ h => .inr h)) g2 h5
    exact ⟨u, u1, le_trans u2 g3⟩
  · exact .inr h

/-- As `dual_lower_post`, for the least key of pre*. -/
theorem dual_lower_pre (hc : DualCtx p val a b qp N) (hp : Heap (ShElem T) (WithTop T) ShElem.key)
    (hpost : ShL p val a qp N st) (hpre : SPreL p val b pr) (hsz : e.base.size = p.size)
    (hl : LInv true (PostW p val a qp) (PreW p val b) st.aut pr.aut { prod := e }) (ht : Tri (DM a b st.Ann pr.Done) e fun _ => True)
    {x : T} (hx : x ∈ Between p val a b) (k0 : WithTop T) (hk0 : ∀ e ∈ pr.ws, k0 ≤ e.key) :
    (∃ u, Acc e u ∧ e.best u ≤ x) ∨ k0 ≤ (x : WithTop T) := by
  obtain ⟨c, c', h1, ⟨f, h2, h2'⟩, h3, h4⟩ := hx
  rcases hpre.below hc.pre hc.lookup hp (c := c) ⟨c', h3, h4⟩ k0 hk0 with ⟨y, ⟨f', g1, g2⟩, g3⟩ | h
  · left
    have hlab := hc.post.lab
    obtain ⟨_, _, _, _, hpl⟩ := hpre.facts
    have hin : ∀ {q w f}, Path (· ∈ keys a.edges) q w f → CostEPath (fun t z => t ∈ keys a.edges ∧ z = (0 : T)) q w 0 f := by
      intro q w f hp
      induction hp with
      | nil q => exact .nil q
      | cons he _ ih =>
        have := (hc.post.valid _ he).2.1
        dsimp only at this
        have h2 := CostEPath.cons (E := fun t z => t ∈ keys a.edges ∧ z = (0 : T)) (by omega) ⟨he, rfl⟩ ih
        rwa [add_zero] at h2
    have hpath := PPath.merge (dual := true) (fun t y hy => by
      have := hpl t y hy.1
      omega) (hin h2) (g1.withEps fun t x hx => by have := hpl t x hx.1; omega)
    simp only [if_true, zero_add] at hpath
    obtain ⟨u, u1, u2⟩ := dual_reach hc hpost hpre hsz hl ht h1
      (hpath.mono fun _ _ _ _ hm => .inr hm) h2' g2
    exact ⟨u, u1, le_trans u2 g3⟩
  · exact .inr h

/-- The weight of an accepting state is at least the weight of a run. -/
theorem dual_sound (hc : DualCtx p val a b qp N) (hpost : ShL p val a qp N st) (hpre : SPreL p val b pr) (hsz : e.base.size = p.size)
    (hl : LInv true (PostW p val a qp) (PreW p val b) st.aut pr.aut { prod := e }) {u : Nat} (hu : Acc e u) :
    ∃ x ∈ Between p val a b, x ≤ e.best u := by
  obtain ⟨hacc, _, _⟩ := hpost.facts
  obtain ⟨_, _, hacc', _, hpl⟩ := hpre.facts
  have hlab := hc.post.lab
  have hBe : ∀ t x, PreDer p.Has val (· ∈ keys b.edges) t x → t.label ≠ epsilon := by
    intro t x hx
    have := PreDer.label hc.pre.wf (fun t ht => (hc.pre.valid t ht).2.1) hx
    omega
  obtain ⟨q, q1, q2⟩ := hl.sound u hu.2.1
  obtain ⟨w, c, d, p1, p2, p3⟩ := q2.split fun t y hy => by
    obtain ⟨z, hz, _⟩ := hy
    exact hBe t z hz
  obtain ⟨f1, f2⟩ := (hl.base.acc u hu.2.1).1 hu.2.2
  have hk : e.best u = c + d := by
    rw [← key_of_acc hu]
    simpa using p3
  rw [hk]
  dsimp only at f1 f2 p1 p2 q1
  rw [hacc] at f1
  rw [hacc'] at f2
  rw [hsz] at q1
  obtain ⟨c1, r1, r2⟩ := Above.path p1
  obtain ⟨d1, r3, r4⟩ := Above.path p2
  have h1 := fpost_sound (F := fun q => a.isAcc q = true) hc.post.size_le hc.post.lift.pushOK (fun t ht => by
      have hv := hc.post.valid t ht
      have := hv.2.1
      exact ⟨hv.1, hv.2.2, hc.post.noInto t ht, by omega⟩)
    (fun f hf => by
      show f < a.acc.length
      by_contra hn
      unfold Aut.isAcc at hf
      rw [List.getElem?_eq_none (by omega)] at hf
      cases hf)
    (fun t x hx => hx) r1 f1
  unfold FPostSem at h1
  rw [if_pos q1] at h1
  have h2 := fpre_sound (F := fun q => b.isAcc q = true) (n := p.size) (fun r hr => by
      rw [Pda.Has_iff] at hr
      obtain ⟨l, hm, _⟩ := hr
      obtain ⟨i, hi⟩ := List.mem_iff_getElem?.1 hm
      exact ⟨Pda.lt_size_of_rule hi, hc.pre.wf.toLt _ _ hm⟩) hc.pre.noInto (fun _ _ h => h) (r3.plain hBe) f2
  unfold FPreSem at h2
  rw [if_pos q1] at h2
  obtain ⟨c0, s1, s2, s3⟩ := h1
  obtain ⟨c2, s4, s5⟩ := h2
  exact ⟨c1 + d1, ⟨c0, c2, s1, s2, s3.trans s4, s5⟩, add_le_add r2 r4⟩

end lower

end Verif
