import Verif.Proofs.ShortestBack
import Verif.Proofs.AutOps

/-! # Shortest post* with early termination -/

namespace Verif

variable {W T : Type} [LinearOrder W] [LinearOrder T] [AddCommMonoid T] [IsOrderedCancelAddMonoid T]
variable {p : Pda W} {val : W → T} {a0 : Aut T} {qp : List ((Nat × Nat) × Nat)} {N : Nat}

open SProd
open Product (Mv PInv PExt EdgeOK InRange ann)

/-- What one round does: the element is out of date, or its transition is settled. -/
theorem ShL.step_cases (hc : ShCtx p val a0 qp N) {s : ShSt T} (h : ShL p val a0 qp N s) {e : ShElem T} {r : List (ShElem T)}
    (hp : (e :: r).Perm s.ws) (hle : ∀ u ∈ r, e.key ≤ u.key) :
    let s1 := shStepWith val p { s with ws := r } e
    ∃ w k, s.weights e.edge = some (w, k) ∧ k ≤ e.key ∧ 0 ≤ e.key ∧
      ((k < e.key ∧ s1.aut = s.aut ∧ s1.weights = s.weights ∧ s1.ws = r ∧ ∀ t, s1.Pend t ↔ s.Pend t) ∨
      (k = e.key ∧ ShI p val a0 qp N e.key s1 ∧ s1.aut = s.aut.emplaceEdge e.edge (e.trace, w) ∧
        (∀ t x k, s1.weights t = some (x, k) → ¬ s1.Pend t → s.weights t = some (x, k)))) := by
  intro s1
  obtain ⟨⟨κ, h⟩, hC⟩ := h
  have hin : e ∈ s.ws := hp.mem_iff.1 (List.mem_cons_self ..)
  obtain ⟨hκ, w, k, hw, hk⟩ := h.entry e hin
  refine ⟨w, k, hw, hk, le_trans h.kpos hκ, ?_⟩
  have hs1 : s1 = shStepWith val p { s with ws := r } e := rfl
  unfold shStepWith at hs1
  dsimp only at hs1
  rw [hw] at hs1
  dsimp only at hs1
  by_cases hlt : k < e.key
  · rw [if_pos hlt] at hs1
    rw [hs1]
    obtain ⟨_, h2⟩ := h.drop (s0 := { s with ws := r }) hp hw hlt rfl rfl rfl rfl rfl rfl
    exact .inl ⟨hlt, rfl, rfl, rfl, h2⟩
  · rw [if_neg hlt] at hs1
    right
    have hke : k = e.key := le_antisymm hk (not_lt.1 hlt)
    subst hke
    obtain ⟨h1, h2, h3⟩ := h.take (s0 := { s with ws := r, x := fpostRel p.size s.x e.edge, aut := s.aut.emplaceEdge e.edge (e.trace, w) }) hp hle hw rfl rfl rfl rfl rfl rfl
    have hC1 : ShC p val qp ({ s with ws := r, x := fpostRel p.size s.x e.edge, aut := s.aut.emplaceEdge e.edge (e.trace, w) } : ShSt T) (· = e.edge) := by
      refine ⟨?_, ?_⟩
      · intro t x k ht hn hex hs hl id r' l hr hcn
        exact (hC.ruleC t x k ht (fun hp => hn ((h3 t hex).2 hp)) (fun h => h) hs hl id r' l hr hcn).mono fun _ _ h => h
      · intro f m g q x k y k' hx hn hex hy hn2 hex2
        exact hC.epsC f m g q x k y k' hx (fun hp => hn ((h3 _ hex).2 hp)) (fun h => h) hy (fun hp => hn2 ((h3 _ hex2).2 hp)) (fun h => h)
    obtain ⟨i1, i2, i3⟩ := shBody_spec hc h1 hw h2 (h.entSrc e hin) hC1
    refine ⟨rfl, by rw [hs1]; exact i1, by rw [hs1, i3.aut], ?_⟩
    rw [hs1]
    intro t x k ht hn
    exact (i3.back t x k ht hn).1

/-- The transition has the weight `x` and has been announced: it is in the automaton and not in the queue. -/
def ShSt.Ann (s : ShSt T) (t : Tr) (x : T) : Prop := s.aut.wt t = some x ∧ ¬ s.Pend t

/-- A transition that is no longer pending has just been taken. -/
theorem ShL.step_pend (hc : ShCtx p val a0 qp N) {s : ShSt T} (h : ShL p val a0 qp N s) {e : ShElem T} {r : List (ShElem T)}
    (hp : (e :: r).Perm s.ws) (hle : ∀ u ∈ r, e.key ≤ u.key) {t : Tr} {x : T} {k : WithTop T}
    (ht : (shStepWith val p { s with ws := r } e).weights t = some (x, k)) (hn : ¬ (shStepWith val p { s with ws := r } e).Pend t)
    (hpd : s.Pend t) : t = e.edge := by
  obtain ⟨⟨κ, h⟩, hC⟩ := h
  have hin : e ∈ s.ws := hp.mem_iff.1 (List.mem_cons_self ..)
  obtain ⟨hκ, w, k', hw, hk⟩ := h.entry e hin
  unfold shStepWith at ht hn
  dsimp only at ht hn
  rw [hw] at ht hn
  dsimp only at ht hn
  split at ht
  · rename_i hlt
    rw [if_pos hlt] at hn
    obtain ⟨_, h2⟩ := h.drop (s0 := { s with ws := r }) hp hw hlt rfl rfl rfl rfl rfl rfl
    exact absurd ((h2 t).2 hpd) hn
  · rename_i hlt
    rw [if_neg hlt] at hn
    have hke : k' = e.key := le_antisymm hk (not_lt.1 hlt)
    subst hke
    obtain ⟨h1, h2, h3⟩ := h.take (s0 := { s with ws := r, x := fpostRel p.size s.x e.edge, aut := s.aut.emplaceEdge e.edge (e.trace, w) }) hp hle hw rfl rfl rfl rfl rfl rfl
    have hC1 : ShC p val qp ({ s with ws := r, x := fpostRel p.size s.x e.edge, aut := s.aut.emplaceEdge e.edge (e.trace, w) } : ShSt T) (· = e.edge) := by
      refine ⟨?_, ?_⟩
      · intro t x k ht hn hex hs hl id r' l hr hcn
        exact (hC.ruleC t x k ht (fun hp => hn ((h3 t hex).2 hp)) (fun h => h) hs hl id r' l hr hcn).mono fun _ _ h => h
      · intro f m g q x k y k' hx hn hex hy hn2 hex2
        exact hC.epsC f m g q x k y k' hx (fun hp => hn ((h3 _ hex).2 hp)) (fun h => h) hy (fun hp => hn2 ((h3 _ hex2).2 hp)) (fun h => h)
    obtain ⟨_, _, i3⟩ := shBody_spec hc h1 hw h2 (h.entSrc e hin) hC1
    by_contra hne
    exact (i3.back t x k ht hn).2 ((h3 t hne).2 hpd)

/-- While the saturation runs: every run from the input language is represented already, by a path of
announced transitions that weighs no more, or its weight is at least the least key in the queue. -/
theorem ShL.belowAnn (hc : ShCtx p val a0 qp N) (hp : Heap (ShElem T) (WithTop T) ShElem.key) {s : ShSt T}
    (hs : ShL p val a0 qp N s) {c : Config} {x : T}
    (hx : x ∈ RunWeightsFrom p.Has val p.size (· ∈ keys a0.edges) (fun q => a0.isAcc q = true) c) (k0 : WithTop T)
    (hk0 : ∀ e ∈ s.ws, k0 ≤ e.key) :
    (∃ y ∈ EPathWeights s.Ann (fun q => a0.isAcc q = true) c, y ≤ x) ∨ k0 ≤ (x : WithTop T) := by
  obtain ⟨fuel, r, hr⟩ := shLoop_terminates hc hp hs
  obtain ⟨⟨hL, hq1, hq2⟩, hnone⟩ := whileSome_inv (I := fun s' => ShL p val a0 qp N s' ∧ (∀ e ∈ s'.ws, k0 ≤ e.key) ∧
      ∀ t x k, s'.weights t = some (x, k) → k0 ≤ k ∨ s.Ann t x) (by
    rintro s1 s2 ⟨h1, h2, h3⟩ hst
    rcases hpop : hp.pop s1.ws with _ | ⟨e, r⟩
    · rw [hpop] at hst; cases hst
    · rw [hpop] at hst
      simp only [Option.map_some, Option.some.injEq] at hst
      obtain ⟨g1, g2⟩ := hp.spec _ _ _ hpop
      have hmem : ∀ u, u ∈ s1.ws ↔ u = e ∨ u ∈ r := fun u => by rw [← g1.mem_iff, List.mem_cons]
      obtain ⟨w, k, c1, c2, _, c3⟩ := h1.step_cases hc g1 g2
      have hnew := (h1.step hc g1 g2).1
      rw [hst] at c3 hnew
      refine ⟨hnew, ?_⟩
      rcases c3 with ⟨_, c4, c5, c6, _⟩ | ⟨c4, c5, c6, c7⟩
      · refine ⟨fun u hu => h2 u ((hmem u).2 (.inr (by rw [← c6]; exact hu))), ?_⟩
        rw [c5]
        exact h3
      · have hke : k0 ≤ e.key := h2 e ((hmem e).2 (.inl rfl))
        have hq : ∀ u ∈ s2.ws, k0 ≤ u.key := fun u hu => le_trans hke (c5.entry u hu).1
        refine ⟨hq, ?_⟩
        intro t x k ht
        by_cases hpd : s2.Pend t
        · obtain ⟨x', k', e', f1, f2, _, f4⟩ := hpd
          rw [ht] at f1
          cases f1
          left
          rw [← f4]
          exact hq e' f2
        · exact h3 t x k (c7 t x k ht hpd)) (by
    refine ⟨hs, hk0, ?_⟩
    intro t x k ht
    obtain ⟨⟨κ, hi⟩, _⟩ := hs
    by_cases hpd : s.Pend t
    · obtain ⟨x', k', e', f1, f2, _, f4⟩ := hpd
      rw [ht] at f1
      cases f1
      left
      rw [← f4]
      exact hk0 e' f2
    · exact .inr ⟨((hi.settled t x k ht).resolve_left hpd).2.1, hpd⟩) hr
  have hws : r.ws = [] := by
    rcases hpop : hp.pop r.ws with _ | y
    · exact (hp.none_iff _).1 hpop
    · rw [hpop] at hnone; cases hnone
  have hcl := hL.closed hc hws
  obtain ⟨⟨κ, hi⟩, _⟩ := hL
  obtain ⟨c', _, ⟨f, hpath, hF⟩, hrun⟩ := hx
  have key : ∀ {q w f}, Path (· ∈ keys a0.edges) q w f → CostEPath (fun t x => r.aut.wt t = some x) q w 0 f := by
    intro q w f hp
    induction hp with
    | nil q => exact .nil q
    | cons he _ ih =>
      have := (hc.valid _ he).2.1
      have hl := hc.lab
      dsimp only at this
      have h2 := CostEPath.cons (E := fun t x => r.aut.wt t = some x) (by omega) (hi.input _ he) ih
      rwa [add_zero] at h2
  obtain ⟨z, ⟨f', hz, hF'⟩, hzle⟩ := hcl.run (F := fun q => a0.isAcc q = true) hrun (b := 0) ⟨0, ⟨f, key hpath, hF⟩, le_refl _⟩
  rw [zero_add] at hzle
  have hf' : f' < a0.n := by
    show f' < a0.acc.length
    by_contra hn
    unfold Aut.isAcc at hF'
    rw [List.getElem?_eq_none (by omega)] at hF'
    cases hF'
  have walk : ∀ {q w y f}, CostEPath (fun t x => r.aut.wt t = some x) q w y f → f < a0.n →
      0 ≤ y ∧ r.base q ≤ (y : WithTop T) ∧ (CostEPath s.Ann q w y f ∨ k0 ≤ (y : WithTop T)) := by
    have edge : ∀ {t : Tr} {x y : T}, r.aut.wt t = some x → 0 ≤ y → r.base t.dst ≤ (y : WithTop T) → 0 ≤ x ∧
        r.base t.src ≤ ((x + y : T) : WithTop T) ∧ (s.Ann t x ∨ k0 ≤ ((x + y : T) : WithTop T)) := by
      intro t x y hx hy hb
      obtain ⟨k, hk⟩ := hi.autw t x hx
      have hx0 := hi.pos t x k hk
      have hke : k ≤ ((x + y : T) : WithTop T) := by
        rw [(hi.key t x k hk).1, add_comm x y, WithTop.coe_add]
        exact add_le_add hb (le_refl _)
      refine ⟨hx0, ?_, ?_⟩
      · unfold ShSt.base
        rw [hi.nQ]
        split
        · rw [← WithTop.coe_zero]
          exact WithTop.coe_le_coe.2 (add_nonneg hx0 hy)
        · rename_i hn
          exact le_trans (hi.tri t x k hk (Nat.le_of_not_lt hn)) hke
      · rcases hq2 t x k hk with h1 | h1
        · exact .inr (le_trans h1 hke)
        · exact .inl h1
    intro q w y f hp
    induction hp with
    | nil q =>
      intro hq
      refine ⟨le_refl _, ?_, .inl (.nil q)⟩
      unfold ShSt.base
      rw [hi.nQ, if_pos hq]
      exact le_refl _
    | cons hg he _ ih =>
      intro hq
      obtain ⟨i1, i2, i3⟩ := ih hq
      obtain ⟨j1, j2, j3⟩ := edge he i1 i2
      refine ⟨add_nonneg j1 i1, j2, ?_⟩
      rcases j3 with j3 | j3
      · rcases i3 with i3 | i3
        · exact .inl (.cons hg j3 i3)
        · exact .inr (le_trans i3 (WithTop.coe_le_coe.2 (le_add_of_nonneg_left j1)))
      · exact .inr j3
    | eps he _ ih =>
      intro hq
      obtain ⟨i1, i2, i3⟩ := ih hq
      obtain ⟨j1, j2, j3⟩ := edge he i1 i2
      refine ⟨add_nonneg j1 i1, j2, ?_⟩
      rcases j3 with j3 | j3
      · rcases i3 with i3 | i3
        · exact .inl (.eps j3 i3)
        · exact .inr (le_trans i3 (WithTop.coe_le_coe.2 (le_add_of_nonneg_left j1)))
      · exact .inr j3
  obtain ⟨_, _, h3⟩ := walk hz hf'
  rcases h3 with h3 | h3
  · exact .inl ⟨z, ⟨f', h3, hF'⟩, hzle⟩
  · exact .inr (le_trans h3 (WithTop.coe_le_coe.2 hzle))

theorem ShL.below (hc : ShCtx p val a0 qp N) (hp : Heap (ShElem T) (WithTop T) ShElem.key) {s : ShSt T}
    (hs : ShL p val a0 qp N s) {c : Config} {x : T}
    (hx : x ∈ RunWeightsFrom p.Has val p.size (· ∈ keys a0.edges) (fun q => a0.isAcc q = true) c) (k0 : WithTop T)
    (hk0 : ∀ e ∈ s.ws, k0 ≤ e.key) :
    (∃ y ∈ EPathWeights (WtOf s.aut) (fun q => a0.isAcc q = true) c, y ≤ x) ∨ k0 ≤ (x : WithTop T) := by
  rcases hs.belowAnn hc hp hx k0 hk0 with ⟨y, ⟨f, h1, h2⟩, h3⟩ | h
  · refine .inl ⟨y, ⟨f, ?_, h2⟩, h3⟩
    clear h2 h3
    generalize c.1 = q at h1
    generalize c.2 = w at h1
    induction h1 with
    | nil q => exact .nil q
    | cons hg he _ ih => exact .cons hg he.1 ih
    | eps he _ ih => exact .eps he.1 ih
  · exact .inr h

omit [LinearOrder T] [IsOrderedCancelAddMonoid T] in
theorem CostRun.lt (hw : p.WF) {c c' : Config} {x : T} (h : CostRun p.Has val c x c') (hc : c.1 < p.size) : c'.1 < p.size := by
  induction h with
  | nil c => exact hc
  | cons r w x c hr _ ih =>
    apply ih
    rw [Pda.Has_iff] at hr
    obtain ⟨l, hm, _⟩ := hr
    exact hw.toLt _ _ hm

/-- The other automaton: in range, without epsilon, weights zero. -/
structure OtherAut (p : Pda W) (b : Aut T) : Prop where
  size_le : p.size ≤ b.n
  range : InRange b
  noEps : ∀ t ∈ keys b.edges, t.label ≠ epsilon
  zero : ∀ t x, b.wt t = some x → x = 0

omit [LinearOrder T] [IsOrderedCancelAddMonoid T] [LinearOrder W] in
theorem OtherAut.path {b : Aut T} (hb : OtherAut p b) {q f : Nat} {w : List Nat} (h : Path (· ∈ keys b.edges) q w f) :
    CostEPath (WtOf b) q w 0 f := by
  induction h with
  | nil q => exact .nil q
  | cons he _ ih =>
    have h1 := SProd.wt_ann he
    rw [hb.zero _ _ h1] at h1
    have h2 := CostEPath.cons (E := WtOf b) (hb.noEps _ he) h1 ih
    rwa [add_zero] at h2

omit [LinearOrder T] [IsOrderedCancelAddMonoid T] [LinearOrder W] in
theorem OtherAut.path' {b : Aut T} (hb : OtherAut p b) {q f : Nat} {w : List Nat} {x : T} (h : CostEPath (WtOf b) q w x f) :
    Path (· ∈ keys b.edges) q w f ∧ x = 0 := by
  induction h with
  | nil q => exact ⟨.nil q, rfl⟩
  | cons _ he _ ih =>
    refine ⟨.cons (SProd.mem_of_wt he) ih.1, ?_⟩
    rw [hb.zero _ _ he, ih.2, add_zero]
  | eps he _ ih => exact absurd rfl (hb.noEps _ (SProd.mem_of_wt he))

/-- The weights of the runs from `a` to `b`. -/
abbrev Between (p : Pda W) (val : W → T) (a b : Aut T) : Set T :=
  ConnectWeights p.Has val p.size (· ∈ keys a.edges) (fun q => a.isAcc q = true) (· ∈ keys b.edges) (fun q => b.isAcc q = true)

/-- What holds while post* runs with the product. -/
structure SearchI (p : Pda W) (val : W → T) (a b : Aut T) (qp : List ((Nat × Nat) × Nat)) (N : Nat) (s : ShEt T (SProd T)) : Prop where
  loop : ShL p val a qp N s.st
  n : s.st.aut.n = N
  size : s.ext.base.size = p.size
  l : LInv false (WtOf s.st.aut) (WtOf b) s.st.aut b { prod := s.ext }
  back : BInv false (WtOf s.st.aut) (WtOf b) (fun _ => False) s.ext
  tri : s.found = false → Tri (MvR false (WtOf s.st.aut) (WtOf b)) s.ext fun _ => True
  pos : s.found = false → ∀ u, Acc s.ext u → 0 < s.ext.best u
  hit : s.found = true → ∃ u, Acc s.ext u
  least : s.found = true → ∀ x ∈ Between p val a b, ∃ u, Acc s.ext u ∧ s.ext.best u ≤ x

/-- The setting. -/
structure SearchCtx (p : Pda W) (val : W → T) (a b : Aut T) (qp : List ((Nat × Nat) × Nat)) (N : Nat) : Prop where
  ctx : ShCtx p val a qp N
  other : OtherAut p b
  apart : ∀ q, q < p.size → ¬ (a.isAcc q = true ∧ b.isAcc q = true)

variable {a b : Aut T}

omit [IsOrderedCancelAddMonoid T] [LinearOrder W] in
theorem OtherAut.nonneg (hb : OtherAut p b) : NonNeg (WtOf b) := fun t x hx => le_of_eq (hb.zero t x hx).symm

theorem ShL.nonneg {s : ShSt T} (h : ShL p val a qp N s) : NonNeg (WtOf s.aut) := by
  obtain ⟨⟨κ, hi⟩, _⟩ := h
  intro t x hx
  obtain ⟨k, hk⟩ := hi.autw t x hx
  exact hi.pos t x k hk

theorem ShL.range {s : ShSt T} (h : ShL p val a qp N s) (hn : s.aut.n = N) : InRange s.aut := by
  obtain ⟨⟨κ, hi⟩, _⟩ := h
  intro t ht
  obtain ⟨k, hk⟩ := hi.autw t _ (SProd.wt_ann ht)
  have := hi.valid t _ k hk
  rw [hn]
  exact ⟨this.1, this.2.2.1⟩

/-- An accepting state of the product is not an initial one. -/
theorem acc_of {dual : Bool} {SA SB : Tr → T → Prop} {A B : Aut T} {s : SProd T} (h : LInv dual SA SB A B { prod := s })
    (hno : ∀ q, q < s.base.size → ¬ (A.isAcc q = true ∧ B.isAcc q = true)) {u : Nat} (hu : u < s.base.aut.n)
    (ha : s.base.aut.isAcc u = true) : Acc s u := by
  refine ⟨?_, hu, ha⟩
  by_contra hc
  have h1 := (h.base.acc u hu).1 ha
  rw [Product.orig_lt (Nat.lt_of_not_le hc)] at h1
  exact hno u (Nat.lt_of_not_le hc) h1

omit [LinearOrder T] [IsOrderedCancelAddMonoid T] in
theorem key_of_acc {s : SProd T} {u : Nat} (h : Acc s u) : s.key u = s.best u := by
  unfold SProd.key
  rw [if_neg (Nat.not_lt.2 h.1)]

/-- An accepting state stays one, and does not get heavier. -/
theorem Acc.le {dual : Bool} {SA SB SA' SB' : Tr → T → Prop} {A B A' B' : Aut T} {s s' : SProd T} (h : LInv dual SA SB A B { prod := s })
    (h' : LInv dual SA' SB' A' B' { prod := s' }) (hle : SLe s s') (hA : ∀ q, A'.isAcc q = A.isAcc q) (hB : ∀ q, B'.isAcc q = B.isAcc q)
    {u : Nat} (hu : Acc s u) : Acc s' u ∧ s'.best u ≤ s.best u := by
  have hn := Nat.lt_of_lt_of_le hu.2.1 hle.ext.n
  have hacc : s'.base.aut.isAcc u = true := by
    rw [h'.base.acc u hn]
    have h1 := (h.base.acc u hu.2.1).1 hu.2.2
    dsimp only
    rw [hle.ext.orig u hu.2.1, hA, hB]
    exact h1
  have ha : Acc s' u := ⟨by rw [hle.ext.size]; exact hu.1, hn, hacc⟩
  refine ⟨ha, ?_⟩
  rw [← key_of_acc hu, ← key_of_acc ha]
  exact (hle.le u hu.2.1 fun _ => h.acc u hu.1 hu.2.1 hu.2.2).1

/-- Every run leads to an accepting state of the product that weighs no more, or weighs at least the least key. -/
theorem search_lower (hc : SearchCtx p val a b qp N) (hp : Heap (ShElem T) (WithTop T) ShElem.key) {st : ShSt T} {e : SProd T}
    (hL : ShL p val a qp N st) (hsz : e.base.size = p.size)
    (hl : LInv false (WtOf st.aut) (WtOf b) st.aut b { prod := e }) (ht : Tri (MvR false (WtOf st.aut) (WtOf b)) e fun _ => True)
    {x : T} (hx : x ∈ Between p val a b) (k0 : WithTop T) (hk0 : ∀ e ∈ st.ws, k0 ≤ e.key) :
    (∃ u, Acc e u ∧ e.best u ≤ x) ∨ k0 ≤ (x : WithTop T) := by
  obtain ⟨c, c', h1, h2, h3, f', h4, h5⟩ := hx
  have hlt : c'.1 < p.size := h3.lt hc.ctx.wf h1
  have hacc : ∀ q, st.aut.isAcc q = a.isAcc q := by
    obtain ⟨⟨κ, hi⟩, _⟩ := hL
    exact hi.acc
  rcases hL.below hc.ctx hp (c := c') ⟨c, h1, h2, h3⟩ k0 hk0 with ⟨y, ⟨f, g1, g2⟩, g3⟩ | h
  · left
    have hpath := PPath.merge (dual := false) (fun t y hy => hc.other.noEps t (SProd.mem_of_wt hy)) g1 (hc.other.path h4)
    obtain ⟨v, v1, v2, v3, v4⟩ := ht.path (by have := hl.base.n; dsimp only at this; omega) (by rw [hsz]; exact hlt) hpath
    have hva : e.base.aut.isAcc v = true := by
      rw [hl.base.acc v v1]
      dsimp only
      rw [v2]
      exact ⟨by rw [hacc]; exact g2, h5⟩
    have hA : Acc e v := acc_of hl (fun q hq => by rw [hacc]; exact hc.apart q (by rw [← hsz]; exact hq)) v1 hva
    refine ⟨v, hA, ?_⟩
    rw [← key_of_acc hA]
    exact le_trans v4 g3
  · exact .inr h

/-- The weight of an accepting state is the weight of a run. -/
theorem search_sound (hc : SearchCtx p val a b qp N) {st : ShSt T} {e : SProd T} (hL : ShL p val a qp N st)
    (hsz : e.base.size = p.size) (hl : LInv false (WtOf st.aut) (WtOf b) st.aut b { prod := e }) {u : Nat} (hu : Acc e u) :
    e.best u ∈ Between p val a b := by
  obtain ⟨⟨κ, hi⟩, _⟩ := hL
  obtain ⟨q, q1, q2⟩ := hl.sound u hu.2.1
  obtain ⟨w, c, d, p1, p2, p3⟩ := q2.split fun t y hy => hc.other.noEps t (SProd.mem_of_wt hy)
  obtain ⟨f1, f2⟩ := (hl.base.acc u hu.2.1).1 hu.2.2
  have hk : e.best u = c := by
    rw [← key_of_acc hu]
    simpa using p3
  rw [hk]
  dsimp only at f1 f2 p1 p2 q1
  rw [hi.acc] at f1
  rw [hsz] at q1
  have hlab := hc.ctx.lab
  have := fpost_sound (F := fun q => a.isAcc q = true) hc.ctx.size_le hc.ctx.lift.pushOK (fun t ht => by
      have hv := hc.ctx.valid t ht
      have := hv.2.1
      exact ⟨hv.1, hv.2.2, hc.ctx.noInto t ht, by omega⟩)
    (fun f hf => by
      show f < a.acc.length
      by_contra hn
      unfold Aut.isAcc at hf
      rw [List.getElem?_eq_none (by omega)] at hf
      cases hf)
    (fun t x hx => by
      obtain ⟨k, hk⟩ := hi.autw t x hx
      exact hi.der t x k hk) p1 f1
  unfold FPostSem at this
  rw [if_pos q1] at this
  obtain ⟨c', r1, r2, r3⟩ := this
  exact ⟨c', (q, w), r1, r2, r3, _, (hc.other.path' p2).1, f2⟩

theorem between_nonneg (hc : SearchCtx p val a b qp N) {x : T} (hx : x ∈ Between p val a b) : 0 ≤ x := by
  obtain ⟨_, _, _, _, h, _⟩ := hx
  clear * - h hc
  induction h with
  | nil => exact le_refl _
  | cons r w x c hr _ ih =>
    rw [Pda.Has_iff] at hr
    obtain ⟨l, hm, _⟩ := hr
    exact add_nonneg (hc.ctx.nonneg _ _ hm) ih

omit [IsOrderedCancelAddMonoid T] in
theorem emplace_moves {A b : Aut T} {t : Tr} {an : Ann T} {x y : Nat × Nat} {g : Nat} {w : T}
    (h : MvR false (WtOf (A.emplaceEdge t an)) (WtOf b) x g y w) :
    MvR false (WtOf A) (WtOf b) x g y w ∨ Uses true false (A.emplaceEdge t an) b t x g y w := by
  have key : ∀ u z, (A.emplaceEdge t an).wt u = some z → A.wt u = some z ∨ u = t := by
    intro u z hu
    rw [Aut.wt_emplace] at hu
    split at hu
    · rename_i h1; exact .inr h1.1
    · exact .inl hu
  rcases h with ⟨rfl, ⟨h3, h4⟩ | ⟨h3, h4⟩⟩ | ⟨h0, c, d, h3, h4, h5⟩
  · rcases key _ _ h3 with h1 | h1
    · exact .inl (.inl ⟨rfl, .inl ⟨h1, h4⟩⟩)
    · exact .inr (.inl ⟨rfl, .inl ⟨⟨h3, by simpa using h1⟩, h4⟩⟩)
  · exact .inl (.inl ⟨rfl, .inr ⟨h3, h4⟩⟩)
  · rcases key _ _ h3 with h1 | h1
    · exact .inl (.inr ⟨h0, c, d, h1, h4, h5⟩)
    · exact .inr (.inr ⟨h0, c, d, ⟨h3, by simpa using h1⟩, ⟨h4, by simpa using h0⟩, h5⟩)

/-- One round with the callback. -/
theorem SearchI.step (hc : SearchCtx p val a b qp N) (hp : Heap (ShElem T) (WithTop T) ShElem.key)
    (hq : Heap (T × Nat) T Prod.fst) (h : HashOrder) {s : ShEt T (SProd T)} (hs : SearchI p val a b qp N s) (hf : s.found = false)
    {e : ShElem T} {r : List (ShElem T)} (hperm : (e :: r).Perm s.st.ws) (hle : ∀ u ∈ r, e.key ≤ u.key) :
    SearchI p val a b qp N (shEtStepWith val (SInstance.cbFirst hq h false b) p { s with st := { s.st with ws := r } } e) := by
  have hL1 := (hs.loop.step hc.ctx hperm hle).1
  obtain ⟨w, k, c1, c2, c0, c3⟩ := hs.loop.step_cases hc.ctx hperm hle
  have hmem : ∀ u, u ∈ s.st.ws ↔ u = e ∨ u ∈ r := fun u => by rw [← hperm.mem_iff, List.mem_cons]
  have hke : ∀ u ∈ s.st.ws, e.key ≤ u.key := by
    intro u hu
    rcases (hmem u).1 hu with rfl | hu
    · exact le_refl _
    · exact hle u hu
  unfold shEtStepWith
  dsimp only
  rw [c1]
  dsimp only
  generalize shStepWith val p { s.st with ws := r } e = st1 at hL1 c3
  rcases c3 with ⟨hk, c4, c5, c6⟩ | ⟨hk, c5, c6, c7⟩
  · rw [if_pos hk]
    refine ⟨hL1, by dsimp only; rw [c4]; exact hs.n, hs.size, ?_, ?_, ?_, hs.pos, hs.hit, hs.least⟩
    · dsimp only; rw [c4]; exact hs.l
    · dsimp only; rw [c4]; exact hs.back
    · dsimp only; rw [c4]; exact hs.tri
  · rw [if_neg (by rw [hk]; exact lt_irrefl _)]
    unfold SInstance.cbFirst
    generalize hA1 : s.st.aut.emplaceEdge e.edge (e.trace, w) = A1 at c6
    have hwt : A1.wt e.edge = some w := by
      rw [← hA1, Aut.wt_emplace]
      split
      · rfl
      · rename_i hn
        rcases hx : s.st.aut.wt e.edge with _ | x
        · exact absurd ⟨rfl, hx⟩ hn
        · obtain ⟨⟨κ, hi⟩, _⟩ := hs.loop
          obtain ⟨k', hk'⟩ := hi.autw _ _ hx
          rw [c1] at hk'
          cases hk'
          rfl
    have hkeys : ∀ t ∈ keys s.st.aut.edges, t ∈ keys A1.edges := by
      intro t ht
      rw [← hA1, Aut.keys_emplaceEdge]
      exact .inl ht
    have hmono : ∀ t x, s.st.aut.wt t = some x → A1.wt t = some x := by
      intro t x hx
      rw [← hA1, Aut.wt_emplace]
      split
      · rename_i h1
        rw [h1.1, h1.2] at hx
        cases hx
      · exact hx
    have hn1 : A1.n = s.st.aut.n := by rw [← hA1]; unfold Aut.n; rw [Aut.acc_emplaceEdge]
    have hacc : ∀ q, A1.isAcc q = s.st.aut.isAcc q := fun q => by rw [← hA1]; unfold Aut.isAcc; rw [Aut.acc_emplaceEdge]
    have hr1 : InRange A1 := by rw [← c6]; exact hL1.range (by rw [c6, hn1]; exact hs.n)
    have hnn : NonNeg (WtOf A1) := by rw [← c6]; exact hL1.nonneg
    have hl0 : LInv false (WtOf A1) (WtOf b) A1 b { prod := s.ext } :=
      hs.l.mono hkeys (fun _ h => h) hacc (fun _ => rfl) (Nat.le_of_eq hn1.symm) (Nat.le_refl _) hmono (fun _ _ h => h)
    obtain ⟨d1, d2, d3, d4, d5⟩ := addEdge_spec hq h (inFirst := true) (dual := false) (M := MvR false (WtOf s.st.aut) (WtOf b))
      (M' := MvR false (WtOf A1) (WtOf b)) hr1 hc.other.range hnn hc.other.nonneg (fun _ _ h => h) (fun _ _ h => h) (by simp)
      e.edge (e.trace, w) e.key (by simpa using hwt) ⟨hl0, hs.tri hf⟩ (fun _ _ _ _ h => h)
      (fun x g y z hm => by subst hA1; exact emplace_moves hm)
    generalize addEdge hq h true false A1 b s.ext e.edge (e.trace, w) e.key = R at d1 d2 d3 d4 d5
    have hno : ∀ q, q < R.1.base.size → ¬ (A1.isAcc q = true ∧ b.isAcc q = true) := by
      intro q hq
      have hsz := d2.ext.size
      obtain ⟨⟨κ, hi⟩, _⟩ := hs.loop
      rw [hacc, hi.acc]
      exact hc.apart q (by rw [← hs.size, ← hsz]; exact hq)
    refine ⟨hL1, by dsimp only; rw [c6, hn1]; exact hs.n, by dsimp only; rw [d2.ext.size]; exact hs.size, ?_, ?_, ?_, ?_, ?_, ?_⟩
    · dsimp only; rw [c6]; exact d1
    · dsimp only; rw [c6]; exact d5 _ (fun _ _ _ _ _ h => h) (hs.back.mono hmono fun _ _ h => h)
    · dsimp only
      rw [hf, Bool.false_or, c6]
      intro h2
      exact (d4 h2).tri
    · dsimp only
      rw [hf, Bool.false_or]
      intro h2 u hu
      have h3 := stop_false (by rw [← d3]; exact h2) hu.2.1 hu.2.2
      have h4 := lt_of_le_of_lt c0 h3
      rw [← WithTop.coe_zero] at h4
      exact WithTop.coe_lt_coe.1 h4
    · dsimp only
      rw [hf, Bool.false_or]
      intro h2
      rw [d3] at h2
      obtain ⟨u, u1, u2, u3⟩ := stop_true h2
      exact ⟨u, acc_of d1 hno u1 u2⟩
    · dsimp only
      rw [hf, Bool.false_or]
      intro h2 x hx
      rcases search_lower hc hp hs.loop hs.size hs.l (hs.tri hf) hx e.key hke with ⟨u, u1, u2⟩ | h3
      · obtain ⟨u3, u4⟩ := Acc.le hs.l d1 d2 hacc (fun _ => rfl) u1
        exact ⟨u, u3, le_trans u4 u2⟩
      · rw [d3] at h2
        obtain ⟨u, u1, u2, u3⟩ := stop_true h2
        exact ⟨u, acc_of d1 hno u1 u2, WithTop.coe_le_coe.1 (le_trans u3 h3)⟩

/-- What holds while the constructor announces the input transitions. -/
structure SearchJ (p : Pda W) (A b : Aut T) (s : ShEt T (SProd T)) : Prop where
  aut : s.st.aut = A
  size : s.ext.base.size = p.size
  l : LInv false (WtOf A) (WtOf b) A b { prod := s.ext }
  back : BInv false (WtOf A) (WtOf b) (fun _ => False) s.ext
  tri : s.found = false → Tri (MvR false (WtOf A) (WtOf b)) s.ext fun _ => True
  pos : s.found = false → ∀ u, Acc s.ext u → 0 < s.ext.best u
  hit : s.found = true → ∃ u, Acc s.ext u ∧ s.ext.best u ≤ 0

omit [AddCommMonoid T] [IsOrderedCancelAddMonoid T] [LinearOrder T] in
theorem shInitEdge_aut [LinearOrder T] [AddCommMonoid T] (n : Nat) (s : ShSt T) (t : Tr) : (shInitEdge n s t).aut = s.aut := by
  unfold shInitEdge
  dsimp only
  split <;> split <;> rfl

theorem SearchJ.step {A : Aut T} (hq : Heap (T × Nat) T Prod.fst) (h : HashOrder) (hA : InRange A) (hb : OtherAut p b)
    (hnn : NonNeg (WtOf A)) (hno : ∀ q, q < p.size → ¬ (A.isAcc q = true ∧ b.isAcc q = true))
    {s : ShEt T (SProd T)} (hs : SearchJ p A b s) {t : Tr} (ht : t ∈ keys A.edges) :
    SearchJ p A b (shEtInitEdge (SInstance.cbFirst hq h false b) p.size s t) := by
  unfold shEtInitEdge
  dsimp only
  have haut : (shInitEdge p.size s.st t).aut = A := by rw [shInitEdge_aut]; exact hs.aut
  split
  · exact ⟨haut, hs.size, hs.l, hs.back, hs.tri, hs.pos, hs.hit⟩
  · rw [haut]
    unfold SInstance.cbFirst
    obtain ⟨M, hM, hMf, hMt⟩ : ∃ M : (Nat × Nat) → Nat → (Nat × Nat) → T → Prop, (∀ x g y w, M x g y w → MvR false (WtOf A) (WtOf b) x g y w) ∧
        Tri M s.ext (fun _ => True) ∧ (s.found = false → M = MvR false (WtOf A) (WtOf b)) := by
      cases hf : s.found with
      | false => exact ⟨_, fun _ _ _ _ h => h, hs.tri hf, fun _ => rfl⟩
      | true => exact ⟨fun _ _ _ _ => False, (fun _ _ _ _ h => h.elim), (fun _ _ _ _ _ _ h => h.elim), (fun h => by cases h)⟩
    obtain ⟨d1, d2, d3, d4, d5⟩ := addEdge_spec hq h (inFirst := true) (dual := false) (M := M)
      (M' := M) hA hb.range hnn hb.nonneg (fun _ _ h => h) (fun _ _ h => h) (by simp)
      t (Product.ann A t) (0 : WithTop T) (by simpa using SProd.wt_ann ht) ⟨hs.l, hMf⟩ hM
      (fun x g y z hm => .inl hm)
    generalize addEdge hq h true false A b s.ext t (Product.ann A t) 0 = R at d1 d2 d3 d4 d5
    have hsz : R.1.base.size = p.size := by rw [d2.ext.size]; exact hs.size
    refine ⟨haut, hsz, d1, d5 _ (fun _ _ _ _ _ h => h) hs.back, ?_, ?_, ?_⟩
    · dsimp only
      rw [Bool.or_eq_false_iff]
      rintro ⟨h1, h2⟩
      have := (d4 h2).tri
      rwa [hMt h1] at this
    · dsimp only
      rw [Bool.or_eq_false_iff]
      rintro ⟨h1, h2⟩ u hu
      have h3 := stop_false (by rw [← d3]; exact h2) hu.2.1 hu.2.2
      rw [← WithTop.coe_zero] at h3
      exact WithTop.coe_lt_coe.1 h3
    · dsimp only
      rw [Bool.or_eq_true]
      rintro (h1 | h2)
      · obtain ⟨u, u1, u2⟩ := hs.hit h1
        obtain ⟨u3, u4⟩ := Acc.le hs.l d1 d2 (fun _ => rfl) (fun _ => rfl) u1
        exact ⟨u, u3, le_trans u4 u2⟩
      · rw [d3] at h2
        obtain ⟨u, u1, u2, u3⟩ := stop_true h2
        refine ⟨u, acc_of d1 (by rw [hsz]; exact hno) u1 u2, ?_⟩
        rw [← WithTop.coe_zero] at u3
        exact WithTop.coe_le_coe.1 u3

theorem SearchJ.fold {A : Aut T} (hq : Heap (T × Nat) T Prod.fst) (h : HashOrder) (hA : InRange A) (hb : OtherAut p b)
    (hnn : NonNeg (WtOf A)) (hno : ∀ q, q < p.size → ¬ (A.isAcc q = true ∧ b.isAcc q = true)) (l : List Tr) :
    ∀ {s : ShEt T (SProd T)}, SearchJ p A b s → (∀ t ∈ l, t ∈ keys A.edges) →
    SearchJ p A b (l.foldl (shEtInitEdge (SInstance.cbFirst hq h false b) p.size) s) ∧
      (l.foldl (shEtInitEdge (SInstance.cbFirst hq h false b) p.size) s).st = l.foldl (shInitEdge p.size) s.st := by
  induction l with
  | nil => exact fun hs _ => ⟨hs, rfl⟩
  | cons t l ih =>
    intro s hs hl
    rw [List.foldl_cons, List.foldl_cons]
    obtain ⟨h1, h2⟩ := ih (hs.step hq h hA hb hnn hno (hl t (List.mem_cons_self ..))) fun u hu => hl u (List.mem_cons_of_mem _ hu)
    refine ⟨h1, h2.trans ?_⟩
    congr 1
    unfold shEtInitEdge
    dsimp only
    split <;> rfl

/-- What the search ends with. -/
structure SearchEnd (p : Pda W) (val : W → T) (a b : Aut T) (e : SProd T) (found : Bool) : Prop where
  apart : ∀ u, u < e.base.aut.n → e.base.aut.isAcc u = true → Acc e u
  sound : ∀ u, Acc e u → e.best u ∈ Between p val a b
  least : ∀ x ∈ Between p val a b, ∃ u, Acc e u ∧ e.best u ≤ x
  yes : found = true → ∃ u, Acc e u
  no : found = false → ∀ u, Acc e u → 0 < e.best u

theorem getD_append_false (l : List Bool) (k q : Nat) : (l ++ List.replicate k false)[q]?.getD false = l[q]?.getD false := by
  rw [List.getElem?_append]
  split
  · rfl
  · rename_i h
    rw [List.getElem?_eq_none (l := l) (by omega), List.getElem?_replicate]
    split <;> rfl

/-- The constructor establishes the invariant. -/
theorem shEtInit_search (hq : Heap (T × Nat) T Prod.fst) (h : HashOrder) (hc : SearchCtx p val a b (shQ p a) (shN p a))
    {e : SProd T} (hsz : e.base.size = p.size) (hl : LInv false (WtOf a) (WtOf b) a b { prod := e })
    (hbk : BInv false (WtOf a) (WtOf b) (fun _ => False) e) (htri : Tri (MvR false (WtOf a) (WtOf b)) e fun _ => True) (hpos : ∀ u, Acc e u → 0 < e.best u) :
    SearchI p val a b (shQ p a) (shN p a) (shEtInit h p (SInstance.cbFirst hq h false b) a e) := by
  have hL := shInit_inv h hc.ctx
  have hacc := (qInit_inv p ({ acc := a.acc } : Aut W)).1.acc
  have hle := hc.ctx.le
  unfold shN at hle
  unfold shEtInit
  unfold shInit at hL
  dsimp only at hL ⊢
  generalize hA : ({ acc := (qInit p ({ acc := a.acc } : Aut W)).1.acc, edges := a.edges } : Aut T) = A at hL ⊢
  have hAe : A.edges = a.edges := by rw [← hA]
  have hAn : A.n = shN p a := by rw [← hA]; rfl
  have hwt : ∀ t, A.wt t = a.wt t := by
    intro t
    unfold Aut.wt Aut.getEdge
    rw [hAe]
  have hAacc : ∀ q, A.isAcc q = a.isAcc q := by
    intro q
    rw [← hA]
    unfold Aut.isAcc
    dsimp only
    rw [hacc]
    exact getD_append_false _ _ _
  have hrA : InRange A := by
    intro t ht
    rw [hAe] at ht
    have h1 := hc.ctx.valid t ht
    rw [hAn]
    unfold shN
    exact ⟨Nat.lt_of_lt_of_le h1.1 hle, Nat.lt_of_lt_of_le h1.2.2 hle⟩
  have hz : ∀ t x, a.wt t = some x → x = 0 := by
    intro t x hx
    unfold Aut.wt Aut.getEdge at hx
    obtain ⟨ann, h1, h2⟩ := Option.map_eq_some_iff.1 hx
    obtain ⟨e, h3, h4⟩ := Option.map_eq_some_iff.1 h1
    have := hc.ctx.zero e (List.mem_of_find?_eq_some h3)
    rw [h4, h2] at this
    exact this
  have hnn : NonNeg (WtOf A) := by
    intro t x hx
    unfold WtOf at hx
    rw [hwt] at hx
    exact le_of_eq (hz t x hx).symm
  have hfun : WtOf A = WtOf a := by
    funext t x
    unfold WtOf
    rw [hwt]
  have hperm := out_all h A fun t ht => (hrA t ht).1
  have h0 : SearchJ p A b ({ st := { aut := A, x := { nQ := a.n, qPrime := (qInit p ({ acc := a.acc } : Aut W)).2 } }, ext := e } : ShEt T (SProd T)) := by
    refine ⟨rfl, hsz, ?_, by rw [hfun]; exact hbk, ?_, (fun _ => hpos), (fun h => by cases h)⟩
    · rw [hfun]
      exact hl.mono (fun t ht => by rw [hAe]; exact ht) (fun _ h => h) hAacc (fun _ => rfl) (by rw [hAn]; unfold shN; exact hle) (Nat.le_refl _) (fun _ _ h => h) (fun _ _ h => h)
    · rw [hfun]
      exact fun _ => htri
  obtain ⟨j, j1⟩ := SearchJ.fold hq h hrA hc.other hnn (fun q hq => by rw [hAacc]; exact hc.apart q hq) _ h0
    (fun t ht => hperm.mem_iff.1 ht)
  generalize List.foldl (shEtInitEdge (SInstance.cbFirst hq h false b) p.size) _ _ = R at j j1
  refine ⟨by rw [j1]; exact hL, by rw [j.aut]; exact hAn, j.size, by rw [j.aut]; exact j.l, by rw [j.aut]; exact j.back, by rw [j.aut]; exact j.tri, j.pos, ?_, ?_⟩
  · intro hf
    obtain ⟨u, u1, _⟩ := j.hit hf
    exact ⟨u, u1⟩
  · intro hf x hx
    obtain ⟨u, u1, u2⟩ := j.hit hf
    exact ⟨u, u1, le_trans u2 (between_nonneg hc hx)⟩

/-- The loop ends. -/
theorem search_terminates (hc : SearchCtx p val a b qp N) (hp : Heap (ShElem T) (WithTop T) ShElem.key)
    (hq : Heap (T × Nat) T Prod.fst) (h : HashOrder) {s : ShEt T (SProd T)} (hs : SearchI p val a b qp N s) :
    ∃ fuel r, whileSome (shEtStep val hp (SInstance.cbFirst hq h false b) p) fuel s = some r := by
  classical
  refine FP.whileSome_wf (fun s => (allTr p N).countP fun t => decide (¬ s.st.Settled t)) (fun s => s.st.ws.length)
    (SearchI p val a b qp N) ?_ s hs
  intro s s' hs hst
  unfold shEtStep at hst
  split at hst
  · cases hst
  rename_i hf
  rcases hpop : hp.pop s.st.ws with _ | ⟨e, r⟩
  · rw [hpop] at hst; cases hst
  · rw [hpop] at hst
    simp only [Option.map_some, Option.some.injEq] at hst
    obtain ⟨h1, h2⟩ := hp.spec _ _ _ hpop
    obtain ⟨h3, h4⟩ := hs.loop.step hc.ctx h1 h2
    have h0 := hs.step hc hp hq h (by simpa using hf) h1 h2
    have hse : s'.st = shStepWith val p { s.st with ws := r } e := by
      rw [← hst]
      unfold shEtStepWith
      dsimp only
      split
      · rfl
      · split <;> rfl
    rw [hst] at h0
    rw [← hse] at h3 h4
    refine ⟨h0, ?_⟩
    rcases h4 with ⟨h4, h5⟩ | ⟨h4, t, ht, h5, h6⟩
    · refine .inr ⟨?_, h5⟩
      simp only [h4]
    · refine .inl (countP_lt_of_imp _ _ _ ?_ (mem_allTr ht) (by simpa using h5) (by simpa using h6))
      intro u _ hu
      simp only [decide_eq_true_eq] at hu ⊢
      exact fun hh => hu (h4 u hh)

/-- What else holds at the end: the automaton is one of shortest post*, or the given one, and the back edges are moves. -/
structure PostEnd (p : Pda W) (val : W → T) (a b : Aut T) (qp : List ((Nat × Nat) × Nat)) (N : Nat) (A : Aut T) (e : SProd T) : Prop where
  size : e.base.size = p.size
  n : A.n ≤ N
  l : LInv false (WtOf A) (WtOf b) A b { prod := e }
  back : BInv false (WtOf A) (WtOf b) (fun _ => False) e
  aut : A = a ∨ ∃ κ s, ShI p val a qp N κ s ∧ s.aut = A

/-- What the loop ends with. -/
theorem search_end (hc : SearchCtx p val a b qp N) (hp : Heap (ShElem T) (WithTop T) ShElem.key)
    (hq : Heap (T × Nat) T Prod.fst) (h : HashOrder) {s r : ShEt T (SProd T)} {fuel : Nat} (hs : SearchI p val a b qp N s)
    (hr : whileSome (shEtStep val hp (SInstance.cbFirst hq h false b) p) fuel s = some r) :
    SearchEnd p val a b r.ext r.found ∧ PostEnd p val a b qp N r.st.aut r.ext := by
  obtain ⟨h1, h2⟩ := whileSome_inv (I := SearchI p val a b qp N) (by
    intro s s' hs hst
    unfold shEtStep at hst
    split at hst
    · cases hst
    rename_i hf
    rcases hpop : hp.pop s.st.ws with _ | ⟨e, r⟩
    · rw [hpop] at hst; cases hst
    · rw [hpop] at hst
      simp only [Option.map_some, Option.some.injEq] at hst
      obtain ⟨h1, h2⟩ := hp.spec _ _ _ hpop
      rw [← hst]
      exact hs.step hc hp hq h (by simpa using hf) h1 h2) hs hr
  have hno : ∀ q, q < r.ext.base.size → ¬ (r.st.aut.isAcc q = true ∧ b.isAcc q = true) := by
    intro q hq
    rw [h1.size] at hq
    obtain ⟨⟨κ, hi⟩, _⟩ := h1.loop
    rw [hi.acc]
    exact hc.apart q hq
  have hpe : PostEnd p val a b qp N r.st.aut r.ext := by
    refine ⟨h1.size, Nat.le_of_eq h1.n, h1.l, h1.back, .inr ?_⟩
    obtain ⟨⟨κ, hi⟩, _⟩ := h1.loop
    exact ⟨κ, _, hi, rfl⟩
  refine ⟨⟨fun u hu ha => acc_of h1.l hno hu ha, fun u hu => search_sound hc h1.loop h1.size h1.l hu, ?_, h1.hit, h1.pos⟩, hpe⟩
  intro x hx
  cases hf : r.found with
  | true => exact h1.least hf x hx
  | false =>
    unfold shEtStep at h2
    rw [hf] at h2
    simp only [Bool.false_eq_true, if_false, Option.map_eq_none_iff] at h2
    have hws := (hp.none_iff _).1 h2
    rcases search_lower hc hp h1.loop h1.size h1.l (h1.tri hf) hx ⊤ (by rw [hws]; simp) with h3 | h3
    · exact h3
    · exact absurd (top_le_iff.1 h3) (WithTop.coe_ne_top)

/-- The answer read off the product at the end. -/
theorem SearchEnd.findFirst {e : SProd T} {found : Bool} (h : SearchEnd p val a b e found) :
    (∀ x, e.findFirst.2 = ((x : T) : WithTop T) ↔ IsLeast (Between p val a b) x) ∧ (e.findFirst.2 = ⊤ ↔ Between p val a b = ∅) := by
  have hle : ∀ x, e.findFirst.2 = ((x : T) : WithTop T) → IsLeast (Between p val a b) x := by
    intro x hx
    obtain ⟨⟨u, u1, u2, u3⟩, h2⟩ := findFirst_coe hx
    refine ⟨u3 ▸ h.sound u (h.apart u u1 u2), ?_⟩
    intro y hy
    obtain ⟨v, v1, v2⟩ := h.least y hy
    exact le_trans (h2 v v1.2.1 v1.2.2) v2
  have htop : e.findFirst.2 = ⊤ ↔ Between p val a b = ∅ := by
    rw [findFirst_top]
    constructor
    · intro h1
      refine Set.ext fun x => ⟨fun hx => ?_, fun hx => hx.elim⟩
      obtain ⟨v, v1, _⟩ := h.least x hx
      have := h1 v v1.2.1
      rw [v1.2.2] at this
      cases this
    · intro h1 u hu
      by_contra hn
      have := h.sound u (h.apart u hu (by simpa using hn))
      rw [h1] at this
      exact this
  refine ⟨fun x => ⟨hle x, ?_⟩, htop⟩
  intro hx
  cases hf : e.findFirst.2 with
  | top =>
    rw [htop] at hf
    rw [hf] at hx
    exact hx.1.elim
  | coe y =>
    have := hle y hf
    rw [le_antisymm (this.2 hx.1) (hx.2 this.1)]

theorem ShCtx.otherAut (hc : ShCtx p val a qp N) : OtherAut p a := by
  refine ⟨hc.size_le, fun t ht => ⟨(hc.valid t ht).1, (hc.valid t ht).2.2⟩, fun t ht => ?_, ?_⟩
  · have := (hc.valid t ht).2.1
    have := hc.lab
    omega
  · intro t x hx
    unfold Aut.wt Aut.getEdge at hx
    obtain ⟨ann, h1, h2⟩ := Option.map_eq_some_iff.1 hx
    obtain ⟨e, h3, h4⟩ := Option.map_eq_some_iff.1 h1
    have := hc.zero e (List.mem_of_find?_eq_some h3)
    rw [h4, h2] at this
    exact this

/-- `post_star_accepts` ends. -/
theorem postStarAccepts_terminates (hc : SearchCtx p val a b (shQ p a) (shN p a)) (hneg : shNegative val p a = false)
    (hp : Heap (ShElem T) (WithTop T) ShElem.key) (hq : Heap (T × Nat) T Prod.fst) (h : HashOrder) (junk : Nat → T) :
    ∃ fuel r, SInstance.postStarAccepts val hp hq h p (SInstance.ofAutomata p.size a b junk) fuel = .ok (some r) ∧
      SearchEnd p val a b r.1.prod r.2 ∧ ∀ fuel' r', SInstance.postStarAccepts val hp hq h p (SInstance.ofAutomata p.size a b junk) fuel' =
        .ok (some r') → SearchEnd p val a b r'.1.prod r'.2 ∧ PostEnd p val a b (shQ p a) (shN p a) r'.1.initial r'.1.prod := by
  have ho := hc.ctx.otherAut
  have hnn := ho.nonneg
  have hl0 : LInv false (WtOf a) (WtOf b) a b { prod := (SInstance.ofAutomata p.size a b junk).prod } :=
    ofAutomata_linv false hc.ctx.size_le hc.other.size_le junk
  have hn0 : (SInstance.ofAutomata p.size a b junk).prod.base.aut.n = (SInstance.ofAutomata p.size a b junk).prod.base.size := by
    rw [hl0.base.n]; rfl
  obtain ⟨d1, d2, d3, d4, d5⟩ := initProduct_spec hq h ho.range hc.other.range hnn hc.other.nonneg (fun _ _ h => h) (fun _ _ h => h) hl0 hn0
  unfold SInstance.postStarAccepts
  dsimp only
  have e1 : (SInstance.ofAutomata p.size a b junk).initial = a := rfl
  have e2 : (SInstance.ofAutomata p.size a b junk).final = b := rfl
  rw [e1, e2]
  generalize initProduct hq h a b (SInstance.ofAutomata p.size a b junk).prod = R at d1 d2 d3 d4 d5
  have hsz : R.1.base.size = p.size := d2.ext.size
  have hno : ∀ q, q < R.1.base.size → ¬ (a.isAcc q = true ∧ b.isAcc q = true) := fun q hq => hc.apart q (by rw [← hsz]; exact hq)
  have hbk : BInv false (WtOf a) (WtOf b) (fun _ => False) R.1 := by
    refine d5 _ (fun _ _ _ _ _ h => h) (BInv.start _ _ _ ?_)
    intro u h1 h2
    have hn1 : (Product.ofAutomata p.size a b).aut.n = (Product.ofAutomata p.size a b).size := hn0
    omega
  cases hR : R.2 with
  | true =>
    have hE : SearchEnd p val a b R.1 true := by
      rw [d3] at hR
      obtain ⟨u, u1, u2, u3⟩ := stop_true hR
      have hu := acc_of d1 hno u1 u2
      have hsound : ∀ u, Acc R.1 u → R.1.best u ∈ Between p val a b := by
        intro u hu
        obtain ⟨q, q1, q2⟩ := d1.sound u hu.2.1
        obtain ⟨w, c, d, p1, p2, p3⟩ := q2.split fun t y hy => hc.other.noEps t (SProd.mem_of_wt hy)
        obtain ⟨f1, f2⟩ := (d1.base.acc u hu.2.1).1 hu.2.2
        obtain ⟨g1, g2⟩ := ho.path' p1
        have hk : R.1.best u = 0 := by
          rw [← key_of_acc hu, ← g2]
          simpa using p3
        rw [hk]
        dsimp only at q1
        exact ⟨(q, w), (q, w), by rw [← hsz]; exact q1, ⟨_, g1, f1⟩, .nil _, _, (hc.other.path' p2).1, f2⟩
      refine ⟨fun u h1 h2 => acc_of d1 hno h1 h2, hsound, ?_, fun _ => ⟨u, hu⟩, fun h => by cases h⟩
      intro x hx
      refine ⟨u, hu, le_trans ?_ (between_nonneg hc hx)⟩
      rw [← WithTop.coe_zero] at u3
      exact WithTop.coe_le_coe.1 u3
    refine ⟨0, ({ SInstance.ofAutomata p.size a b junk with prod := R.1 }, true), rfl, hE, ?_⟩
    intro fuel' r' hr'
    simp only [if_true, Except.ok.injEq, Option.some.injEq] at hr'
    rw [← hr']
    exact ⟨hE, hsz, hc.ctx.le, d1, hbk, .inl rfl⟩
  | false =>
    rw [hneg]
    have hpos : ∀ u, Acc R.1 u → 0 < R.1.best u := by
      intro u hu
      have h3 := stop_false (by rw [← d3]; exact hR) hu.2.1 hu.2.2
      rw [← WithTop.coe_zero] at h3
      exact WithTop.coe_lt_coe.1 h3
    have hI := shEtInit_search hq h hc hsz d1 hbk (d4 hR).tri hpos
    obtain ⟨fuel, r, hr⟩ := search_terminates hc hp hq h hI
    have hend : ∀ fuel' r', whileSome (shEtStep val hp (SInstance.cbFirst hq h false b) p) fuel' (shEtInit h p (SInstance.cbFirst hq h false b) a R.1) = some r' →
        SearchEnd p val a b r'.ext r'.found ∧ PostEnd p val a b (shQ p a) (shN p a) r'.st.aut r'.ext := fun fuel' r' hr' => search_end hc hp hq h hI hr'
    refine ⟨fuel, ({ SInstance.ofAutomata p.size a b junk with initial := r.st.aut, prod := r.ext }, r.found), ?_, (hend _ _ hr).1, ?_⟩
    · simp [hr, e2]
    · intro fuel' r' hr'
      simp only [Bool.false_eq_true, if_false, Except.ok.injEq, Option.map_eq_some_iff] at hr'
      obtain ⟨r1, h1, h2⟩ := hr'
      rw [← h2]
      exact hend _ _ h1

end Verif
