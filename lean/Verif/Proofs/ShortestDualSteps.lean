import Verif.Proofs.ShortestDual

/-! # Shortest dual search: one round -/

namespace Verif

variable {W T : Type} [LinearOrder W] [Zero W] [LinearOrder T] [AddCommMonoid T] [IsOrderedCancelAddMonoid T]
variable {p : Pda W} {val : W → T} {a b : Aut T} {qp : List ((Nat × Nat) × Nat)} {N : Nat}

open SProd
open Product (Mv PInv PExt EdgeOK InRange ann Meets)

omit [LinearOrder T] [IsOrderedCancelAddMonoid T] in
theorem SProd.MvR.uses_first {A B : Aut T} {EA EA' EB : Tr → T → Prop} {t : Tr} (hA : ∀ u x, EA' u x → A.wt u = some x)
    (hA' : ∀ u x, EA' u x → EA u x ∨ u = t) (hB : ∀ u x, EB u x → B.wt u = some x) {x y : Nat × Nat} {g : Nat} {w : T}
    (h : MvR true EA' EB x g y w) : MvR true EA EB x g y w ∨ Uses true true A B t x g y w := by
  rcases h with ⟨rfl, ⟨h3, h4⟩ | ⟨h3, h4⟩⟩ | ⟨h0, c, d, h3, h4, h5⟩
  · rcases hA' _ _ h3 with h1 | h1
    · exact .inl (.inl ⟨rfl, .inl ⟨h1, h4⟩⟩)
    · exact .inr (.inl ⟨rfl, .inl ⟨⟨hA _ _ h3, by simpa using h1⟩, h4⟩⟩)
  · exact .inl (.inl ⟨rfl, .inr ⟨h3, h4⟩⟩)
  · rcases hA' _ _ h3 with h1 | h1
    · exact .inl (.inr ⟨h0, c, d, h1, h4, h5⟩)
    · exact .inr (.inr ⟨h0, c, d, ⟨hA _ _ h3, by simpa using h1⟩, ⟨hB _ _ h4, by simpa using h0⟩, h5⟩)

omit [LinearOrder T] [IsOrderedCancelAddMonoid T] in
theorem SProd.MvR.uses_second {A B : Aut T} {EA EB EB' : Tr → T → Prop} {t : Tr} (hB : ∀ u x, EB' u x → B.wt u = some x)
    (hB' : ∀ u x, EB' u x → EB u x ∨ u = t) (hA : ∀ u x, EA u x → A.wt u = some x) {x y : Nat × Nat} {g : Nat} {w : T}
    (h : MvR true EA EB' x g y w) : MvR true EA EB x g y w ∨ Uses false true A B t x g y w := by
  rcases h with ⟨rfl, ⟨h3, h4⟩ | ⟨h3, h4⟩⟩ | ⟨h0, c, d, h3, h4, h5⟩
  · exact .inl (.inl ⟨rfl, .inl ⟨h3, h4⟩⟩)
  · rcases hB' _ _ h3 with h1 | h1
    · exact .inl (.inl ⟨rfl, .inr ⟨h1, h4⟩⟩)
    · exact .inr (.inl ⟨rfl, .inr ⟨⟨hB _ _ h3, by simpa using h1⟩, h4⟩⟩)
  · rcases hB' _ _ h4 with h1 | h1
    · exact .inl (.inr ⟨h0, c, d, h3, h1, h5⟩)
    · exact .inr (.inr ⟨h0, c, d, ⟨hA _ _ h3, by simpa using h0⟩, ⟨hB _ _ h4, by simpa using h1⟩, h5⟩)

/-- No initial state of the product is accepting. -/
theorem DualCtx.apart (hc : DualCtx p val a b qp N) {σ : Type} {pr : SPreSt T σ} (hpre : SPreL p val b pr) (A : Aut T) :
    ∀ q, q < p.size → ¬ (A.isAcc q = true ∧ pr.aut.isAcc q = true) := by
  obtain ⟨_, _, hacc', _, _⟩ := hpre.facts
  intro q hq
  rw [hacc', hc.pre.noAcc q hq]
  rintro ⟨_, h⟩
  cases h

theorem DM.moves {A B : Aut T} {EA EB : Tr → T → Prop} (hA : ∀ t x, EA t x → A.wt t = some x) (hB : ∀ t x, EB t x → B.wt t = some x)
    (hiA : ∀ t ∈ keys a.edges, A.wt t = some 0) (hiB : ∀ t ∈ keys b.edges, B.wt t = some 0) {x y : Nat × Nat} {g : Nat} {w : T}
    (h : DM a b EA EB x g y w) : MvR true (WtOf A) (WtOf B) x g y w := by
  rcases h with h | h
  · refine h.mono hA ?_
    rintro t z (h | ⟨h, rfl⟩)
    · exact hB _ _ h
    · exact hiB _ h
  · refine h.mono ?_ hB
    rintro t z ⟨h, rfl⟩
    exact hiA _ h

theorem WithTop.pos_of_key {k : WithTop T} (hk : 0 ≤ k) {z : SProd T} (hz : ∀ u, Acc z u → k < (z.best u : WithTop T)) :
    ∀ u, Acc z u → 0 < z.best u := by
  intro u hu
  have := lt_of_le_of_lt hk (hz u hu)
  rw [← WithTop.coe_zero] at this
  exact WithTop.coe_lt_coe.1 this

/-- The step of post*. -/
theorem DualI.postStep (hc : DualCtx p val a b qp N) (hp : Heap (ShElem T) (WithTop T) ShElem.key)
    (hq : Heap (T × Nat) T Prod.fst) (h : HashOrder) {e0 : SProd T} {st : ShSt T} {pr : SPreSt T (SProd T)} {ext : SProd T}
    (hs : DualI p val a b qp N e0 st pr ext false)
    {e : ShElem T} {r : List (ShElem T)} (hperm : (e :: r).Perm st.ws) (hle : ∀ u ∈ r, e.key ≤ u.key) :
    let R := shEtStepWith val (SInstance.cbFirst hq h true pr.aut) p ⟨{ st with ws := r }, ext, false⟩ e
    DualI p val a b qp N e0 R.st pr R.ext R.found := by
  intro R
  have hR : R = shEtStepWith val (SInstance.cbFirst hq h true pr.aut) p ⟨{ st with ws := r }, ext, false⟩ e := rfl
  have hL1 := (hs.post.step hc.post hperm hle).1
  have hpd : ∀ t x, (shStepWith val p { st with ws := r } e).Ann t x → st.Pend t → t = e.edge := by
    rintro t x ⟨h1, h2⟩ h3
    obtain ⟨⟨κ, hi⟩, _⟩ := hL1
    obtain ⟨k, hk⟩ := hi.autw t x h1
    exact hs.post.step_pend hc.post hperm hle hk h2 h3
  obtain ⟨w, k, c1, c2, c0, c3⟩ := hs.post.step_cases hc.post hperm hle
  have hmem : ∀ u, u ∈ st.ws ↔ u = e ∨ u ∈ r := fun u => by rw [← hperm.mem_iff, List.mem_cons]
  have hke : ∀ u ∈ st.ws, e.key ≤ u.key := by
    intro u hu
    rcases (hmem u).1 hu with rfl | hu
    · exact le_refl _
    · exact hle u hu
  unfold shEtStepWith at hR
  dsimp only at hR
  rw [c1] at hR
  dsimp only at hR
  generalize shStepWith val p { st with ws := r } e = st1 at hL1 c3 hR hpd
  rcases c3 with ⟨hk, c4, c5, c6, c7⟩ | ⟨hk, c5, c6, c7⟩
  · rw [if_pos hk] at hR
    rw [hR]
    have hAnn : st1.Ann = st.Ann := by
      funext t x
      unfold ShSt.Ann
      rw [c4, c7]
    refine ⟨hL1, by dsimp only; rw [c4]; exact hs.n, hs.pre, hs.size, ?_, ?_, hs.pos, hs.hit, hs.least, hs.back, hs.just⟩
    · dsimp only; rw [c4]; exact hs.l
    · dsimp only; rw [hAnn]; exact hs.tri
  · rw [if_neg (by rw [hk]; exact lt_irrefl _)] at hR
    unfold SInstance.cbFirst at hR
    generalize hA1 : st.aut.emplaceEdge e.edge (e.trace, w) = A1 at c6 hR
    have hwt : A1.wt e.edge = some w := by
      rw [← hA1, Aut.wt_emplace]
      split
      · rfl
      · rename_i hn
        rcases hx : st.aut.wt e.edge with _ | x
        · exact absurd ⟨rfl, hx⟩ hn
        · obtain ⟨⟨κ, hi⟩, _⟩ := hs.post
          obtain ⟨k', hk'⟩ := hi.autw _ _ hx
          rw [c1] at hk'
          cases hk'
          rfl
    have hkeys : ∀ t ∈ keys st.aut.edges, t ∈ keys A1.edges := by
      intro t ht
      rw [← hA1, Aut.keys_emplaceEdge]
      exact .inl ht
    have hold : ∀ t x, A1.wt t = some x → st.aut.wt t = some x ∨ t = e.edge := by
      intro t x hx
      rw [← hA1, Aut.wt_emplace] at hx
      split at hx
      · rename_i h1; exact .inr h1.1
      · exact .inl hx
    have hn1 : A1.n = st.aut.n := by rw [← hA1]; unfold Aut.n; rw [Aut.acc_emplaceEdge]
    have hacc : ∀ q, A1.isAcc q = st.aut.isAcc q := fun q => by rw [← hA1]; unfold Aut.isAcc; rw [Aut.acc_emplaceEdge]
    have hr1 : InRange A1 := by rw [← c6]; exact hL1.range (by rw [c6, hn1]; exact hs.n)
    obtain ⟨f1, f2, f3⟩ := hL1.facts
    rw [c6] at f1 f2 f3
    obtain ⟨g1, g2, g3, g4, g5⟩ := hs.pre.facts
    have hl0 : LInv true (PostW p val a qp) (PreW p val b) A1 pr.aut { prod := ext } :=
      hs.l.mono hkeys (fun _ h => h) hacc (fun _ => rfl) (Nat.le_of_eq hn1.symm) (Nat.le_refl _) (fun _ _ h => h) (fun _ _ h => h)
    have hAw : ∀ t x, st1.Ann t x → A1.wt t = some x := fun t x h => by rw [← c6]; exact h.1
    have hBw : ∀ t x, pr.Done t x ∨ (t ∈ keys b.edges ∧ x = 0) → pr.aut.wt t = some x := by
      rintro t x (h | ⟨h, rfl⟩)
      · exact h.1
      · exact hs.pre.input t h
    obtain ⟨b1, b2, b3, b4, b5, b6⟩ := announce (inFirst := true) (an := (e.trace, w)) hq h hc.post.postW_nonneg hc.pre.preW_nonneg hr1 g1 f2 g4
      (hc.apart hs.pre A1) hs.size hl0 (M' := DM a b st1.Ann pr.Done) (t := e.edge) e.key (hs.tri rfl) (by simpa using hwt)
      (fun x g y z hm => DM.moves hAw (fun _ _ h => h.1) f3 hs.pre.input hm)
      (fun x g y z hm => by
        rcases hm with hm | hm
        · rcases SProd.MvR.uses_first (EA := st.Ann) (t := e.edge) hAw (fun u x hu => by
            by_cases hue : u = e.edge
            · exact .inr hue
            · refine .inl ⟨(hold u x (hAw u x hu)).resolve_right hue, fun hpn => hue (hpd u x hu hpn)⟩) hBw hm with h1 | h1
          · exact .inl (.inl h1)
          · exact .inr h1
        · exact .inl (.inr hm))
    generalize addEdge hq h true true A1 pr.aut ext e.edge (e.trace, w) e.key = c at b1 b2 b3 b4 b5 b6 hR
    rw [hR]
    dsimp only
    rw [Bool.false_or]
    refine ⟨hL1, by rw [c6, hn1]; exact hs.n, hs.pre, b2, by rw [c6]; exact b1, fun h1 => (b5 h1).1, ?_, ?_, ?_, hs.back.trans b6, hs.just⟩
    · exact fun h1 => WithTop.pos_of_key c0 (b5 h1).2
    · intro h1
      obtain ⟨u, u1, _⟩ := b4 h1
      exact ⟨u, u1⟩
    · intro h1 x hx
      rcases dual_lower_post hc hp hs.post hs.pre hs.size hs.l (hs.tri rfl) hx e.key hke with ⟨u, u1, u2⟩ | h3
      · obtain ⟨u3, u4⟩ := b3 u u1
        exact ⟨u, u3, le_trans u4 u2⟩
      · obtain ⟨u, u1, u2⟩ := b4 h1
        exact ⟨u, u1, WithTop.coe_le_coe.1 (le_trans u2 h3)⟩

/-- The step of pre*. -/
theorem DualI.preStep (hc : DualCtx p val a b qp N) (hp : Heap (ShElem T) (WithTop T) ShElem.key)
    (hq : Heap (T × Nat) T Prod.fst) (h : HashOrder) (junk : Nat → Bool) {e0 : SProd T} {st : ShSt T} {s : SPreSt T (SProd T)}
    (hs : DualI p val a b qp N e0 st s s.ext false) (hf : s.found = false)
    {e : ShElem T} {r : List (ShElem T)} (hperm : (e :: r).Perm s.ws) (hle : ∀ u ∈ r, e.key ≤ u.key) :
    let s' := spreStepWith val (SInstance.cbSecond hq h st.aut) true junk p { s with ws := r } e
    DualI p val a b qp N e0 st s' s'.ext s'.found := by
  intro s'
  obtain ⟨w, hw, _, hk0, i1, i2, i3, i4⟩ := hs.pre.step_cases hc.pre (SInstance.cbSecond hq h st.aut) junk hperm hle rfl
  have hjust : SPreT p b (fun _ => True) (keys b.edges) s' := by
    have h1 : SPreT p b (fun _ => True) (keys b.edges) ({ s with ws := r } : SPreSt T (SProd T)) :=
      { hs.just with ws := fun u hu => hs.just.ws u (hperm.subset (List.mem_cons_of_mem _ hu)) }
    exact spreStepWith_keeps hc.pre.wf hc.pre.nodup (fun t ht => (hc.pre.valid t ht).2.1) (fun _ _ _ _ _ _ _ => trivial) true junk h1
      (hs.just.ws e (hperm.subset List.mem_cons_self))
  have hs' : s' = spreStepWith val (SInstance.cbSecond hq h st.aut) true junk p { s with ws := r } e := rfl
  rw [← hs'] at i1 i2 i3 i4
  clear_value s'
  have hL' : SPreL p val b s' := ⟨⟨_, i1⟩, i2⟩
  have hmem : ∀ u, u ∈ s.ws ↔ u = e ∨ u ∈ r := fun u => by rw [← hperm.mem_iff, List.mem_cons]
  have hke : ∀ u ∈ s.ws, e.key ≤ u.key := by
    intro u hu
    rcases (hmem u).1 hu with rfl | hu
    · exact le_refl _
    · exact hle u hu
  rcases i4 with ⟨_, g1, g2, g3, g4, g5⟩ | ⟨_, g1, g2, g3, g4⟩
  · have hD : s'.Done = s.Done := by
      funext t x
      unfold SPreSt.Done
      rw [g1, g5]
    rw [g3, g4, hf]
    exact ⟨hs.post, hs.n, hL', hs.size, by rw [g1]; exact hs.l, by rw [hD]; exact hs.tri, hs.pos, hs.hit, hs.least, hs.back, hjust⟩
  · obtain ⟨fr, fn, facc, fd, flab⟩ := hs.pre.facts
    obtain ⟨fr', fn', facc', fd', flab'⟩ := hL'.facts
    obtain ⟨p1, p2, p3⟩ := hs.post.facts
    have pr := hs.post.range hs.n
    have hDone : ∀ u x, s'.Done u x → s.aut.wt u = some x := by
      intro u x hu
      rcases (g2 u x).2 hu with h1 | ⟨rfl, rfl⟩
      · exact h1.1
      · exact hw
    have hA : ∀ t x, t ∈ keys a.edges ∧ x = 0 → st.aut.wt t = some x := by
      rintro t x ⟨h1, rfl⟩
      exact p3 t h1
    obtain ⟨b1, b2, b3, b4, b5, b6⟩ := announce (inFirst := false) (an := (e.trace, w)) hq h hc.post.postW_nonneg hc.pre.preW_nonneg pr fr p2 fd
      (hc.apart hs.pre st.aut) hs.size hs.l (M' := DM a b st.Ann s'.Done) (t := e.edge) e.key (hs.tri rfl) (by simpa using hw)
      (fun x g y z hm => DM.moves (fun _ _ h => h.1) hDone p3 hs.pre.input hm)
      (fun x g y z hm => by
        rcases hm with hm | hm
        · rcases SProd.MvR.uses_second (EB := fun t z => s.Done t z ∨ (t ∈ keys b.edges ∧ z = 0)) (A := st.aut) (B := s.aut) (t := e.edge)
            (by
              rintro u x (hu | ⟨hu, rfl⟩)
              · exact hDone u x hu
              · exact hs.pre.input u hu)
            (by
              rintro u x (hu | hu)
              · rcases (g2 u x).2 hu with h1 | ⟨h1, _⟩
                · exact .inl (.inl h1)
                · exact .inr h1
              · exact .inl (.inr hu)) (fun _ _ h => h.1) hm with h1 | h1
          · exact .inl (.inl h1)
          · exact .inr h1
        · rcases SProd.MvR.uses_second (EB := s.Done) (A := st.aut) (B := s.aut) (t := e.edge) hDone (fun u x hu => by
            rcases (g2 u x).2 hu with h1 | ⟨h1, _⟩
            · exact .inl h1
            · exact .inr h1) hA hm with h1 | h1
          · exact .inl (.inr h1)
          · exact .inr h1)
    have ecb : ∀ X E k, SInstance.cbSecond hq h st.aut X E e.edge (e.trace, w) k = addEdge hq h false true st.aut X E e.edge (e.trace, w) k :=
      fun _ _ _ => rfl
    dsimp only at g4
    simp only [ecb] at g4
    generalize addEdge hq h false true st.aut s.aut s.ext e.edge (e.trace, w) e.key = c at b1 b2 b3 b4 b5 b6 g4
    have hb1 : LInv true (PostW p val a qp) (PreW p val b) st.aut s'.aut { prod := c.1 } :=
      b1.mono (fun _ h => h) (keys_of_bound g3) (fun _ => rfl) (fun q => by rw [facc', facc]) (Nat.le_refl _) (Nat.le_of_eq (fn.trans fn'.symm))
        (fun _ _ h => h) (fun _ _ h => h)
    have hlow : ∀ x ∈ Between p val a b, (∃ u, Acc c.1 u ∧ c.1.best u ≤ x) ∨ e.key ≤ (x : WithTop T) := by
      intro x hx
      rcases dual_lower_pre hc hp hs.post hs.pre hs.size hs.l (hs.tri rfl) hx e.key hke with ⟨u, u1, u2⟩ | h3
      · obtain ⟨u3, u4⟩ := b3 u u1
        exact .inl ⟨u, u3, le_trans u4 u2⟩
      · exact .inr h3
    split at g4
    · rename_i hlast
      obtain ⟨g4, g5⟩ := g4
      have hwe : s'.aut.wt e.edge = some w := ((g2 e.edge w).1 (.inr ⟨rfl, rfl⟩)).1
      have hall : s'.found = true → ∀ x ∈ Between p val a b, ∃ u, Acc c.1 u ∧ c.1.best u ≤ x := by
        intro _ x hx
        cases hcf : c.2 with
        | false =>
          rcases dual_lower_pre hc hp hs.post hL' b2 hb1 (b5 hcf).1 hx ⊤ (by rw [hlast.2]; intro e he; cases he) with h3 | h3
          · exact h3
          · exact absurd h3 (not_le.2 (WithTop.coe_lt_top x))
        | true =>
          rcases hlow x hx with h3 | h3
          · exact h3
          · obtain ⟨u, u1, u2⟩ := b4 hcf
            exact ⟨u, u1, WithTop.coe_le_coe.1 (le_trans u2 h3)⟩
      cases hcf : c.2 with
      | false =>
        obtain ⟨c1, c2, c3, c4, c5, c6⟩ := announce (inFirst := false) (an := (e.trace, w)) hq h hc.post.postW_nonneg hc.pre.preW_nonneg pr fr' p2 fd'
          (hc.apart hL' st.aut) b2 hb1 (M' := DM a b st.Ann s'.Done) (t := e.edge) ⊤ (b5 hcf).1 (by simpa using hwe)
          (fun x g y z hm => DM.moves (fun _ _ h => h.1) (fun _ _ h => h.1) p3 hL'.input hm) (fun x g y z hm => .inl hm)
        generalize addEdge hq h false true st.aut s'.aut c.1 e.edge (e.trace, w) ⊤ = c' at c1 c2 c3 c4 c5 c6 g4 g5
        rw [g4, g5]
        refine ⟨hs.post, hs.n, hL', c2, c1, fun h1 => (c5 h1).1, ?_, ?_, ?_, (hs.back.trans b6).trans c6, hjust⟩
        · intro h1 u hu
          exact absurd le_top (not_le.2 ((c5 h1).2 u hu))
        · intro h1
          obtain ⟨u, u1, _⟩ := c4 h1
          exact ⟨u, u1⟩
        · intro h1 x hx
          obtain ⟨u, u1, u2⟩ := hall (by rw [g5]; exact h1) x hx
          exact ⟨u, (c3 u u1).1, le_trans (c3 u u1).2 u2⟩
      | true =>
        obtain ⟨c1, c2, c3, c4, c5, c6⟩ := announce (inFirst := false) (an := (e.trace, w)) hq h hc.post.postW_nonneg hc.pre.preW_nonneg pr fr' p2 fd'
          (hc.apart hL' st.aut) b2 hb1 (M := fun _ _ _ _ => False) (M' := fun _ _ _ _ => False) (t := e.edge) ⊤
          (fun _ _ _ _ _ _ h => h.elim) (by simpa using hwe)
          (fun x g y z hm => hm.elim) (fun x g y z hm => hm.elim)
        generalize addEdge hq h false true st.aut s'.aut c.1 e.edge (e.trace, w) ⊤ = c' at c1 c2 c3 c4 c5 c6 g4 g5
        have hyes : s'.found = true := by
          rw [g5]
          by_contra h1
          obtain ⟨u, u1, _⟩ := b4 hcf
          exact absurd le_top (not_le.2 ((c5 (by simpa using h1)).2 u (c3 u u1).1))
        rw [g4]
        refine ⟨hs.post, hs.n, hL', c2, c1, (fun h1 => by rw [hyes] at h1; cases h1),
          (fun h1 => by rw [hyes] at h1; cases h1), ?_, ?_, (hs.back.trans b6).trans c6, hjust⟩
        · intro _
          obtain ⟨u, u1, _⟩ := b4 hcf
          exact ⟨u, (c3 u u1).1⟩
        · intro h1 x hx
          obtain ⟨u, u1, u2⟩ := hall h1 x hx
          exact ⟨u, (c3 u u1).1, le_trans (c3 u u1).2 u2⟩
    · obtain ⟨g4, g5⟩ := g4
      rw [hf, Bool.or_false] at g5
      rw [g4, g5]
      refine ⟨hs.post, hs.n, hL', b2, hb1, fun h1 => (b5 h1).1, ?_, ?_, ?_, hs.back.trans b6, hjust⟩
      · exact fun h1 => WithTop.pos_of_key hk0 (b5 h1).2
      · intro h1
        obtain ⟨u, u1, _⟩ := b4 h1
        exact ⟨u, u1⟩
      · intro h1 x hx
        rcases hlow x hx with h3 | h3
        · exact h3
        · obtain ⟨u, u1, u2⟩ := b4 h1
          exact ⟨u, u1, WithTop.coe_le_coe.1 (le_trans u2 h3)⟩

end Verif
