import Verif.Proofs.ShortestDualSteps

/-! # `dual_search_accepts<Shortest>`: the start, the loop and the end -/

namespace Verif

variable {W T : Type} [LinearOrder W] [Zero W] [LinearOrder T] [AddCommMonoid T] [IsOrderedCancelAddMonoid T]
variable {p : Pda W} {val : W → T} {a b : Aut T} {qp : List ((Nat × Nat) × Nat)} {N : Nat}

open SProd
open Product (Mv PInv PExt EdgeOK InRange ann Meets)

/-- The input transitions of post* that leave states of the PDA are in the queue at first. -/
theorem shInit_pend (h : HashOrder) (hc : ShCtx p val a (shQ p a) (shN p a)) {t : Tr} (ht : t ∈ keys a.edges) (hlt : t.src < p.size) :
    (shInit h p a).Pend t := by
  unfold shInit
  dsimp only
  have hle := hc.le
  have hlab := hc.lab
  unfold shN at hle
  have hperm := out_all h ({ acc := (qInit p ({ acc := a.acc } : Aut W)).1.acc, edges := a.edges } : Aut T)
    fun t ht => Nat.lt_of_lt_of_le (hc.valid t ht).1 hle
  have hne : ∀ t ∈ keys a.edges, t.label ≠ epsilon := by
    intro t ht he
    have := (hc.valid t ht).2.1
    omega
  obtain ⟨_, _, _, _, _, e6, _, _, e9⟩ := shInitEdges p.size _
    (fun t ht => hne t (hperm.mem_iff.1 ht)) ({ aut := { acc := (qInit p ({ acc := a.acc } : Aut W)).1.acc, edges := a.edges }, x := { nQ := a.n, qPrime := (qInit p ({ acc := a.acc } : Aut W)).2 } } : ShSt T) (fun t v h => by cases h)
  refine ⟨0, 0, ⟨0, t, {}⟩, (e9 t _).2 ⟨rfl, .inr (hperm.mem_iff.2 ht)⟩, ?_, rfl, rfl⟩
  rw [e6]
  refine List.mem_append_right _ (List.mem_map.2 ⟨t, List.mem_filter.2 ⟨hperm.mem_iff.2 ht, by simpa using hlt⟩, rfl⟩)

/-- What holds while the constructor of post* announces the input transitions in `D`. -/
structure DualJ (p : Pda W) (SA SB : Tr → T → Prop) (A b : Aut T) (e0 : SProd T) (D : Tr → Prop) (s : ShEt T (SProd T)) : Prop where
  aut : s.st.aut = A
  size : s.ext.base.size = p.size
  l : LInv true SA SB A b { prod := s.ext }
  tri : s.found = false → Tri (MvR true (fun t x => A.wt t = some x ∧ D t ∧ p.size ≤ t.src) (WtOf b)) s.ext fun _ => True
  pos : s.found = false → ∀ u, Acc s.ext u → 0 < s.ext.best u
  hit : s.found = true → ∃ u, Acc s.ext u ∧ s.ext.best u ≤ 0
  back : BKeep true SA SB e0 s.ext

theorem DualJ.step {e0 : SProd T} {SA SB : Tr → T → Prop} {A : Aut T} {D : Tr → Prop} (hq : Heap (T × Nat) T Prod.fst) (h : HashOrder)
    (hSA : NonNeg SA) (hSB : NonNeg SB) (hrA : InRange A) (hrb : InRange b) (hA : ∀ t x, A.wt t = some x → SA t x)
    (hB : ∀ t x, b.wt t = some x → SB t x) (hno : ∀ q, q < p.size → ¬ (A.isAcc q = true ∧ b.isAcc q = true))
    {s : ShEt T (SProd T)} (hs : DualJ p SA SB A b e0 D s) {t : Tr} (ht : t ∈ keys A.edges) :
    DualJ p SA SB A b e0 (fun u => D u ∨ u = t) (shEtInitEdge (SInstance.cbFirst hq h true b) p.size s t) := by
  unfold shEtInitEdge
  dsimp only
  have haut : (shInitEdge p.size s.st t).aut = A := by rw [shInitEdge_aut]; exact hs.aut
  split
  · rename_i hlt
    refine ⟨haut, hs.size, hs.l, fun hf => ?_, hs.pos, hs.hit, hs.back⟩
    have h1 := hs.tri hf
    have : (fun (u : Tr) (x : T) => A.wt u = some x ∧ (D u ∨ u = t) ∧ p.size ≤ u.src) = fun u x => A.wt u = some x ∧ D u ∧ p.size ≤ u.src := by
      funext u x
      refine propext ⟨?_, fun ⟨h1, h2, h3⟩ => ⟨h1, .inl h2, h3⟩⟩
      rintro ⟨h1, h2 | rfl, h3⟩
      · exact ⟨h1, h2, h3⟩
      · omega
    rw [this]
    exact h1
  · rw [haut]
    have ecb : SInstance.cbFirst hq h true b A s.ext t (Product.ann A t) 0 = addEdge hq h true true A b s.ext t (Product.ann A t) 0 := rfl
    rw [ecb]
    obtain ⟨M, M', hMf, hM, hM', hMt⟩ : ∃ M M' : (Nat × Nat) → Nat → (Nat × Nat) → T → Prop, Tri M s.ext (fun _ => True) ∧
        (∀ x g y w, M' x g y w → MvR true (WtOf A) (WtOf b) x g y w) ∧
        (∀ x g y w, M' x g y w → M x g y w ∨ Uses true true A b t x g y w) ∧
        (s.found = false → M' = MvR true (fun u x => A.wt u = some x ∧ (D u ∨ u = t) ∧ p.size ≤ u.src) (WtOf b)) := by
      cases hf : s.found with
      | false =>
        refine ⟨_, _, hs.tri hf, ?_, ?_, fun _ => rfl⟩
        · exact fun x g y w hm => hm.mono (fun _ _ h => h.1) (fun _ _ h => h)
        · intro x g y w hm
          refine SProd.MvR.uses_first (fun _ _ h => h.1) ?_ (fun _ _ h => h) hm
          rintro u x ⟨h1, h2 | h2, h3⟩
          · exact .inl ⟨h1, h2, h3⟩
          · exact .inr h2
      | true => exact ⟨fun _ _ _ _ => False, fun _ _ _ _ => False, (fun _ _ _ _ _ _ h => h.elim), (fun _ _ _ _ h => h.elim),
          (fun _ _ _ _ h => h.elim), (fun h => by cases h)⟩
    obtain ⟨b1, b2, b3, b4, b5, b6⟩ := announce (inFirst := true) (an := Product.ann A t) hq h hSA hSB hrA hrb hA hB hno hs.size hs.l
      (t := t) (0 : WithTop T) hMf (by simpa using SProd.wt_ann ht) hM hM'
    generalize addEdge hq h true true A b s.ext t (Product.ann A t) 0 = R at b1 b2 b3 b4 b5 b6
    refine ⟨haut, b2, b1, ?_, ?_, ?_, hs.back.trans b6⟩
    · dsimp only
      rw [Bool.or_eq_false_iff]
      rintro ⟨h1, h2⟩
      have := (b5 h2).1
      rwa [hMt h1] at this
    · dsimp only
      rw [Bool.or_eq_false_iff]
      rintro ⟨h1, h2⟩
      exact WithTop.pos_of_key (le_refl _) (b5 h2).2
    · dsimp only
      rw [Bool.or_eq_true]
      rintro (h1 | h2)
      · obtain ⟨u, u1, u2⟩ := hs.hit h1
        obtain ⟨u3, u4⟩ := b3 u u1
        exact ⟨u, u3, le_trans u4 u2⟩
      · obtain ⟨u, u1, u2⟩ := b4 h2
        rw [← WithTop.coe_zero] at u2
        exact ⟨u, u1, WithTop.coe_le_coe.1 u2⟩

theorem DualJ.fold {e0 : SProd T} {SA SB : Tr → T → Prop} {A : Aut T} (hq : Heap (T × Nat) T Prod.fst) (h : HashOrder)
    (hSA : NonNeg SA) (hSB : NonNeg SB) (hrA : InRange A) (hrb : InRange b) (hA : ∀ t x, A.wt t = some x → SA t x)
    (hB : ∀ t x, b.wt t = some x → SB t x) (hno : ∀ q, q < p.size → ¬ (A.isAcc q = true ∧ b.isAcc q = true)) (l : List Tr) :
    ∀ {D : Tr → Prop} {s : ShEt T (SProd T)}, DualJ p SA SB A b e0 D s → (∀ t ∈ l, t ∈ keys A.edges) →
    DualJ p SA SB A b e0 (fun u => D u ∨ u ∈ l) (l.foldl (shEtInitEdge (SInstance.cbFirst hq h true b) p.size) s) ∧
      (l.foldl (shEtInitEdge (SInstance.cbFirst hq h true b) p.size) s).st = l.foldl (shInitEdge p.size) s.st := by
  induction l with
  | nil =>
    intro D s hs _
    refine ⟨?_, rfl⟩
    simpa using hs
  | cons t l ih =>
    intro D s hs hl
    rw [List.foldl_cons, List.foldl_cons]
    obtain ⟨h1, h2⟩ := ih (hs.step hq h hSA hSB hrA hrb hA hB hno (hl t (List.mem_cons_self ..))) fun u hu => hl u (List.mem_cons_of_mem _ hu)
    refine ⟨?_, h2.trans ?_⟩
    · have : (fun u => D u ∨ u ∈ t :: l) = fun u => (D u ∨ u = t) ∨ u ∈ l := by
        funext u
        rw [List.mem_cons, or_assoc]
      rw [this]
      exact h1
    · congr 1
      unfold shEtInitEdge
      dsimp only
      split <;> rfl

/-- The invariant of the loop. -/
structure DualInv (p : Pda W) (val : W → T) (a b : Aut T) (qp : List ((Nat × Nat) × Nat)) (N : Nat) (e0 : SProd T) (d : SInstance.Dual T) : Prop where
  inv : DualI p val a b qp N e0 d.post.st d.pre d.post.ext d.found
  same : d.pre.ext = d.post.ext

/-- The constructors of the two saturations establish the invariant. -/
theorem dual_start (hq : Heap (T × Nat) T Prod.fst) (h : HashOrder) (hc : DualCtx p val a b (shQ p a) (shN p a)) {i : SInstance T}
    (hi : i.initial = a) (hfi : i.final = b)
    {e : SProd T} (hsz : e.base.size = p.size) (hl : LInv true (PostW p val a (shQ p a)) (PreW p val b) a b { prod := e })
    (hno : ∀ u, ¬ Acc e u) :
    DualInv p val a b (shQ p a) (shN p a) e (SInstance.Dual.start val hq h p i e) := by
  refine ⟨?_, rfl⟩
  unfold SInstance.Dual.start SInstance.Dual.found
  dsimp only
  rw [hi, hfi]
  obtain ⟨j1, j2, j3, j4, j5, _⟩ := spreInit_inv (val := val) h hc.pre e
  have hdone : ∀ t x, ¬ (spreInit val h p b e).Done t x := by
    rintro t x ⟨hx, hn⟩
    obtain ⟨⟨κ, hi⟩, _⟩ := j1
    rw [j2] at hx
    obtain ⟨rfl, ht⟩ := (wt_of_zero hc.pre.zero t x).1 hx
    refine hn ⟨0, ⟨0, t, {}⟩, by rw [j2]; exact hx, (j5 _).2 ⟨t, ht, rfl⟩, rfl, ?_⟩
    have hk := hi.entry ⟨0, t, {}⟩ ((j5 _).2 ⟨t, ht, rfl⟩)
    obtain ⟨_, _, ⟨y, hy, hle⟩, _⟩ := hk
    dsimp only at hy hle ⊢
    rw [j2, hx] at hy
    cases hy
    refine le_antisymm ?_ hle
    unfold SPreSt.key
    rw [WithTop.coe_zero, add_zero]
    exact hi.mpos _
  have hjust := spreInit_keeps (val := val) (H := fun _ => True) hc.pre.wf hc.pre.nodup h e
  generalize spreInit val h p b e = pr at j1 j2 j3 hdone hjust ⊢
  obtain ⟨aut, ws, rel, dp, popped, minpath, found, ext, undef, oob, failed⟩ := pr
  dsimp only at j2 j3 ⊢
  subst aut found
  rw [Bool.false_or]
  obtain ⟨fr, fn, facc, fd, flab⟩ := j1.facts
  have fin := j1.input
  have hapart := hc.apart j1
  dsimp only at fr fn facc fd flab fin hapart
  have hL := shInit_inv h hc.post
  have hpend := fun t ht hlt => shInit_pend h hc.post (t := t) ht hlt
  have hacc := (qInit_inv p ({ acc := a.acc } : Aut W)).1.acc
  have hle := hc.post.le
  unfold shN at hle
  unfold shEtInit
  unfold shInit at hL hpend
  dsimp only at hL hpend ⊢
  generalize hA : ({ acc := (qInit p ({ acc := a.acc } : Aut W)).1.acc, edges := a.edges } : Aut T) = A at hL hpend ⊢
  have hAe : A.edges = a.edges := by rw [← hA]
  have hAn : A.n = shN p a := by rw [← hA]; rfl
  have hAacc : ∀ q, A.isAcc q = a.isAcc q := by
    intro q
    rw [← hA]
    unfold Aut.isAcc
    dsimp only
    rw [hacc]
    exact getD_append_false _ _ _
  have hrA : InRange A := by
    intro t ht
    rw [hAe] at ht
    have h1 := hc.post.valid t ht
    rw [hAn]
    unfold shN
    exact ⟨Nat.lt_of_lt_of_le h1.1 hle, Nat.lt_of_lt_of_le h1.2.2 hle⟩
  have hwt : ∀ t x, A.wt t = some x → t ∈ keys a.edges ∧ x = 0 := by
    intro t x hx
    have h1 := SProd.mem_of_wt hx
    rw [hAe] at h1
    refine ⟨h1, hc.post.otherAut.zero t x ?_⟩
    unfold Aut.wt Aut.getEdge at hx ⊢
    rwa [hAe] at hx
  have hperm := out_all h A fun t ht => (hrA t ht).1
  have h0 : DualJ p (PostW p val a (shQ p a)) (PreW p val b) A b e (fun _ => False) ({ st := { aut := A, x := { nQ := a.n, qPrime := (qInit p ({ acc := a.acc } : Aut W)).2 } }, ext := e } : ShEt T (SProd T)) := by
    refine ⟨rfl, hsz, ?_, ?_, (fun _ u hu => (hno u hu).elim), (fun h => by cases h), BKeep.refl _ _ _ _⟩
    · exact hl.mono (fun t ht => by rw [hAe]; exact ht) (fun _ h => h) hAacc (fun _ => rfl) (by rw [hAn]; unfold shN; exact hle) (Nat.le_refl _) (fun _ _ h => h) (fun _ _ h => h)
    · intro _
      rintro u hu _ g y z (⟨rfl, ⟨h3, h4⟩ | ⟨h3, h4⟩⟩ | ⟨h0, c, d, h3, h4, h5⟩)
      · exact h3.2.1.elim
      · have h6 := flab _ _ h3
        have := hc.post.lab
        dsimp only at h6
        omega
      · exact h3.2.1.elim
  obtain ⟨j, jst⟩ := DualJ.fold hq h hc.post.postW_nonneg hc.pre.preW_nonneg hrA fr (fun t x hx => by
      obtain ⟨h1, rfl⟩ := hwt t x hx
      exact .of (.init h1)) fd (hapart A) _ h0
    (fun t ht => hperm.mem_iff.1 ht)
  generalize List.foldl (shEtInitEdge (SInstance.cbFirst hq h true b) p.size) _ _ = R at j jst
  rw [← jst] at hL hpend
  refine ⟨hL, by rw [j.aut]; exact hAn, j1.ext _, j.size, by rw [j.aut]; exact j.l, ?_, j.pos, ?_, ?_, j.back, { hjust with }⟩
  · intro hf
    intro u hu ht g y z hm
    refine j.tri hf u hu ht g y z ?_
    generalize R.ext.base.orig u = x at hm ⊢
    rcases hm with hm | hm
    · refine hm.mono ?_ ?_
      · rintro t x ⟨h1, h2⟩
        rw [j.aut] at h1
        refine ⟨h1, .inr (hperm.mem_iff.2 (SProd.mem_of_wt h1)), ?_⟩
        by_contra hlt
        exact h2 (hpend t (hwt t x h1).1 (by omega))
      · rintro t x (h1 | ⟨h1, rfl⟩)
        · exact (hdone t x h1).elim
        · exact fin t h1
    · exfalso
      rcases hm with ⟨rfl, ⟨h3, h4⟩ | ⟨h3, h4⟩⟩ | ⟨h0, c, d, h3, h4, h5⟩
      · exact hc.post.otherAut.noEps _ h3.1 rfl
      · exact hdone _ _ h3
      · exact hdone _ _ h4
  · intro hf
    obtain ⟨u, u1, _⟩ := j.hit hf
    exact ⟨u, u1⟩
  · rintro hf x ⟨c, c', _, _, hrun, _⟩
    obtain ⟨u, u1, u2⟩ := j.hit hf
    refine ⟨u, u1, le_trans u2 (CostRun.nonneg (R := p.Has) (val := val) (fun r hr => ?_) hrun)⟩
    rw [Pda.Has_iff] at hr
    obtain ⟨l, hm, _⟩ := hr
    exact hc.pre.nonneg _ _ hm

omit [Zero W] in
theorem DualI.congr [Zero W] {e0 : SProd T} {st : ShSt T} {pr : SPreSt T (SProd T)} {e : SProd T} {f : Bool} (h : DualI p val a b qp N e0 st pr e f) (e' : SProd T) :
    DualI p val a b qp N e0 st { pr with ext := e' } e f :=
  ⟨h.post, h.n, h.pre.ext e', h.size, h.l, h.tri, h.pos, h.hit, h.least, h.back, { h.just with }⟩

/-- One round of the loop. -/
theorem DualInv.step (hc : DualCtx p val a b qp N) (hp : Heap (ShElem T) (WithTop T) ShElem.key)
    (hq : Heap (T × Nat) T Prod.fst) (h : HashOrder) (junk : Nat → Bool) {e0 : SProd T} {d d' : SInstance.Dual T} (hd : DualInv p val a b qp N e0 d)
    (hst : SInstance.Dual.step val hp hq h junk p d = some d') :
    DualInv p val a b qp N e0 d' := by
  obtain ⟨hI, hsame⟩ := hd
  unfold SInstance.Dual.step at hst
  split at hst
  · cases hst
  rename_i hf
  rw [Bool.not_eq_true] at hf
  rw [hf] at hI
  unfold SInstance.Dual.found at hf
  rw [Bool.or_eq_false_iff] at hf
  obtain ⟨hf1, hf2⟩ := hf
  rcases hx : hp.pop d.pre.ws with _ | ⟨ex, rx⟩
  · rw [hx] at hst; cases hst
  rcases hy : hp.pop d.post.st.ws with _ | ⟨ey, ry⟩
  · rw [hx, hy] at hst; cases hst
  rw [hx, hy] at hst
  simp only [Option.some.injEq] at hst
  obtain ⟨x1, x2⟩ := hp.spec _ _ _ hx
  obtain ⟨y1, y2⟩ := hp.spec _ _ _ hy
  have hpost := hI.postStep hc hp hq h y1 y2
  obtain ⟨pre, ⟨st, ext, fd⟩⟩ := d
  dsimp only at *
  subst hf2
  unfold SInstance.Dual.stepPost SInstance.Dual.stepPre at hst
  dsimp only at hst
  generalize shEtStepWith val (SInstance.cbFirst hq h true pre.aut) p ⟨{ st with ws := ry }, ext, false⟩ ey = R at *
  split at hst
  · rename_i hR
    rw [← hst]
    refine ⟨?_, rfl⟩
    unfold SInstance.Dual.found
    dsimp only
    have h1 := hpost.congr R.ext
    have h2 : (pre.found || R.found) = R.found := by rw [hf1, Bool.false_or]
    rw [h2]
    exact h1
  · rename_i hR
    rw [Bool.not_eq_true] at hR
    rw [hR] at hpost
    have hpre := DualI.preStep hc hp hq h junk (s := { pre with ext := R.ext }) (hpost.congr _) hf1 x1 x2
    dsimp only at hpre hst
    generalize spreStepWith val (SInstance.cbSecond hq h R.st.aut) true junk p { pre with ws := rx, ext := R.ext } ex = s' at hpre hst
    rw [← hst]
    refine ⟨?_, rfl⟩
    unfold SInstance.Dual.found
    dsimp only
    rw [hR, Bool.or_false]
    exact hpre

/-- What a round does to post*. -/
theorem dual_step_post (hp : Heap (ShElem T) (WithTop T) ShElem.key) (hq : Heap (T × Nat) T Prod.fst) (h : HashOrder) (junk : Nat → Bool)
    {d d' : SInstance.Dual T} (hst : SInstance.Dual.step val hp hq h junk p d = some d') :
    ∃ e r, hp.pop d.post.st.ws = some (e, r) ∧ d'.post.st = shStepWith val p { d.post.st with ws := r } e := by
  unfold SInstance.Dual.step at hst
  split at hst
  · cases hst
  rcases hx : hp.pop d.pre.ws with _ | ⟨ex, rx⟩
  · rw [hx] at hst; cases hst
  rcases hy : hp.pop d.post.st.ws with _ | ⟨ey, ry⟩
  · rw [hx, hy] at hst; cases hst
  rw [hx, hy] at hst
  simp only [Option.some.injEq] at hst
  refine ⟨ey, ry, rfl, ?_⟩
  have h1 : (SInstance.Dual.stepPost val hq h p d (ey, ry)).post.st = shStepWith val p { d.post.st with ws := ry } ey := by
    unfold SInstance.Dual.stepPost shEtStepWith
    dsimp only
    split
    · rfl
    · split <;> rfl
  rw [← hst, ← h1]
  split <;> rfl

theorem dual_start_post (hq : Heap (T × Nat) T Prod.fst) (h : HashOrder) (i : SInstance T) (e : SProd T) :
    (SInstance.Dual.start val hq h p i e).post.st = shInit h p i.initial := by
  unfold SInstance.Dual.start shEtInit shInit
  dsimp only
  generalize SInstance.cbFirst hq h true (spreInit val h p i.final e).aut = cb
  generalize hE : ({ st := { aut := { acc := (qInit p ({ acc := i.initial.acc } : Aut W)).1.acc, edges := i.initial.edges }, x := { nQ := i.initial.n, qPrime := (qInit p ({ acc := i.initial.acc } : Aut W)).2 } }, ext := e } : ShEt T (SProd T)) = E
  generalize hF : ({ aut := { acc := (qInit p ({ acc := i.initial.acc } : Aut W)).1.acc, edges := i.initial.edges }, x := { nQ := i.initial.n, qPrime := (qInit p ({ acc := i.initial.acc } : Aut W)).2 } } : ShSt T) = F
  have hEF : E.st = F := by rw [← hE, ← hF]
  clear hE hF
  generalize (List.flatMap _ _ : List Tr) = l
  induction l generalizing E F with
  | nil => exact hEF
  | cons t l ih =>
    rw [List.foldl_cons, List.foldl_cons]
    apply ih
    rw [← hEF]
    unfold shEtInitEdge
    dsimp only
    split <;> rfl

/-- The loop ends. -/
theorem dual_terminates (hc : DualCtx p val a b qp N) (hp : Heap (ShElem T) (WithTop T) ShElem.key)
    (hq : Heap (T × Nat) T Prod.fst) (h : HashOrder) (junk : Nat → Bool) {d : SInstance.Dual T} (hd : ShL p val a qp N d.post.st) :
    ∃ fuel r, whileSome (SInstance.Dual.step val hp hq h junk p) fuel d = some r := by
  classical
  refine FP.whileSome_wf (fun d => (allTr p N).countP fun t => decide (¬ d.post.st.Settled t)) (fun d => d.post.st.ws.length)
    (fun d => ShL p val a qp N d.post.st) ?_ d hd
  intro s s' hs hst
  obtain ⟨e, r, hpop, hse⟩ := dual_step_post hp hq h junk hst
  obtain ⟨h1, h2⟩ := hp.spec _ _ _ hpop
  obtain ⟨h3, h4⟩ := hs.step hc.post h1 h2
  rw [← hse] at h3 h4
  refine ⟨h3, ?_⟩
  rcases h4 with ⟨h4, h5⟩ | ⟨h4, t, ht, h5, h6⟩
  · refine .inr ⟨?_, h5⟩
    simp only [h4]
  · refine .inl (countP_lt_of_imp _ _ _ ?_ (mem_allTr ht) (by simpa using h5) (by simpa using h6))
    intro u _ hu
    simp only [decide_eq_true_eq] at hu ⊢
    exact fun hh => hu (h4 u hh)

/-- What the loop ends with. -/
theorem dual_end (hc : DualCtx p val a b qp N) (hp : Heap (ShElem T) (WithTop T) ShElem.key)
    (hq : Heap (T × Nat) T Prod.fst) (h : HashOrder) (junk : Nat → Bool) {e0 : SProd T} {d r : SInstance.Dual T} {fuel : Nat}
    (hd : DualInv p val a b qp N e0 d) (hr : whileSome (SInstance.Dual.step val hp hq h junk p) fuel d = some r) :
    WeakEnd (Between p val a b) r.post.ext ∧ (r.found = true → ∃ u, Acc r.post.ext u) ∧
      (r.found = false → ∀ u, Acc r.post.ext u → 0 < r.post.ext.best u) ∧ DualInv p val a b qp N e0 r := by
  obtain ⟨⟨h1, h1'⟩, h2⟩ := whileSome_inv (I := DualInv p val a b qp N e0) (fun s s' hs hst => hs.step hc hp hq h junk hst) hd hr
  refine ⟨⟨fun u hu ha => acc_of h1.l (by rw [h1.size]; exact hc.apart h1.pre _) hu ha,
    fun u hu => dual_sound hc h1.post h1.pre h1.size h1.l hu, ?_⟩, h1.hit, h1.pos, h1, h1'⟩
  intro x hx
  cases hf : r.found with
  | true => exact h1.least hf x hx
  | false =>
    unfold SInstance.Dual.step at h2
    rw [if_neg (by rw [hf]; decide)] at h2
    rcases hpx : hp.pop r.pre.ws with _ | y
    · have hws := (hp.none_iff _).1 hpx
      rcases dual_lower_pre hc hp h1.post h1.pre h1.size h1.l (h1.tri hf) hx ⊤ (by rw [hws]; simp) with h3 | h3
      · exact h3
      · exact absurd (top_le_iff.1 h3) (WithTop.coe_ne_top)
    · rcases hpy : hp.pop r.post.st.ws with _ | z
      · have hws := (hp.none_iff _).1 hpy
        rcases dual_lower_post hc hp h1.post h1.pre h1.size h1.l (h1.tri hf) hx ⊤ (by rw [hws]; simp) with h3 | h3
        · exact h3
        · exact absurd (top_le_iff.1 h3) (WithTop.coe_ne_top)
      · rw [hpx, hpy] at h2
        cases h2

/-- The product that `initialize_product` leaves. -/
theorem dualProduct_spec (hc : DualCtx p val a b qp N) (h : HashOrder) :
    let r := (Product.ofAutomata p.size a b).initProduct h true true a b
    PInv true a b r.1 ∧ r.1.size = p.size ∧ (r.2 = true ↔ CommonConf p a b) ∧ (r.2 = r.1.hasAcc) := by
  intro r
  have hrb : InRange b := fun t ht => ⟨(hc.pre.valid t ht).1, (hc.pre.valid t ht).2.2⟩
  have hl := hc.post.lab
  obtain ⟨h1, h2⟩ := Product.initProduct_spec h (dual := true) (et := true) hc.post.otherAut.range hrb
    (Product.ofAutomata_inv true hc.post.size_le hc.pre.size_le)
  refine ⟨h1.inv, h2.size, ?_, h1.flag⟩
  rw [h1.iff, h2.size]
  have := commonConf_of_meets (p := p) (a := b) (b := a) (fun t ht => by have := (hc.pre.valid t ht).2.1; omega) hc.post.otherAut.noEps
  refine Iff.trans this ?_
  constructor
  · rintro ⟨c, h1, h2, h3⟩
    exact ⟨c, h1, h3, h2⟩
  · rintro ⟨c, h1, h2, h3⟩
    exact ⟨c, h1, h3, h2⟩

section top
variable {best : Nat → T}

/-- The product before the loop. -/
theorem dual_linv (hc : DualCtx p val a b qp N) (h : HashOrder) (hj : ∀ u, 0 ≤ best u)
    (hR : ((Product.ofAutomata p.size a b).initProduct h true true a b).2 = false) :
    let e : SProd T := { base := ((Product.ofAutomata p.size a b).initProduct h true true a b).1, best := best }
    LInv true (PostW p val a qp) (PreW p val b) a b { prod := e } ∧ ∀ u, ¬ Acc e u := by
  intro e
  obtain ⟨k1, k2, k3, k4⟩ := dualProduct_spec hc h
  have he : e = { base := ((Product.ofAutomata p.size a b).initProduct h true true a b).1, best := best } := rfl
  rw [he]
  generalize (Product.ofAutomata p.size a b).initProduct h true true a b = R at *
  have hlab := hc.post.lab
  have hna : ∀ u, u < R.1.aut.n → R.1.aut.isAcc u = false := by
    intro u hu
    by_contra hn
    rw [Bool.not_eq_false, k1.acc u hu] at hn
    rw [k4] at hR
    have := k1.hasAcc.2 ⟨u, hu, hn⟩
    rw [hR] at this
    cases this
  refine ⟨base_linv k1 (fun t ht x hx => ⟨0, .init ht, hx⟩) (fun t ht => .of (.init ht))
    (fun t ht => by have := (hc.pre.valid t ht).2.1; omega) (fun u _ hu => hna u hu) hj, ?_⟩
  intro u hu
  have h1 := hna u hu.2.1
  have h2 := hu.2.2
  dsimp only at h2
  rw [h1] at h2
  cases h2

/-- `dual_search_accepts` ends. -/
theorem dualSearchAccepts_terminates (hc : DualCtx p val a b (shQ p a) (shN p a)) (hneg : shNegative val p a = false)
    (hp : Heap (ShElem T) (WithTop T) ShElem.key) (hq : Heap (T × Nat) T Prod.fst) (h : HashOrder) (junk : Nat → Bool) :
    ∃ fuel r, SInstance.dualSearchAccepts val hp hq h junk p (SInstance.ofAutomata p.size a b best) fuel = .ok (some r) := by
  unfold SInstance.dualSearchAccepts
  dsimp only
  have e1 : (SInstance.ofAutomata p.size a b best).initial = a := rfl
  have e2 : (SInstance.ofAutomata p.size a b best).final = b := rfl
  have e3 : (SInstance.ofAutomata p.size a b best).prod = { base := Product.ofAutomata p.size a b, best := best } := rfl
  rw [e1, e2, e3]
  dsimp only
  cases hR : ((Product.ofAutomata p.size a b).initProduct h true true a b).2 with
  | true => exact ⟨0, _, rfl⟩
  | false =>
    obtain ⟨fuel, r, hr⟩ := dual_terminates hc hp hq h junk
      (d := SInstance.Dual.start val hq h p (SInstance.ofAutomata p.size a b best)
        { base := ((Product.ofAutomata p.size a b).initProduct h true true a b).1, best := best })
      (by rw [dual_start_post, e1]; exact shInit_inv h hc.post)
    rw [hneg]
    exact ⟨fuel, _, by simp only [Bool.false_eq_true, if_false, hr, Option.map_some]; rfl⟩

/-- What `dual_search_accepts` ends with. -/
theorem dualSearchAccepts_end (hc : DualCtx p val a b (shQ p a) (shN p a))
    (hp : Heap (ShElem T) (WithTop T) ShElem.key) (hq : Heap (T × Nat) T Prod.fst) (h : HashOrder) (junk : Nat → Bool) (hj : ∀ u, 0 ≤ best u)
    (hj0 : CommonConf p a b → ∀ u, best u = 0) {fuel : Nat} {r : SInstance T × Bool}
    (hr : SInstance.dualSearchAccepts val hp hq h junk p (SInstance.ofAutomata p.size a b best) fuel = .ok (some r)) :
    WeakEnd (Between p val a b) r.1.prod ∧ (r.2 = true → ∃ u, Acc r.1.prod u) ∧
      (r.2 = false → ∀ u, Acc r.1.prod u → 0 < r.1.prod.best u) ∧ (CommonConf p a b → r.2 = true) := by
  unfold SInstance.dualSearchAccepts at hr
  dsimp only at hr
  have e1 : (SInstance.ofAutomata p.size a b best).initial = a := rfl
  have e2 : (SInstance.ofAutomata p.size a b best).final = b := rfl
  have e3 : (SInstance.ofAutomata p.size a b best).prod = { base := Product.ofAutomata p.size a b, best := best } := rfl
  rw [e1, e2, e3] at hr
  dsimp only at hr
  obtain ⟨k1, k2, k3, k4⟩ := dualProduct_spec hc h
  cases hR : ((Product.ofAutomata p.size a b).initProduct h true true a b).2 with
  | true =>
    generalize (Product.ofAutomata p.size a b).initProduct h true true a b = R at *
    have hge : ∀ u, u < R.1.aut.n → R.1.aut.isAcc u = true → R.1.size ≤ u := by
      intro u hu ha
      by_contra hlt
      rw [k1.acc u hu, Product.orig_lt (by omega)] at ha
      have h1 := ha.2
      rw [hc.pre.noAcc u (by omega)] at h1
      cases h1
    rw [hR] at hr
    simp only [if_true, Except.ok.injEq, Option.some.injEq] at hr
    have hcc := k3.1 hR
    have h0 := hj0 hcc
    obtain ⟨c, c1, c2, c3⟩ := hcc
    have hz : (0 : T) ∈ Between p val a b := ⟨c, c, c1, c2, .nil _, c3⟩
    have hu : ∃ u, Acc ({ base := R.1, best := best } : SProd T) u := by
      rw [k4, k1.hasAcc] at hR
      obtain ⟨u, u1, u2⟩ := hR
      have := (k1.acc u u1).2 u2
      exact ⟨u, hge u u1 this, u1, this⟩
    rw [← hr]
    dsimp only
    refine ⟨⟨fun u hu ha => ⟨hge u hu ha, hu, ha⟩, fun u _ => ⟨0, hz, hj u⟩, ?_⟩, fun _ => hu, (fun hf => by cases hf), fun _ => rfl⟩
    rintro x ⟨c, c', _, _, hrun, _⟩
    obtain ⟨u, hu⟩ := hu
    refine ⟨u, hu, ?_⟩
    dsimp only
    rw [h0 u]
    exact CostRun.nonneg (R := p.Has) (val := val) (fun r hr => by
      rw [Pda.Has_iff] at hr
      obtain ⟨l, hm, _⟩ := hr
      exact hc.pre.nonneg _ _ hm) hrun
  | false =>
    obtain ⟨h1, h2⟩ := dual_linv hc h hj hR
    rw [if_neg (by rw [hR]; decide)] at hr
    split at hr
    · cases hr
    simp only [Except.ok.injEq, Option.map_eq_some_iff] at hr
    obtain ⟨d, d1, d2⟩ := hr
    obtain ⟨g1, g2, g3, _⟩ := dual_end hc hp hq h junk (dual_start hq h hc (i := SInstance.ofAutomata p.size a b best) e1 e2 k2 h1 h2) d1
    rw [← d2]
    exact ⟨g1, g2, g3, fun hcc => by rw [k3.2 hcc] at hR; cases hR⟩

end top

end Verif
