import Verif.Proofs.ShortestProduct

/-! # The product with weights: `construct_reachable`, `initialize_product` and `add_edge` -/

namespace Verif.SProd

variable {T : Type} [LinearOrder T] [AddCommMonoid T]

open Product (Mv PInv PExt EdgeOK InRange ann)

/-- The moves `M` from the states in `P` are accounted for. -/
def Tri (M : Nat × Nat → Nat → Nat × Nat → T → Prop) (s : SProd T) (P : Nat → Prop) : Prop :=
  ∀ u, u < s.base.aut.n → P u → ∀ g y w, M (s.base.orig u) g y w →
    ∃ v, v < s.base.aut.n ∧ s.base.orig v = y ∧ (s.base.size ≤ v → (s.back v).isSome) ∧ s.key v ≤ s.key u + w

/-- The product `s'` has at least the states of `s`, and no state that was reached is heavier. -/
structure SLe (s s' : SProd T) : Prop where
  ext : PExt s.base s'.base
  le : ∀ u, u < s.base.aut.n → (s.base.size ≤ u → (s.back u).isSome) →
    s'.key u ≤ s.key u ∧ (s.base.size ≤ u → (s'.back u).isSome)

theorem SLe.refl (s : SProd T) : SLe s s := ⟨PExt.refl _, fun _ _ h => ⟨le_refl _, h⟩⟩

theorem SLe.trans {s s1 s2 : SProd T} (h : SLe s s1) (h' : SLe s1 s2) : SLe s s2 := by
  refine ⟨h.ext.trans h'.ext, fun u hu hb => ?_⟩
  obtain ⟨h1, h2⟩ := h.le u hu hb
  obtain ⟨h3, h4⟩ := h'.le u (Nat.lt_of_lt_of_le hu h.ext.n) (by rw [h.ext.size]; exact h2)
  exact ⟨le_trans h3 h1, by rw [h.ext.size] at h4; exact h4⟩

theorem SExt.sle {s s' : SSt T} (h : SExt s s') : SLe s.prod s'.prod := ⟨h.ext, fun _ hu hb => h.le hu hb⟩

theorem Tri.ext {M : Nat × Nat → Nat → Nat × Nat → T → Prop} {s s' : SSt T} (h : SExt s s') (hd : s'.done = false) {P P' : Nat → Prop}
    (ht : Tri M s.prod P) (hP : ∀ u, P' u → P u ∧ ((u ∈ s.seen ∧ u < s.prod.base.aut.n) ∨ ∀ e ∈ s'.queue, e.2 ≠ u)) :
    Tri M s'.prod P' := by
  intro u hu hp g y w hm
  obtain ⟨h1, h2⟩ := hP u hp
  have hun : u < s.prod.base.aut.n := by
    rcases h2 with ⟨_, h2⟩ | h2
    · exact h2
    · by_contra hc
      rcases h.new u (Nat.le_of_not_lt hc) hu with h3 | ⟨e, h3, h4⟩
      · rw [hd] at h3; cases h3
      · exact h2 e h3 h4
  have hkey : s'.prod.key u = s.prod.key u := by
    rcases h2 with ⟨h2, _⟩ | h2
    · exact (h.frozen u h2).1
    · rcases h.keep u hun with ⟨h3, _⟩ | ⟨h3 | ⟨e, h3, h4⟩, _⟩
      · exact h3
      · rw [hd] at h3; cases h3
      · exact absurd h4 (h2 e h3)
  rw [h.ext.orig u hun] at hm
  obtain ⟨v, v1, v2, v3, v4⟩ := ht u hun h1 g y w hm
  obtain ⟨v5, v6⟩ := h.le v1 v3
  exact ⟨v, Nat.lt_of_lt_of_le v1 h.ext.n, by rw [h.ext.orig v v1]; exact v2, by rw [h.ext.size]; exact v6,
    by rw [hkey]; exact le_trans v5 v4⟩

theorem foldl_done (dual et : Bool) (A B : Aut T) (k : WithTop T) (rs : List (PEdge T)) (s : SSt T) (h : s.done = true) :
    rs.foldl (insert dual et A B k) s = s := by
  induction rs with
  | nil => rfl
  | cons r rs ih =>
    have : insert dual et A B k s r = s := by unfold insert; rw [if_pos h]
    rw [List.foldl_cons, this, ih]

variable [IsOrderedCancelAddMonoid T]

theorem insertAll_spec {dual et : Bool} {SA SB : Tr → T → Prop} {A B : Aut T} {k : WithTop T}
    (hA : NonNeg SA) (hB : NonNeg SB) (hSA : ∀ t x, A.wt t = some x → SA t x)
    (hSB : ∀ t x, B.wt t = some x → SB t x) (rs : List (PEdge T)) (s : SSt T)
    (h : LInv dual SA SB A B s) (hd : s.done = false) (hr : ∀ r ∈ rs, WEdgeOK dual A B s.prod.base r)
    (hst : s.seen = [] ∨ ∀ r ∈ rs, r.top ∈ s.seen)
    (hcase : ∀ r ∈ rs, (∀ u ∈ s.seen, s.prod.key u ≤ s.prod.key r.top) ∨ Bounded s.prod (s.prod.key r.top) r) :
    let s' := rs.foldl (insert dual et A B k) s
    LInv dual SA SB A B s' ∧ SExt s s' ∧ (s'.done = true → s'.prod.stop k = true) ∧
      s'.queue.length ≤ s.queue.length + rs.length ∧
      ((∀ r ∈ rs, r.top ∈ s.seen ∧ Bounded s.prod (s.prod.key r.top) r) → s'.queue = s.queue) ∧
      (∀ r ∈ rs, s'.done = true ∨ (r.top ∈ s.seen ∨ (∀ e ∈ s'.queue, e.2 ≠ r.top) → Bounded s'.prod (s'.prod.key r.top) r)) ∧
      BKeep dual SA SB s.prod s'.prod := by
  induction rs generalizing s with
  | nil =>
    intro s'
    exact ⟨h, SExt.refl s, (fun h1 => absurd (show s.done = true from h1) (by rw [hd]; simp)), Nat.le_refl _, fun _ => rfl, (fun r hr => by cases hr), BKeep.refl _ _ _ _⟩
  | cons r rs ih =>
    intro s'
    obtain ⟨a1, a2, a3, a4, a5, a6, a7⟩ := insert_spec (et := et) (k := k) h hA hB hSA hSB hd (hr r (List.mem_cons_self ..)) (hcase r (List.mem_cons_self ..))
    have hs' : s' = rs.foldl (insert dual et A B k) (insert dual et A B k s r) := rfl
    generalize insert dual et A B k s r = s1 at hs' a1 a2 a3 a4 a5 a6 a7
    have hrest : LInv dual SA SB A B s' ∧ SExt s1 s' ∧ (s'.done = true → s'.prod.stop k = true) ∧
        s'.queue.length ≤ s1.queue.length + rs.length ∧
        ((∀ r ∈ rs, r.top ∈ s.seen ∧ Bounded s.prod (s.prod.key r.top) r) → s'.queue = s1.queue) ∧
        (∀ r ∈ rs, s'.done = true ∨ (r.top ∈ s.seen ∨ (∀ e ∈ s'.queue, e.2 ≠ r.top) → Bounded s'.prod (s'.prod.key r.top) r)) ∧
        BKeep dual SA SB s1.prod s'.prod := by
      by_cases hd1 : s1.done = true
      · rw [foldl_done dual et A B k rs s1 hd1] at hs'
        rw [hs']
        exact ⟨a1, SExt.refl s1, a4, Nat.le_add_right _ _, fun _ => rfl, fun _ _ => .inl hd1, BKeep.refl _ _ _ _⟩
      · have hkey : ∀ r ∈ rs, s.seen ≠ [] → s1.prod.key r.top = s.prod.key r.top := by
          intro r' hr' hne
          rcases hst with h1 | h1
          · exact absurd h1 hne
          · exact (a2.frozen _ (h1 r' (List.mem_cons_of_mem _ hr'))).1
        have hkey2 : ∀ u ∈ s.seen, s1.prod.key u = s.prod.key u := fun u hu => (a2.frozen u hu).1
        have := ih s1 a1 (by simpa using hd1) (fun r' hr' => (hr r' (List.mem_cons_of_mem _ hr')).ext a2.ext)
          (by
            rw [a2.seen]
            exact hst.imp id fun h1 r' hr' => h1 r' (List.mem_cons_of_mem _ hr'))
          (by
            rw [a2.seen]
            intro r' hr'
            by_cases hne : s.seen = []
            · left; intro u hu; rw [hne] at hu; cases hu
            · rw [hkey r' hr' hne]
              refine (hcase r' (List.mem_cons_of_mem _ hr')).imp (fun h1 u hu => ?_) (fun h1 => h1.ext a2)
              rw [hkey2 u hu]
              exact h1 u hu)
        rw [a2.seen] at this
        rw [hs']
        obtain ⟨c1, c2, c3, c4, c5, c6, c7⟩ := this
        refine ⟨c1, c2, c3, c4, fun hq => c5 fun r' hr' => ?_, c6, c7⟩
        obtain ⟨q1, q2⟩ := hq r' hr'
        refine ⟨q1, ?_⟩
        rw [hkey2 _ q1]
        exact q2.ext a2
    obtain ⟨c1, c2, c3, c4, c5, c6, c7⟩ := hrest
    have hall := a2.trans c2
    refine ⟨c1, hall, c3, ?_, ?_, ?_, a7.trans c7⟩
    · rw [List.length_cons]; omega
    · intro hq
      rw [c5 fun r' hr' => hq r' (List.mem_cons_of_mem _ hr'), a6 (hq r (List.mem_cons_self ..)).2]
    · intro r' hr'
      rcases List.mem_cons.1 hr' with rfl | hr'
      · by_cases hds : s'.done = true
        · exact .inl hds
        · refine .inr fun hc => ?_
          have hk : s'.prod.key r'.top = s.prod.key r'.top := by
            rcases hc with hc | hc
            · exact (hall.frozen _ hc).1
            · rcases hall.keep _ (hr r' (List.mem_cons_self ..)).top with ⟨h3, _⟩ | ⟨h3 | ⟨e, h3, h4⟩, _⟩
              · exact h3
              · exact absurd h3 hds
              · exact absurd h4 (hc e h3)
          rw [hk]
          exact a3.ext c2
      · exact c6 r' hr'

theorem drain_spec (hq : Heap (T × Nat) T Prod.fst) (seen : List Nat) (n : Nat) (q : List (T × Nat)) :
    (drain hq seen n q).length ≤ q.length ∧ (∀ e ∈ drain hq seen n q, e ∈ q) ∧
      ∀ e ∈ q, e.2 ∉ seen → e ∈ drain hq seen n q := by
  induction n generalizing q with
  | zero => exact ⟨Nat.le_refl _, fun _ h => h, fun _ h _ => h⟩
  | succ n ih =>
    unfold drain
    split
    · exact ⟨Nat.le_refl _, fun _ h => h, fun _ h _ => h⟩
    · rename_i x r hp
      obtain ⟨h1, _⟩ := hq.spec _ _ _ hp
      split
      · rename_i hc
        obtain ⟨i1, i2, i3⟩ := ih r
        have hl := h1.length_eq
        rw [List.length_cons] at hl
        refine ⟨by omega, fun e he => h1.subset (List.mem_cons_of_mem _ (i2 e he)), fun e he hs => ?_⟩
        rcases List.mem_cons.1 (h1.symm.subset he) with rfl | h2
        · exact absurd (by simpa using hc) hs
        · exact i3 e h2 hs
      · exact ⟨Nat.le_refl _, fun _ h => h, fun _ h _ => h⟩

/-- The number of states that have not been popped. -/
def unseen (A B : Aut T) (s : SSt T) : Nat :=
  (List.range (s.prod.base.size + A.n * B.n)).countP fun u => !s.seen.contains u

omit [LinearOrder T] [AddCommMonoid T] [IsOrderedCancelAddMonoid T] in
theorem n_le {dual : Bool} {A B : Aut T} {s : Product T} (h : PInv dual A B s) : s.aut.n ≤ s.size + A.n * B.n := by
  have hlen : s.idMap.length ≤ A.n * B.n := by
    have hsub : s.idMap ⊆ (List.range A.n).product (List.range B.n) := by
      intro x hx
      obtain ⟨i, hi, hx'⟩ := List.mem_iff_getElem.1 hx
      have := h.range (s.size + i) (by rw [h.n]; omega)
      rw [Product.orig_ge (x := x) (by rw [List.getElem?_eq_getElem hi, hx'])] at this
      exact List.mem_product.2 ⟨List.mem_range.2 this.1, List.mem_range.2 this.2⟩
    have := (List.subperm_of_subset h.nodup hsub).length_le
    rw [show (List.range A.n).product (List.range B.n) = List.range A.n ×ˢ List.range B.n from rfl,
      List.length_product, List.length_range, List.length_range] at this
    exact this
  rw [h.n]
  omega

/-- What holds in the loop of `construct_reachable`. -/
structure CInv (dual : Bool) (SA SB : Tr → T → Prop) (A B : Aut T) (M : Nat × Nat → Nat → Nat × Nat → T → Prop)
    (k : WithTop T) (s : SSt T) : Prop where
  l : LInv dual SA SB A B s
  full : s.done = false → Tri (MvR dual (WtOf A) (WtOf B)) s.prod (· ∈ s.seen)
  part : s.done = false → Tri M s.prod fun u => u ∈ s.seen ∨ ∀ e ∈ s.queue, e.2 ≠ u
  stop : s.done = true → s.prod.stop k = true

theorem construct_spec (hq : Heap (T × Nat) T Prod.fst) (h : HashOrder) {dual et : Bool} {SA SB : Tr → T → Prop} {A B : Aut T}
    {k : WithTop T} {M : Nat × Nat → Nat → Nat × Nat → T → Prop}
    (hrA : InRange A) (hrB : InRange B) (hA : NonNeg SA) (hB : NonNeg SB) (hSA : ∀ t x, A.wt t = some x → SA t x)
    (hSB : ∀ t x, B.wt t = some x → SB t x) (hM : ∀ x g y w, M x g y w → MvR dual (WtOf A) (WtOf B) x g y w)
    (n : Nat) (s : SSt T) (hi : CInv dual SA SB A B M k s)
    (hn : s.queue.length + unseen A B s * outBound A B ≤ n) :
    let s' := construct hq h dual et A B k n s
    CInv dual SA SB A B M k s' ∧ SLe s.prod s'.prod ∧ (s'.done = true ∨ s'.queue = []) ∧ BKeep dual SA SB s.prod s'.prod := by
  induction n generalizing s with
  | zero =>
    intro s'
    refine ⟨hi, SLe.refl _, .inr ?_, BKeep.refl _ _ _ _⟩
    have : s.queue.length = 0 := by omega
    exact List.length_eq_zero_iff.1 this
  | succ n ih =>
    intro s'
    have hs' : s' = construct hq h dual et A B k (n + 1) s := rfl
    unfold construct at hs'
    by_cases hd : s.done = true
    · rw [if_pos hd] at hs'
      rw [hs']
      exact ⟨hi, SLe.refl _, .inl hd, BKeep.refl _ _ _ _⟩
    · rw [if_neg hd] at hs'
      rcases hp : hq.pop s.queue with _ | ⟨x, r⟩
      · rw [hp] at hs'
        dsimp only at hs'
        rw [hs']
        exact ⟨hi, SLe.refl _, .inr ((hq.none_iff _).1 hp), BKeep.refl _ _ _ _⟩
      · rw [hp] at hs'
        dsimp only at hs'
        have hd' : s.done = false := by simpa using hd
        obtain ⟨hperm, hle⟩ := hq.spec _ _ _ hp
        obtain ⟨d1, d2, d3⟩ := drain_spec hq (x.2 :: s.seen) r.length r
        generalize hqd : drain hq (x.2 :: s.seen) r.length r = qd at hs' d1 d2 d3
        have hxq : x ∈ s.queue := hperm.subset (List.mem_cons_self ..)
        obtain ⟨x1, x2, x3⟩ := hi.l.ent x hxq
        have hrq : ∀ e ∈ r, e ∈ s.queue := fun e he => hperm.subset (List.mem_cons_of_mem _ he)
        have hqr : ∀ e ∈ s.queue, e.2 ≠ x.2 → e ∈ r := by
          intro e he hne
          rcases List.mem_cons.1 (hperm.symm.subset he) with h1 | h1
          · exact absurd (by rw [h1]) hne
          · exact h1
        have hx : x.2 ∉ s.seen → x.1 = s.prod.key x.2 := by
          intro hns
          obtain ⟨e', e1, e2, e3⟩ := hi.l.ex hd' x hxq hns
          rcases List.mem_cons.1 (hperm.symm.subset e1) with h1 | h1
          · rw [h1] at e3; exact e3
          · exact le_antisymm (by rw [← e3]; exact hle e' h1) x2
        have hl1 : LInv dual SA SB A B { s with seen := x.2 :: s.seen, queue := qd } := by
          refine ⟨hi.l.base, hi.l.sound, hi.l.fresh, hi.l.acc, fun e he => hi.l.ent e (hrq e (d2 e he)), ?_, ?_⟩
          · intro _ e he hns
            have hne : e.2 ≠ x.2 := fun h1 => hns (by rw [h1]; exact List.mem_cons_self ..)
            obtain ⟨e', e1, e2, e3⟩ := hi.l.ex hd' e (hrq e (d2 e he)) fun h1 => hns (List.mem_cons_of_mem _ h1)
            exact ⟨e', d3 e' (hqr e' e1 (by rw [e2]; exact hne)) (by rw [e2]; exact hns), e2, e3⟩
          · intro u hu
            rcases List.mem_cons.1 hu with rfl | hu
            · exact ⟨x1, x3, fun e he => le_trans x2 (hle e (d2 e he))⟩
            · obtain ⟨q1, q2, q3⟩ := hi.l.ord u hu
              exact ⟨q1, q2, fun e he => q3 e (hrq e (d2 e he))⟩
        have hbd : x.2 ∈ s.seen → ∀ r ∈ edgesFrom h dual A B s.prod.base x.2, Bounded s.prod (s.prod.key r.top) r := by
          intro hs r hr
          obtain ⟨m1, m2, m3⟩ := mem_edgesFrom hr
          obtain ⟨y, hy⟩ := List.exists_mem_of_ne_nil _ m2
          obtain ⟨v, v1, v2, v3, _⟩ := hi.full hd' x.2 x1 hs _ _ _ (m3 y hy)
          refine ⟨v, v1, v2, v3, fun z hz => ?_⟩
          obtain ⟨v', w1, w2, _, w4⟩ := hi.full hd' x.2 x1 hs _ _ _ (m3 z hz)
          rw [hi.l.base.inj v1 w1 (by rw [v2, w2]), m1]
          exact w4
        obtain ⟨a1, a2, a3, a4, a5, a6, a7⟩ := insertAll_spec (et := et) (k := k) hA hB hSA hSB (edgesFrom h dual A B s.prod.base x.2)
          { s with seen := x.2 :: s.seen, queue := qd } hl1 hd' (edgesFrom_ok h hrA hrB hi.l.base x1)
          (.inr fun r hr => by rw [(mem_edgesFrom hr).1]; exact List.mem_cons_self ..)
          (by
            intro r hr
            by_cases hs : x.2 ∈ s.seen
            · exact .inr (hbd hs r hr)
            · left
              intro u hu
              rw [(mem_edgesFrom hr).1]
              rcases List.mem_cons.1 hu with rfl | hu
              · exact le_refl _
              · show s.prod.key u ≤ s.prod.key x.2
                rw [← hx hs]
                exact (hi.l.ord u hu).2.2 x hxq)
        have hlen := edgesFrom_length h dual A B s.prod.base x.2
        generalize hs1 : (edgesFrom h dual A B s.prod.base x.2).foldl (insert dual et A B k)
          { s with seen := x.2 :: s.seen, queue := qd } = s1 at *
        have hsle : SLe s.prod s1.prod := a2.sle
        have hsz : s1.prod.base.size = s.prod.base.size := a2.ext.size
        have hseen : s1.seen = x.2 :: s.seen := a2.seen
        have hfull : s1.done = false → Tri (MvR dual (WtOf A) (WtOf B)) s1.prod (· ∈ s1.seen) := by
          intro hd1
          have hold : Tri (MvR dual (WtOf A) (WtOf B)) s1.prod (· ∈ s.seen) :=
            Tri.ext a2 hd1 (P := (· ∈ s.seen)) (hi.full hd') fun u hu => ⟨hu, .inl ⟨List.mem_cons_of_mem _ hu, (hi.l.ord u hu).1⟩⟩
          intro u hu hsu g y w hm
          rw [hseen] at hsu
          rcases List.mem_cons.1 hsu with rfl | hsu
          · have ho : s1.prod.base.orig x.2 = s.prod.base.orig x.2 := a2.ext.orig _ x1
            rw [ho] at hm
            obtain ⟨r', r1, r2, z, r3, r4, r5⟩ := edgesFrom_complete h hm
            have ht := (mem_edgesFrom r1).1
            rcases a6 r' r1 with h1 | h1
            · rw [hd1] at h1; cases h1
            · obtain ⟨v, v1, v2, v3, v4⟩ := h1 (.inl (by rw [ht]; exact List.mem_cons_self ..))
              refine ⟨v, v1, by rw [v2, r2], v3, ?_⟩
              have := v4 z r3
              rw [ht, r5] at this
              exact this
          · exact hold u hu hsu g y w hm
        have hci : CInv dual SA SB A B M k s1 := by
          refine ⟨a1, hfull, ?_, a3⟩
          intro hd1 u hu hpu g y w hm
          by_cases hsu : u ∈ s1.seen
          · exact hfull hd1 u hu hsu g y w (hM _ _ _ _ hm)
          · have hnq : ∀ e ∈ s1.queue, e.2 ≠ u := hpu.resolve_left hsu
            refine Tri.ext a2 hd1 (P := fun u => u ∈ s.seen ∨ ∀ e ∈ s.queue, e.2 ≠ u) (P' := (· = u)) (hi.part hd') ?_ u hu rfl g y w hm
            rintro _ rfl
            refine ⟨.inr fun e he heq => ?_, .inr hnq⟩
            rw [hseen] at hsu
            have h2 : e ∈ r := hqr e he fun h1 => hsu (by rw [← heq, h1]; exact List.mem_cons_self ..)
            exact hnq e (a2.queue e (d3 e h2 (by rw [heq]; exact hsu))) heq
        have hmeas : s1.queue.length + unseen A B s1 * outBound A B ≤ n := by
          have hrl : r.length + 1 = s.queue.length := by
            have := hperm.length_eq
            rw [List.length_cons] at this
            exact this
          by_cases hs : x.2 ∈ s.seen
          · have h1 : s1.queue = qd := a5 fun r hr => ⟨by rw [(mem_edgesFrom hr).1]; exact List.mem_cons_self .., hbd hs r hr⟩
            have h2 : unseen A B s1 ≤ unseen A B s := by
              unfold unseen
              rw [hsz]
              apply countP_le_of_imp
              intro u _ hu
              rw [hseen] at hu
              simp only [List.contains_cons, Bool.not_or, Bool.and_eq_true] at hu
              exact hu.2
            have h3 := Nat.mul_le_mul_right (outBound A B) h2
            rw [h1]
            omega
          · have h2 : unseen A B s1 + 1 ≤ unseen A B s := by
              unfold unseen
              rw [hsz]
              apply countP_lt_of_imp (a := x.2)
              · intro u _ hu
                rw [hseen] at hu
                simp only [List.contains_cons, Bool.not_or, Bool.and_eq_true] at hu
                exact hu.2
              · rw [List.mem_range]
                exact Nat.lt_of_lt_of_le x1 (n_le hi.l.base)
              · simpa using hs
              · rw [hseen]; simp
            have h3 := Nat.mul_le_mul_right (outBound A B) h2
            rw [Nat.add_mul, Nat.one_mul] at h3
            dsimp only at a4
            omega
        obtain ⟨f1, f2, f3, f4⟩ := ih s1 hci hmeas
        rw [hs']
        exact ⟨f1, hsle.trans f2, f3, a7.trans f4⟩

omit [IsOrderedCancelAddMonoid T] in
theorem fuel_ge (A B : Aut T) (s : SSt T) : s.queue.length + unseen A B s * outBound A B ≤ fuel A B s := by
  unfold fuel unseen outBound
  refine Nat.add_le_add_left (Nat.mul_le_mul_right _ ?_) _
  refine Nat.le_trans List.countP_le_length ?_
  rw [List.length_range]

/-- What holds of the product between calls. -/
structure PState (dual : Bool) (SA SB : Tr → T → Prop) (A B : Aut T) (M : Nat × Nat → Nat → Nat × Nat → T → Prop)
    (s : SProd T) : Prop where
  l : LInv dual SA SB A B { prod := s }
  tri : Tri M s fun _ => True

theorem LInv.prod {dual : Bool} {SA SB : Tr → T → Prop} {A B : Aut T} {s : SSt T} (h : LInv dual SA SB A B s) :
    LInv dual SA SB A B { prod := s.prod } :=
  ⟨h.base, h.sound, h.fresh, h.acc, (fun _ he => by cases he), (fun _ _ he => by cases he), (fun _ he => by cases he)⟩

theorem finish {hq : Heap (T × Nat) T Prod.fst} {h : HashOrder} {dual : Bool} {SA SB : Tr → T → Prop} {A B : Aut T}
    {k : WithTop T} {M : Nat × Nat → Nat → Nat × Nat → T → Prop}
    (hrA : InRange A) (hrB : InRange B) (hA : NonNeg SA) (hB : NonNeg SB) (hSA : ∀ t x, A.wt t = some x → SA t x)
    (hSB : ∀ t x, B.wt t = some x → SB t x) (hM : ∀ x g y w, M x g y w → MvR dual (WtOf A) (WtOf B) x g y w)
    {s : SSt T} (hi : CInv dual SA SB A B M k s) :
    let r := result k (construct hq h dual true A B k (fuel A B s) s)
    LInv dual SA SB A B { prod := r.1 } ∧ SLe s.prod r.1 ∧ r.2 = r.1.stop k ∧ (r.2 = false → PState dual SA SB A B M r.1) ∧
      BKeep dual SA SB s.prod r.1 := by
  intro r
  obtain ⟨c1, c2, c3, c4⟩ := construct_spec hq h (et := true) (k := k) hrA hrB hA hB hSA hSB hM (fuel A B s) s hi (fuel_ge A B s)
  have hr : r = result k (construct hq h dual true A B k (fuel A B s) s) := rfl
  generalize construct hq h dual true A B k (fuel A B s) s = s' at c1 c2 c3 c4 hr
  unfold result at hr
  have h1 : r.1 = s'.prod := by rw [hr]
  have h2 : r.2 = (s'.done || s'.prod.stop k) := by rw [hr]
  rw [h1, h2]
  refine ⟨c1.l.prod, c2, ?_, ?_, c4⟩
  · cases hd : s'.done with
    | false => rfl
    | true => rw [c1.stop hd]; rfl
  · intro hf
    rw [Bool.or_eq_false_iff] at hf
    refine ⟨c1.l.prod, fun u hu _ => c1.part hf.1 u hu (.inr ?_)⟩
    rcases c3 with h3 | h3
    · rw [hf.1] at h3; cases h3
    · rw [h3]; intro e he; cases he

/-- `initialize_product`. -/
theorem initProduct_spec (hq : Heap (T × Nat) T Prod.fst) (h : HashOrder) {SA SB : Tr → T → Prop} {A B : Aut T} {s : SProd T}
    (hrA : InRange A) (hrB : InRange B) (hA : NonNeg SA) (hB : NonNeg SB) (hSA : ∀ t x, A.wt t = some x → SA t x)
    (hSB : ∀ t x, B.wt t = some x → SB t x) (hi : LInv false SA SB A B { prod := s }) (hn : s.base.aut.n = s.base.size) :
    let r := initProduct hq h A B s
    LInv false SA SB A B { prod := r.1 } ∧ SLe s r.1 ∧ r.2 = r.1.stop 0 ∧
      (r.2 = false → PState false SA SB A B (MvR false (WtOf A) (WtOf B)) r.1) ∧ BKeep false SA SB s r.1 := by
  intro r
  refine finish (hq := hq) (h := h) (k := 0) hrA hrB hA hB hSA hSB (M := MvR false (WtOf A) (WtOf B)) (fun _ _ _ _ hm => hm)
    (s := { prod := s, queue := (List.range s.base.aut.n).map fun i => (0, i) }) ?_
  have hk : ∀ i, i < s.base.aut.n → s.key i = 0 := by
    intro i h1
    unfold key
    rw [if_pos (by rw [← hn]; exact h1)]
  refine ⟨⟨hi.base, hi.sound, hi.fresh, hi.acc, ?_, ?_, (fun _ he => by cases he)⟩, (fun _ _ _ he => by cases he), ?_,
    (fun hd => by cases hd)⟩
  · intro e he
    obtain ⟨i, h1, rfl⟩ := List.mem_map.1 he
    rw [List.mem_range] at h1
    refine ⟨h1, le_of_eq (hk i h1), fun h2 => ?_⟩
    dsimp only at h2
    omega
  · intro _ e he _
    refine ⟨e, he, rfl, ?_⟩
    obtain ⟨i, h1, rfl⟩ := List.mem_map.1 he
    rw [List.mem_range] at h1
    exact (hk i h1).symm
  · intro _ u hu hp
    rcases hp with hp | hp
    · cases hp
    · exact absurd rfl (hp (0, u) (List.mem_map.2 ⟨u, List.mem_range.2 hu, rfl⟩))

/-- The moves that use the transition `t`, which is in the first or in the second automaton. -/
def Uses (inFirst dual : Bool) (A B : Aut T) (t : Tr) : Nat × Nat → Nat → Nat × Nat → T → Prop :=
  MvR dual (fun e x => A.wt e = some x ∧ (if inFirst then e = t else e.label ≠ epsilon))
    (fun e x => B.wt e = some x ∧ (if inFirst then e.label ≠ epsilon else e = t))

/-- `add_edge`. -/
theorem addEdge_spec (hq : Heap (T × Nat) T Prod.fst) (h : HashOrder) {inFirst dual : Bool} {SA SB : Tr → T → Prop}
    {A B : Aut T} {s : SProd T} {M M' : Nat × Nat → Nat → Nat × Nat → T → Prop}
    (hrA : InRange A) (hrB : InRange B) (hA : NonNeg SA) (hB : NonNeg SB) (hSA : ∀ t x, A.wt t = some x → SA t x)
    (hSB : ∀ t x, B.wt t = some x → SB t x) (hd : inFirst = false → dual = true) (t : Tr) (an : Ann T) (k : WithTop T)
    (ht : (if inFirst then A else B).wt t = some an.2) (hs : PState dual SA SB A B M s)
    (hM : ∀ x g y w, M' x g y w → MvR dual (WtOf A) (WtOf B) x g y w)
    (hM' : ∀ x g y w, M' x g y w → M x g y w ∨ Uses inFirst dual A B t x g y w) :
    let r := addEdge hq h inFirst dual A B s t an k
    LInv dual SA SB A B { prod := r.1 } ∧ SLe s r.1 ∧ r.2 = r.1.stop k ∧ (r.2 = false → PState dual SA SB A B M' r.1) ∧
      BKeep dual SA SB s r.1 := by
  intro r
  obtain ⟨a1, a2, a3, _, _, a6, a7⟩ := insertAll_spec (et := true) (k := k) hA hB hSA hSB
    (newEdges h inFirst dual A B s.base t an) { prod := s } hs.l rfl
    (by
      intro e he
      obtain ⟨m1, m2, m3⟩ := mem_newEdges hs.l.base hd t an ht he
      obtain ⟨z, hz⟩ := List.exists_mem_of_ne_nil _ m2
      obtain ⟨r1, r2⟩ := hs.l.base.range _ m1
      obtain ⟨h4, h5⟩ := (m3 z hz).mv.range hrA hrB r1 r2
      exact ⟨m1, m2, m3, h4, h5⟩)
    (.inl rfl) (fun _ _ => .inl fun u hu => by cases hu)
  have hr : r = result k (construct hq h dual true A B k (fuel A B ((newEdges h inFirst dual A B s.base t an).foldl
    (insert dual true A B k) { prod := s })) ((newEdges h inFirst dual A B s.base t an).foldl (insert dual true A B k) { prod := s })) := rfl
  generalize hs1 : (newEdges h inFirst dual A B s.base t an).foldl (insert dual true A B k) { prod := s } = s1 at a1 a2 a3 a6 a7 hr
  have hseen : s1.seen = [] := a2.seen
  have hc : CInv dual SA SB A B M' k s1 := by
    refine ⟨a1, ?_, ?_, a3⟩
    · intro _ u _ hu
      rw [hseen] at hu
      cases hu
    · intro hd1 u hu hp g y w hm
      have hnq : ∀ e ∈ s1.queue, e.2 ≠ u := by
        rcases hp with hp | hp
        · rw [hseen] at hp; cases hp
        · exact hp
      have hun : u < s.base.aut.n := by
        by_contra hcon
        rcases a2.new u (Nat.le_of_not_lt hcon) hu with h3 | ⟨e, h3, h4⟩
        · rw [hd1] at h3; cases h3
        · exact hnq e h3 h4
      rcases hM' _ _ _ _ hm with h1 | h1
      · exact Tri.ext a2 hd1 (P := fun _ => True) (P' := (· = u)) hs.tri (fun v hv => ⟨trivial, .inr (by rw [hv]; exact hnq)⟩) u hu rfl g y w h1
      · have ho : s1.prod.base.orig u = s.base.orig u := a2.ext.orig _ hun
        rw [ho] at h1
        have h2 := newEdges_complete h hs.l.base hd t an ht (DA := fun e => inFirst = false ∧ e.label ≠ epsilon)
          (DB := fun e => inFirst = true ∧ e.label ≠ epsilon) hun (g := g) (y := y) (w := w)
          (MvR.mono (fun e x hx => by
            refine ⟨hx.1, ?_⟩
            have := hx.2
            cases inFirst
            · exact .inl ⟨rfl, by simpa using this⟩
            · exact .inr ⟨rfl, by simpa using this⟩) (fun e x hx => by
            refine ⟨hx.1, ?_⟩
            have := hx.2
            cases inFirst
            · exact .inr ⟨rfl, by simpa using this⟩
            · exact .inl ⟨rfl, by simpa using this⟩) h1)
        rcases h2 with h2 | ⟨r', r1, r2, r3, z, r4, r5, r6⟩
        · exfalso
          rcases h2 with ⟨rfl, ⟨⟨_, _, h3⟩, _⟩ | ⟨⟨_, _, h3⟩, _⟩⟩ | ⟨_, a, b, ⟨_, h3, _⟩, ⟨_, h4, _⟩, _⟩
          · exact h3 rfl
          · exact h3 rfl
          · rw [h3] at h4; cases h4
        · rcases a6 r' r1 with h3 | h3
          · rw [hd1] at h3; cases h3
          · obtain ⟨v, v1, v2, v3, v4⟩ := h3 (.inr (by rw [r2]; exact hnq))
            refine ⟨v, v1, by rw [v2, r3], v3, ?_⟩
            have := v4 z r4
            rw [r2, r6] at this
            exact this
  obtain ⟨f1, f2, f3, f4, f5⟩ := finish (hq := hq) (h := h) hrA hrB hA hB hSA hSB hM hc
  rw [hr]
  exact ⟨f1, a2.sle.trans f2, f3, f4, a7.trans f5⟩

end Verif.SProd
