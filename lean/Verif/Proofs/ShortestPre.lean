import Verif.Model.ShortestPre
import Verif.Proofs.ShortestPostFinal
import Verif.Proofs.FixedPreFinal

/-! # Shortest pre*: invariant -/

namespace Verif

variable {W T σ : Type}

/-- The setting: the input is in range, without transitions into control states, of weight zero, and no control state
accepts. -/
structure SPreCtx [LinearOrder T] [AddCommMonoid T] [LinearOrder W] (p : Pda W) (val : W → T) (a0 : Aut T) : Prop where
  wf : p.WF
  size_le : p.size ≤ a0.n
  valid : ∀ t ∈ keys a0.edges, Valid p a0.n t
  nodup : (keys a0.edges).Nodup
  zero : ∀ e ∈ a0.edges, e.2.2 = 0
  noInto : ∀ t ∈ keys a0.edges, p.size ≤ t.dst
  nonneg : ∀ q y, y ∈ (p.st q).rules → 0 ≤ val y.1.weight
  noAcc : ∀ q, q < p.size → a0.isAcc q = false

section
variable [LinearOrder T] [AddCommMonoid T] [LinearOrder W]

/-- The key of a transition of weight `x`. -/
def SPreSt.key (s : SPreSt T σ) (t : Tr) (x : T) : WithTop T := s.minpath t.dst + (x : WithTop T)

/-- The transition is waiting in the queue with its current key. -/
def SPreSt.Pend (s : SPreSt T σ) (t : Tr) : Prop := ∃ x e, s.aut.wt t = some x ∧ e ∈ s.ws ∧ e.edge = t ∧ e.key = s.key t x

/-- The transition is there, with a weight of at most `w`. -/
def SPreSt.Bound (s : SPreSt T σ) (t : Tr) (w : T) : Prop := ∃ x, s.aut.wt t = some x ∧ x ≤ w

/-- `_minpath` will not change any more. -/
def SPreSt.Fix (p : Pda W) (cur : Nat → Prop) (s : SPreSt T σ) (q : Nat) : Prop := p.size ≤ q ∨ q ∈ s.popped ∨ cur q

/-- The invariant. `κ` is the key of the element taken last, `cur` holds of the source of a transition while it is
processed. -/
structure SPreI (p : Pda W) (val : W → T) (a0 : Aut T) (cur : Nat → Prop) (κ : WithTop T) (s : SPreSt T σ) : Prop where
  nodup : (keys s.aut.edges).Nodup
  undef : s.undef = false
  failed : s.failed = false
  acc : s.aut.acc = a0.acc
  kpos : 0 ≤ κ
  kne : κ ≠ ⊤
  mpos : ∀ q, 0 ≤ s.minpath q
  der : ∀ t x, s.aut.wt t = some x → PreDer p.Has val (· ∈ keys a0.edges) t x
  valid : ∀ t x, s.aut.wt t = some x → Valid p a0.n t
  pos : ∀ t x, s.aut.wt t = some x → 0 ≤ x
  input : ∀ t ∈ keys a0.edges, s.aut.wt t = some 0
  fix : ∀ t x, s.aut.wt t = some x → s.Fix p cur t.dst
  bigDst : ∀ t x, s.aut.wt t = some x → p.size ≤ t.dst → s.minpath t.dst = 0
  bigSrc : ∀ t x, s.aut.wt t = some x → p.size ≤ t.src → s.minpath t.src = 0
  low : ∀ q, q < p.size → q ∈ s.popped ∨ cur q → s.minpath q ≤ κ
  tri : ∀ t x, s.aut.wt t = some x → s.Fix p cur t.src → s.minpath t.src ≤ s.key t x
  entry : ∀ e ∈ s.ws, κ ≤ e.key ∧ e.key ≠ ⊤ ∧ (∃ x, s.aut.wt e.edge = some x ∧ s.key e.edge x ≤ e.key) ∧
    (p.size ≤ e.edge.src → e.key = 0)
  entNodup : (s.ws.map fun e => (e.edge, e.key)).Nodup
  settled : ∀ t x, s.aut.wt t = some x → ¬ s.Pend t → s.key t x ≤ κ ∧ t ∈ s.rel ∧ (t.src < p.size → t.src ∈ s.popped ∨ cur t.src)
  rel : ∀ t ∈ s.rel, ∃ x, s.aut.wt t = some x
  dpOK : ∀ q st id, (q, st, id) ∈ s.dp → ∃ r l, (p.st st).rules[id]? = some (r, l) ∧ r.op = .push ∧
    ∃ x, s.aut.wt ⟨r.to, r.opLabel, q⟩ = some x

/-- What an update does. -/
structure SPreAdv (p : Pda W) (cur : Nat → Prop) (s s' : SPreSt T σ) : Prop where
  less : ∀ t y, s.Bound t y → s'.Bound t y
  back : ∀ t x, s'.aut.wt t = some x → ¬ s'.Pend t → s.aut.wt t = some x ∧ ¬ s.Pend t
  keep : ∀ t x, s.aut.wt t = some x → ¬ s.Pend t → s'.aut.wt t = some x ∧ ¬ s'.Pend t
  mp : ∀ q, s.Fix p cur q → s'.minpath q = s.minpath q
  dp : ∀ d ∈ s.dp, d ∈ s'.dp
  popped : s'.popped = s.popped
  rel : s'.rel = s.rel
  ext : s'.ext = s.ext
  found : s'.found = s.found

omit [LinearOrder W] in
theorem SPreAdv.refl (p : Pda W) (cur : Nat → Prop) (s : SPreSt T σ) : SPreAdv p cur s s :=
  ⟨fun _ _ h => h, fun _ _ h1 h2 => ⟨h1, h2⟩, fun _ _ h1 h2 => ⟨h1, h2⟩, fun _ _ => rfl, fun _ h => h, rfl, rfl, rfl, rfl⟩

omit [LinearOrder W] in
theorem SPreAdv.trans {p : Pda W} {cur : Nat → Prop} {s s1 s2 : SPreSt T σ} (h1 : SPreAdv p cur s s1) (h2 : SPreAdv p cur s1 s2) :
    SPreAdv p cur s s2 := by
  refine ⟨fun t y h => h2.less t y (h1.less t y h), ?_, ?_, ?_, fun d hd => h2.dp d (h1.dp d hd), h2.popped.trans h1.popped,
    h2.rel.trans h1.rel, h2.ext.trans h1.ext, h2.found.trans h1.found⟩
  · intro t x e hn
    obtain ⟨e', hn'⟩ := h2.back t x e hn
    exact h1.back t x e' hn'
  · intro t x e hn
    obtain ⟨e', hn'⟩ := h1.keep t x e hn
    exact h2.keep t x e' hn'
  · intro q hq
    rw [h2.mp q (by unfold SPreSt.Fix; rw [h1.popped]; exact hq), h1.mp q hq]

end

section
variable [LinearOrder T] [AddCommMonoid T] [IsOrderedCancelAddMonoid T] [LinearOrder W]
variable {p : Pda W} {val : W → T} {a0 : Aut T} {cur : Nat → Prop} {κ : WithTop T}

omit [LinearOrder T] [AddCommMonoid T] [IsOrderedCancelAddMonoid T] in
theorem Aut.wt_set (a : Aut T) (t u : Tr) (ann : Ann T) (h : t ∈ keys a.edges) :
    (a.setEdge t ann).wt u = if u = t then some ann.2 else a.wt u := by
  unfold Aut.wt
  rw [getEdge_set a t u ann h]
  split <;> rfl

omit [IsOrderedCancelAddMonoid T] in
/-- The two outcomes of `insert_edge`. -/
theorem spreInsert_cases (s : SPreSt T σ) (t : Tr) (tr : Trace) (w : T) (hk : s.minpath t.dst ≠ ⊤) :
    (spreInsert s t tr w = s ∧ s.Bound t w) ∨
    ((∀ y, s.aut.wt t = some y → w < y) ∧
      (∀ u, (spreInsert s t tr w).aut.wt u = if u = t then some w else s.aut.wt u) ∧
      ((keys s.aut.edges).Nodup → (keys (spreInsert s t tr w).aut.edges).Nodup) ∧
      (spreInsert s t tr w).aut.acc = s.aut.acc ∧
      (spreInsert s t tr w).ws = s.ws ++ [⟨s.key t w, t, tr⟩] ∧
      (∀ q, (spreInsert s t tr w).minpath q = s.minpath q ∨
        (q = t.src ∧ (spreInsert s t tr w).minpath q = s.key t w ∧ s.key t w < s.minpath q)) ∧
      (spreInsert s t tr w).popped = s.popped ∧ (spreInsert s t tr w).rel = s.rel ∧ (spreInsert s t tr w).dp = s.dp ∧
      (spreInsert s t tr w).undef = s.undef ∧ (spreInsert s t tr w).failed = s.failed ∧
      (spreInsert s t tr w).ext = s.ext ∧ (spreInsert s t tr w).found = s.found) := by
  have hkk : (w : WithTop T) + s.minpath t.dst = s.key t w := add_comm _ _
  have hne : s.key t w ≠ ⊤ := add_coe_ne hk w
  unfold spreInsert
  simp only [hkk, hne, decide_false, Bool.or_false]
  unfold spreInsertWith
  have hs : ({ s with failed := s.failed } : SPreSt T σ) = s := rfl
  rw [hs]
  rcases he : s.aut.getEdge t with _ | ⟨tr0, y⟩
  · right
    have hw : s.aut.wt t = none := by unfold Aut.wt; rw [he]; rfl
    dsimp only
    refine ⟨(fun y hy => by rw [hw] at hy; cases hy), ?_, fun h => Aut.nodup_emplaceEdge h _ _, emplace_acc _ _ _, rfl, ?_, rfl, rfl, rfl, rfl, rfl, rfl, rfl⟩
    · intro u
      rw [Aut.wt_emplace]
      simp [hw]
    · intro q
      split
      · rename_i hlt
        unfold setMin
        split
        · rename_i hq
          subst hq
          exact .inr ⟨rfl, rfl, hlt⟩
        · exact .inl rfl
      · exact .inl rfl
  · have hw : s.aut.wt t = some y := by unfold Aut.wt; rw [he]; rfl
    dsimp only
    by_cases hlt : w < y
    · rw [if_pos hlt]
      right
      refine ⟨fun z hz => by rw [hw] at hz; cases hz; exact hlt, ?_, fun h => by dsimp only; rw [keys_set]; exact h, rfl, rfl, fun q => .inl rfl, rfl, rfl, rfl, rfl, rfl, rfl, rfl⟩
      intro u
      have hin : t ∈ keys s.aut.edges := by
        by_contra hn
        rw [(Aut.wt_none_iff _ _).2 hn] at hw
        cases hw
      exact Aut.wt_set _ _ _ _ hin
    · rw [if_neg hlt]
      exact .inl ⟨rfl, y, hw, not_lt.1 hlt⟩

/-- One update. -/
theorem spreInsert_spec {s : SPreSt T σ} (h : SPreI p val a0 cur κ s) {t : Tr} {w : T} (tr : Trace)
    (hd : PreDer p.Has val (· ∈ keys a0.edges) t w) (hv : Valid p a0.n t) (hw : 0 ≤ w) (hf : s.Fix p cur t.dst)
    (hne : s.minpath t.dst ≠ ⊤) (hbig : p.size ≤ t.dst → s.minpath t.dst = 0) (hκ : κ ≤ s.key t w) (hsrc : t.src < p.size) :
    SPreI p val a0 cur κ (spreInsert s t tr w) ∧ SPreAdv p cur s (spreInsert s t tr w) ∧ (spreInsert s t tr w).Bound t w := by
  rcases spreInsert_cases s t tr w hne with ⟨h1, h2⟩ | ⟨c1, c2, c3, c4, c5, c6, c7, c8, c9, c10, c11, c12, c13⟩
  · rw [h1]
    exact ⟨h, SPreAdv.refl p cur s, h2⟩
  · generalize spreInsert s t tr w = s' at c2 c3 c4 c5 c6 c7 c8 c9 c10 c11 c12 c13
    have hfix : ∀ q, s'.Fix p cur q ↔ s.Fix p cur q := fun q => by unfold SPreSt.Fix; rw [c7]
    have hmp : ∀ q, s.Fix p cur q → s'.minpath q = s.minpath q := by
      intro q hq
      rcases c6 q with h1 | ⟨rfl, _, h3⟩
      · exact h1
      · rcases hq with hq | hq
        · omega
        · exact absurd (lt_of_le_of_lt hκ h3) (not_lt.2 (h.low _ hsrc hq))
    have hlow : ∀ q, s'.minpath q ≤ s.minpath q := by
      intro q
      rcases c6 q with h1 | ⟨_, h2, h3⟩
      · rw [h1]
      · rw [h2]; exact le_of_lt h3
    have hold : ∀ u x, s'.aut.wt u = some x → u ≠ t → s.aut.wt u = some x := by
      intro u x hx hn
      rw [c2, if_neg hn] at hx
      exact hx
    have hnew : s'.aut.wt t = some w := by rw [c2, if_pos rfl]
    have hfx : ∀ u x, s'.aut.wt u = some x → s.Fix p cur u.dst := by
      intro u x hx
      by_cases hut : u = t
      · subst hut; exact hf
      · exact h.fix u x (hold u x hx hut)
    have hkey : ∀ u x, s.Fix p cur u.dst → s'.key u x = s.key u x := by
      intro u x hx
      unfold SPreSt.key
      rw [hmp _ hx]
    have hpend : ∀ u, u ≠ t → (s'.Pend u ↔ s.Pend u) := by
      intro u hn
      constructor
      · rintro ⟨x, e, h1, h2, h3, h4⟩
        have h1' := hold u x h1 hn
        rw [c5, List.mem_append, List.mem_singleton] at h2
        rcases h2 with h2 | h2
        · exact ⟨x, e, h1', h2, h3, by rw [h4, hkey u x (h.fix u x h1')]⟩
        · rw [h2] at h3
          exact absurd h3.symm hn
      · rintro ⟨x, e, h1, h2, h3, h4⟩
        exact ⟨x, e, by rw [c2, if_neg hn]; exact h1, by rw [c5]; exact List.mem_append_left _ h2, h3, by rw [h4, hkey u x (h.fix u x h1)]⟩
    have hpt : s'.Pend t := ⟨w, ⟨s.key t w, t, tr⟩, hnew, by rw [c5]; exact List.mem_append_right _ (List.mem_singleton.2 rfl), rfl, (hkey t w hf).symm⟩
    have hltk : ∀ y, s.aut.wt t = some y → s.key t w < s.key t y := fun y hy => (add_coe_lt hne w y).2 (c1 y hy)
    refine ⟨?_, ?_, ⟨w, hnew, le_refl _⟩⟩
    · refine ⟨c3 h.nodup, c10.trans h.undef, c11.trans h.failed, c4.trans h.acc, h.kpos, h.kne, ?_, ?_, ?_, ?_, ?_, ?_, ?_, ?_, ?_, ?_, ?_, ?_, ?_, ?_, ?_⟩
      · intro q
        rcases c6 q with h1 | ⟨_, h2, _⟩
        · rw [h1]; exact h.mpos q
        · rw [h2]; exact le_trans h.kpos hκ
      · intro u x hx
        by_cases hut : u = t
        · subst hut; rw [hnew] at hx; cases hx; exact hd
        · exact h.der u x (hold u x hx hut)
      · intro u x hx
        by_cases hut : u = t
        · subst hut; exact hv
        · exact h.valid u x (hold u x hx hut)
      · intro u x hx
        by_cases hut : u = t
        · subst hut; rw [hnew] at hx; cases hx; exact hw
        · exact h.pos u x (hold u x hx hut)
      · intro u hu
        have h1 := h.input u hu
        by_cases hut : u = t
        · subst hut
          exact absurd (c1 0 h1) (not_lt.2 hw)
        · rw [c2, if_neg hut]; exact h1
      · intro u x hx
        rw [hfix]
        exact hfx u x hx
      · intro u x hx hb
        rw [hmp _ (hfx u x hx)]
        by_cases hut : u = t
        · subst hut; exact hbig hb
        · exact h.bigDst u x (hold u x hx hut) hb
      · intro u x hx hb
        have hut : u ≠ t := by rintro rfl; omega
        rw [hmp _ (.inl hb)]
        exact h.bigSrc u x (hold u x hx hut) hb
      · intro q hq hpq
        rw [c7] at hpq
        exact le_trans (hlow q) (h.low q hq hpq)
      · intro u x hx hfu
        rw [hfix] at hfu
        rw [hmp _ hfu, hkey u x (hfx u x hx)]
        by_cases hut : u = t
        · subst hut
          rw [hnew] at hx
          cases hx
          rcases hfu with h1 | h1
          · omega
          · exact le_trans (h.low _ hsrc h1) hκ
        · exact h.tri u x (hold u x hx hut) hfu
      · intro e he
        rw [c5, List.mem_append, List.mem_singleton] at he
        rcases he with he | rfl
        · obtain ⟨h1, h2, ⟨x, h3, h4⟩, h5⟩ := h.entry e he
          refine ⟨h1, h2, ?_, h5⟩
          by_cases hut : e.edge = t
          · rw [hut] at h3 h4 ⊢
            exact ⟨w, hnew, by rw [hkey t w hf]; exact le_trans (le_of_lt (hltk x h3)) h4⟩
          · exact ⟨x, by rw [c2, if_neg hut]; exact h3, by rw [hkey _ x (h.fix _ x h3)]; exact h4⟩
        · exact ⟨hκ, add_coe_ne hne w, ⟨w, hnew, by rw [hkey t w hf]⟩, fun hb => absurd hsrc (Nat.not_lt.2 hb)⟩
      · rw [c5, List.map_append, List.map_singleton, List.nodup_append]
        refine ⟨h.entNodup, List.nodup_singleton _, ?_⟩
        intro a ha b hb
        rw [List.mem_singleton] at hb
        rintro rfl
        rw [List.mem_map] at ha
        obtain ⟨e, he, h1⟩ := ha
        rw [hb] at h1
        simp only [Prod.mk.injEq] at h1
        obtain ⟨_, _, ⟨x, h3, h4⟩, _⟩ := h.entry e he
        rw [h1.1] at h3 h4
        rw [h1.2] at h4
        exact absurd (hltk x h3) (not_lt.2 h4)
      · intro u x hx hn
        by_cases hut : u = t
        · subst hut; exact absurd hpt hn
        · rw [hkey u x (hfx u x hx), c7, c8]
          exact h.settled u x (hold u x hx hut) fun hp => hn ((hpend u hut).2 hp)
      · intro u hu
        rw [c8] at hu
        obtain ⟨x, hx⟩ := h.rel u hu
        rw [c2]
        split
        · exact ⟨w, rfl⟩
        · exact ⟨x, hx⟩
      · intro q st id hm
        rw [c9] at hm
        obtain ⟨r, l, h1, h2, x, h3⟩ := h.dpOK q st id hm
        refine ⟨r, l, h1, h2, ?_⟩
        rw [c2]
        split
        · exact ⟨w, rfl⟩
        · exact ⟨x, h3⟩
    · refine ⟨?_, ?_, ?_, hmp, fun d hd => by rw [c9]; exact hd, c7, c8, c12, c13⟩
      · rintro u y ⟨x, hx, hxy⟩
        by_cases hut : u = t
        · subst hut
          exact ⟨w, hnew, le_trans (le_of_lt (c1 x hx)) hxy⟩
        · exact ⟨x, by rw [c2, if_neg hut]; exact hx, hxy⟩
      · intro u x hx hn
        by_cases hut : u = t
        · subst hut; exact absurd hpt hn
        · exact ⟨hold u x hx hut, fun hp => hn ((hpend u hut).2 hp)⟩
      · intro u x hx hn
        by_cases hut : u = t
        · subst hut
          exact absurd (lt_of_le_of_lt hκ (hltk x hx)) (not_lt.2 (h.settled u x hx hn).1)
        · exact ⟨by rw [c2, if_neg hut]; exact hx, fun hp => hn ((hpend u hut).1 hp)⟩


/-! ## The loops of `step` -/

omit [IsOrderedCancelAddMonoid T] [LinearOrder W] in
theorem SPreAdv.fix_iff {s s' : SPreSt T σ} (h : SPreAdv p cur s s') (q : Nat) : s'.Fix p cur q ↔ s.Fix p cur q := by
  unfold SPreSt.Fix; rw [h.popped]

omit [IsOrderedCancelAddMonoid T] [LinearOrder W] in
theorem SPreAdv.wt_some {s s' : SPreSt T σ} (h : SPreAdv p cur s s') {t : Tr} {x : T} (hx : s.aut.wt t = some x) :
    ∃ y, s'.aut.wt t = some y := by
  obtain ⟨y, hy, _⟩ := h.less t x ⟨x, hx, le_refl _⟩
  exact ⟨y, hy⟩

theorem key_le_add (s : SPreSt T σ) (t u : Tr) (x y : T) (hd : u.dst = t.dst) (hy : 0 ≤ y) : s.key t x ≤ s.key u (y + x) := by
  unfold SPreSt.key
  rw [hd, WithTop.coe_add, add_comm (y : WithTop T), ← add_assoc]
  exact le_add_coe _ hy

theorem SPreI.ne {s : SPreSt T σ} (h : SPreI p val a0 cur κ s) {t : Tr} {x : T} (hx : s.aut.wt t = some x) :
    s.minpath t.dst ≠ ⊤ := by
  rcases Nat.lt_or_ge t.dst p.size with hl | hl
  · rcases h.fix t x hx with h1 | h1
    · omega
    · intro ht
      have := h.low _ hl h1
      rw [ht, top_le_iff] at this
      exact h.kne this
  · rw [h.bigDst t x hx hl]
    exact WithTop.zero_ne_top

/-- What is known about the transition that is processed. -/
structure SPreCur (p : Pda W) (val : W → T) (a0 : Aut T) (cur : Nat → Prop) (κ : WithTop T) (s : SPreSt T σ) (t : Tr) (w : T) : Prop where
  here : s.aut.wt t = some w
  done : ¬ s.Pend t
  key : s.key t w = κ
  cur : cur t.src
  src : t.src < p.size → t.src ∉ s.popped → s.minpath t.src = κ

omit [IsOrderedCancelAddMonoid T] [LinearOrder W] in
theorem SPreCur.mono {s s' : SPreSt T σ} {t : Tr} {w : T} (h : SPreCur p val a0 cur κ s t w) (ha : SPreAdv p cur s s')
    (hf : s.Fix p cur t.dst) : SPreCur p val a0 cur κ s' t w := by
  obtain ⟨h1, h2⟩ := ha.keep t w h.here h.done
  refine ⟨h1, h2, ?_, h.cur, ?_⟩
  · have := h.key
    unfold SPreSt.key at *
    rw [ha.mp _ hf]; exact this
  · intro hl hn
    rw [ha.popped] at hn
    rw [ha.mp _ (.inr (.inr h.cur))]
    exact h.src hl hn

theorem spreBulk_spec {s : SPreSt T σ} (h : SPreI p val a0 cur κ s) {src : Nat} {l : Labels} {dst : Nat} {w : T} (tr : Trace)
    (hd : ∀ g ∈ p.expand l, PreDer p.Has val (· ∈ keys a0.edges) ⟨src, g, dst⟩ w ∧ Valid p a0.n ⟨src, g, dst⟩)
    (hw : 0 ≤ w) (hf : s.Fix p cur dst) (hne : s.minpath dst ≠ ⊤) (hbig : p.size ≤ dst → s.minpath dst = 0)
    (hκ : κ ≤ s.minpath dst + (w : WithTop T)) (hsrc : src < p.size) :
    SPreI p val a0 cur κ (spreBulk p s src l dst tr w) ∧ SPreAdv p cur s (spreBulk p s src l dst tr w) ∧
      ∀ g ∈ p.expand l, (spreBulk p s src l dst tr w).Bound ⟨src, g, dst⟩ w := by
  unfold spreBulk
  refine foldl_track (SPreAdv p cur) (SPreAdv.refl p cur) (fun _ _ _ => SPreAdv.trans) (SPreI p val a0 cur κ)
    (fun s g => s.Bound ⟨src, g, dst⟩ w) (fun s s' g hr hb => hr.less _ _ hb) _ _ s h ?_
  intro s' hr hs' g hg
  have hm := hr.mp _ hf
  refine spreInsert_spec hs' tr (hd g hg).1 (hd g hg).2 hw ((hr.fix_iff _).2 hf) (by rw [hm]; exact hne) (fun hb => by rw [hm]; exact hbig hb) ?_ hsrc
  unfold SPreSt.key
  rw [hm]; exact hκ

variable (hc : SPreCtx p val a0)
include hc

/-- The loop over `_delta_prime[t._from]`. -/
theorem spreDelta_spec {t : Tr} {w : T} (s : SPreSt T σ) (h : SPreI p val a0 cur κ s) (ht : SPreCur p val a0 cur κ s t w)
    (st id : Nat) (hd : (t.src, st, id) ∈ s.dp) :
    SPreI p val a0 cur κ (spreDelta val p t w s (st, id)) ∧ SPreAdv p cur s (spreDelta val p t w s (st, id)) ∧
      ∀ r l, (p.st st).rules[id]? = some (r, l) → l.contains t.label = true → ∀ y,
        (spreDelta val p t w s (st, id)).aut.wt ⟨r.to, r.opLabel, t.src⟩ = some y →
        ¬ (spreDelta val p t w s (st, id)).Pend ⟨r.to, r.opLabel, t.src⟩ →
        (spreDelta val p t w s (st, id)).Bound ⟨st, t.label, t.dst⟩ (val r.weight + y + w) := by
  obtain ⟨r, l, hr, hop, y, hy⟩ := h.dpOK _ _ _ hd
  unfold spreDelta
  simp only [hr, hy]
  by_cases hcn : l.contains t.label = true
  · simp only [hcn, if_true]
    have hm := List.mem_of_getElem? hr
    have hv := h.valid t w ht.here
    have hg : t.label ∈ p.expand l := (hc.wf.mem_expand hm _).2 ⟨hcn, hv.2.1⟩
    have hd := der_push hc.wf hc.size_le hr hop hg (h.der _ _ hy) (q := t.dst) (y := w) (h.der t w ht.here) hv.2.2
    have hpos : 0 ≤ val r.weight + y := add_nonneg (hc.nonneg _ _ hm) (h.pos _ _ hy)
    obtain ⟨h1, h2, h3⟩ := spreInsert_spec h (Trace.preTemp id t.src) hd.1 hd.2 (add_nonneg hpos (h.pos _ _ ht.here))
      (h.fix t w ht.here) (h.ne (t := t) ht.here) (h.bigDst t w ht.here)
      (by rw [← ht.key]; exact key_le_add s t _ w _ rfl hpos) (Pda.lt_size_of_rule hr)
    refine ⟨h1, h2, ?_⟩
    intro r' l' hr' _ y' hy' hq'
    cases hr'
    have := h2.back _ _ hy' hq'
    rw [hy] at this
    cases this.1
    exact h3
  · simp only [hcn, Bool.false_eq_true, if_false]
    refine ⟨h, SPreAdv.refl p cur s, ?_⟩
    intro r' l' hr' hc'
    cases hr'
    exact absurd hc' hcn

/-- The loop over `_rel[t._to]`. -/
theorem spreRel_spec {t : Tr} {w : T} {pre id : Nat} {r : Rule W} {l : Labels}
    (hr : (p.st pre).rules[id]? = some (r, l)) (hop : r.op = .push) (hto : r.to = t.src) (hl : r.opLabel = t.label)
    (s : SPreSt T σ) (h : SPreI p val a0 cur κ s) (ht : SPreCur p val a0 cur κ s t w)
    (u : Tr) (hu : u ∈ s.rel) (hsrc : u.src = t.dst) :
    SPreI p val a0 cur κ (spreRel val t w pre id r l s u) ∧ SPreAdv p cur s (spreRel val t w pre id r l s u) ∧
      (l.contains u.label = true → ∀ y, (spreRel val t w pre id r l s u).aut.wt u = some y →
        ¬ (spreRel val t w pre id r l s u).Pend u →
        (spreRel val t w pre id r l s u).Bound ⟨pre, u.label, u.dst⟩ (val r.weight + w + y)) := by
  obtain ⟨y, hy⟩ := h.rel u hu
  unfold spreRel
  simp only [hy]
  by_cases hcn : l.contains u.label = true
  · simp only [hcn, if_true]
    have hv := h.valid u y hy
    have hm := List.mem_of_getElem? hr
    have hg : u.label ∈ p.expand l := (hc.wf.mem_expand hm _).2 ⟨hcn, hv.2.1⟩
    have hd := der_push hc.wf hc.size_le hr hop hg (m := t.dst) (x := w) (q := u.dst) (y := y)
      (by rw [hto, hl]; exact h.der _ _ ht.here) (by rw [← hsrc]; exact h.der _ _ hy) hv.2.2
    have e1 : y + w + val r.weight = val r.weight + w + y := by
      rw [add_comm (y + w), add_comm y w, add_assoc]
    rw [e1]
    have hw := h.pos _ _ ht.here
    have hval := hc.nonneg _ _ hm
    have hpos : 0 ≤ val r.weight + w := add_nonneg hval hw
    obtain ⟨h1, h2, h3⟩ := spreInsert_spec h (Trace.preTemp id t.dst) hd.1 hd.2 (add_nonneg hpos (h.pos _ _ hy))
      (h.fix u y hy) (h.ne (t := u) hy) (h.bigDst u y hy) (by
        have hT := h.tri u y hy (by rw [hsrc]; exact h.fix t w ht.here)
        have e2 : s.key ⟨pre, u.label, u.dst⟩ (val r.weight + w + y) = s.key u y + (w : WithTop T) + (val r.weight : WithTop T) := by
          unfold SPreSt.key
          dsimp only
          rw [← e1, WithTop.coe_add, WithTop.coe_add, ← add_assoc, ← add_assoc]
        rw [e2, ← ht.key]
        refine le_trans ?_ (le_add_coe _ hval)
        unfold SPreSt.key at *
        rw [hsrc] at hT
        exact add_le_add hT le_rfl) (Pda.lt_size_of_rule hr)
    refine ⟨h1, h2, ?_⟩
    intro _ y' hy' hq'
    have := h2.back _ _ hy' hq'
    rw [hy] at this
    cases this.1
    exact h3
  · simp only [hcn, Bool.false_eq_true, if_false]
    exact ⟨h, SPreAdv.refl p cur s, fun hf => hf.elim⟩

/-- What processing `t` with weight `w` achieves for one rule into `t._from`. -/
def SRuleDone (p : Pda W) (val : W → T) (t : Tr) (w : T) (pre id : Nat) (r : Rule W) (l : Labels) (s : SPreSt T σ) : Prop :=
  (r.op = .pop → t.src ∈ s.popped ∨ ∀ g ∈ p.expand l, s.Bound ⟨pre, g, t.src⟩ (val r.weight)) ∧
  (r.op = .swap → r.opLabel = t.label → ∀ g ∈ p.expand l, s.Bound ⟨pre, g, t.dst⟩ (val r.weight + w)) ∧
  (r.op = .noop → l.contains t.label = true → s.Bound ⟨pre, t.label, t.dst⟩ (val r.weight + w)) ∧
  (r.op = .push → r.opLabel = t.label → (t.dst, pre, id) ∈ s.dp ∧
    ∀ u, u.src = t.dst → l.contains u.label = true → ∀ y, s.aut.wt u = some y → ¬ s.Pend u →
      s.Bound ⟨pre, u.label, u.dst⟩ (val r.weight + w + y))

omit [IsOrderedCancelAddMonoid T] [LinearOrder W] hc in
theorem SRuleDone.mono {t : Tr} {w : T} {pre id : Nat} {r : Rule W} {l : Labels} {s s' : SPreSt T σ} (hr : SPreAdv p cur s s')
    (h : SRuleDone p val t w pre id r l s) : SRuleDone p val t w pre id r l s' := by
  obtain ⟨h1, h2, h3, h4⟩ := h
  refine ⟨fun ho => ?_, fun ho hl g hg => hr.less _ _ (h2 ho hl g hg), fun ho hl => hr.less _ _ (h3 ho hl),
    fun ho hl => ⟨hr.dp _ (h4 ho hl).1, fun u hu hc y hy hq => ?_⟩⟩
  · rcases h1 ho with h | h
    · exact .inl (hr.popped ▸ h)
    · exact .inr fun g hg => hr.less _ _ (h g hg)
  · have hb := hr.back _ _ hy hq
    exact hr.less _ _ ((h4 ho hl).2 u hu hc y hb.1 hb.2)

theorem spreRule_spec {t : Tr} {w : T} (s : SPreSt T σ) (h : SPreI p val a0 cur κ s) (ht : SPreCur p val a0 cur κ s t w)
    (hts : t.src < p.size) {pre id : Nat} {r : Rule W} {l : Labels} (hr : (p.st pre).rules[id]? = some (r, l)) (hto : r.to = t.src) :
    SPreI p val a0 cur κ (spreRule val p t w pre s (id, r, l)) ∧ SPreAdv p cur s (spreRule val p t w pre s (id, r, l)) ∧
      SRuleDone p val t w pre id r l (spreRule val p t w pre s (id, r, l)) := by
  have hm := List.mem_of_getElem? hr
  have hv := h.valid t w ht.here
  have hd := h.der t w ht.here
  have hw := h.pos t w ht.here
  have hval := hc.nonneg _ _ hm
  have hps := Pda.lt_size_of_rule hr
  dsimp only at hval
  have hkk : κ ≤ s.minpath t.dst + ((val r.weight + w : T) : WithTop T) := by
    rw [← ht.key]; exact key_le_add s t t w _ rfl hval
  unfold spreRule
  cases hop : r.op <;> simp only [hop]
  · -- push
    by_cases hl : r.opLabel = t.label
    · rw [if_pos hl]
      generalize hs0 : ({ s with dp := s.dp ++ [(t.dst, pre, id)] } : SPreSt T σ) = s0
      have h0 : SPreI p val a0 cur κ s0 := by
        rw [← hs0]
        refine ⟨h.nodup, h.undef, h.failed, h.acc, h.kpos, h.kne, h.mpos, h.der, h.valid, h.pos, h.input, h.fix, h.bigDst, h.bigSrc, h.low, h.tri, h.entry, h.entNodup, h.settled, h.rel, ?_⟩
        intro q st id' hm'
        rcases List.mem_append.1 hm' with hm' | he
        · exact h.dpOK _ _ _ hm'
        · have he := List.mem_singleton.1 he
          cases he
          refine ⟨r, l, hr, hop, w, ?_⟩
          dsimp only
          rw [hto, hl]; exact ht.here
      have hadv : SPreAdv p cur s s0 := by
        rw [← hs0]
        exact ⟨fun _ _ h => h, fun _ _ h1 h2 => ⟨h1, h2⟩, fun _ _ h1 h2 => ⟨h1, h2⟩, fun _ _ => rfl, fun d hd => List.mem_append_left _ hd, rfl, rfl, rfl, rfl⟩
      have hdp : (t.dst, pre, id) ∈ s0.dp := by
        rw [← hs0]; exact List.mem_append_right _ (List.mem_singleton.2 rfl)
      have ht0 := ht.mono hadv (h.fix t w ht.here)
      obtain ⟨h1, h2, h3⟩ := foldl_track (SPreAdv p cur) (SPreAdv.refl p cur) (fun _ _ _ => SPreAdv.trans) (SPreI p val a0 cur κ)
        (fun s' u => l.contains u.label = true → ∀ y, s'.aut.wt u = some y → ¬ s'.Pend u →
          s'.Bound ⟨pre, u.label, u.dst⟩ (val r.weight + w + y))
        (fun s1 s2 u hr hP hc y hy hq => by
          have hb := hr.back _ _ hy hq
          exact hr.less _ _ (hP hc y hb.1 hb.2))
        (spreRel val t w pre id r l) (s0.relAt t.dst) s0 h0
        (fun s1 hr1 hs1 u hu => by
          unfold SPreSt.relAt at hu
          rw [List.mem_filter] at hu
          have hu2 : u.src = t.dst := by simpa using hu.2
          exact spreRel_spec hc hr hop hto hl s1 hs1 (ht0.mono hr1 (h0.fix t w ht0.here)) u (by rw [hr1.rel]; exact hu.1) hu2)
      refine ⟨h1, hadv.trans h2, ?_, ?_, ?_, ?_⟩
      · intro ho; cases hop.symm.trans ho
      · intro ho; cases hop.symm.trans ho
      · intro ho; cases hop.symm.trans ho
      · intro _ _
        refine ⟨h2.dp _ hdp, ?_⟩
        intro u hu hcn y hy hq
        refine h3 u ?_ hcn y hy hq
        unfold SPreSt.relAt
        rw [List.mem_filter]
        have hb := h2.back _ _ hy hq
        exact ⟨(h0.settled u y hb.1 hb.2).2.1, by simpa using hu⟩
    · rw [if_neg hl]
      refine ⟨h, SPreAdv.refl p cur s, ?_, ?_, ?_, ?_⟩
      · intro ho; cases hop.symm.trans ho
      · intro ho; cases hop.symm.trans ho
      · intro ho; cases hop.symm.trans ho
      · intro _ hl'; exact absurd hl' hl
  · -- pop
    by_cases hpop : s.popped.contains t.src = true
    · rw [if_pos hpop]
      refine ⟨h, SPreAdv.refl p cur s, ?_, ?_, ?_, ?_⟩
      · intro _; left; simpa using hpop
      · intro ho; cases hop.symm.trans ho
      · intro ho; cases hop.symm.trans ho
      · intro ho; cases hop.symm.trans ho
    · rw [if_neg hpop]
      have hmin := ht.src hts (by simpa using hpop)
      obtain ⟨h1, h2, h3⟩ := spreBulk_spec h (src := pre) (l := l) (dst := t.src) (w := val r.weight) (Trace.pre id)
        (fun g hg => hto ▸ der_pop hc.wf hc.size_le hr hop hg) hval (.inr (.inr ht.cur)) (by rw [hmin]; exact h.kne)
        (fun hb => by omega) (by rw [hmin]; exact le_add_coe _ hval) hps
      refine ⟨h1, h2, ?_, ?_, ?_, ?_⟩
      · intro _; right; exact h3
      · intro ho; cases hop.symm.trans ho
      · intro ho; cases hop.symm.trans ho
      · intro ho; cases hop.symm.trans ho
  · -- swap
    by_cases hl : r.opLabel = t.label
    · rw [if_pos hl, add_comm w]
      obtain ⟨h1, h2, h3⟩ := spreBulk_spec h (src := pre) (l := l) (dst := t.dst) (w := val r.weight + w)
        (Trace.pre id) (fun g hg => der_swap hc.wf hc.size_le hr hop hg (by rw [hto, hl]; exact hd) hv.2.2) (add_nonneg hval hw)
        (h.fix t w ht.here) (h.ne ht.here) (h.bigDst t w ht.here) hkk hps
      refine ⟨h1, h2, ?_, ?_, ?_, ?_⟩
      · intro ho; cases hop.symm.trans ho
      · intro _ _; exact h3
      · intro ho; cases hop.symm.trans ho
      · intro ho; cases hop.symm.trans ho
    · rw [if_neg hl]
      refine ⟨h, SPreAdv.refl p cur s, ?_, ?_, ?_, ?_⟩
      · intro ho; cases hop.symm.trans ho
      · intro _ hl'; exact absurd hl' hl
      · intro ho; cases hop.symm.trans ho
      · intro ho; cases hop.symm.trans ho
  · -- noop
    by_cases hcn : l.contains t.label = true
    · rw [if_pos hcn, add_comm w]
      have hg : t.label ∈ p.expand l := (hc.wf.mem_expand hm _).2 ⟨hcn, hv.2.1⟩
      have hd := der_noop hc.wf hc.size_le hr hop hg (q := t.dst) (x := w) (by rw [hto]; exact hd) hv.2.2
      obtain ⟨h1, h2, h3⟩ := spreInsert_spec h (Trace.pre id) hd.1 hd.2 (add_nonneg hval hw)
        (h.fix t w ht.here) (h.ne (t := t) ht.here) (h.bigDst t w ht.here) hkk hps
      refine ⟨h1, h2, ?_, ?_, ?_, ?_⟩
      · intro ho; cases hop.symm.trans ho
      · intro ho; cases hop.symm.trans ho
      · intro _ _; exact h3
      · intro ho; cases hop.symm.trans ho
    · rw [if_neg hcn]
      refine ⟨h, SPreAdv.refl p cur s, ?_, ?_, ?_, ?_⟩
      · intro ho; cases hop.symm.trans ho
      · intro ho; cases hop.symm.trans ho
      · intro _ hl'; exact absurd hl' hcn
      · intro ho; cases hop.symm.trans ho

end

end Verif
