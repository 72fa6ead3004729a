import Verif.Proofs.ShortestPost

/-! # Shortest post*: one step of the loop -/

namespace Verif

variable {W T : Type}

/-- The same automaton with the annotations of the fixed-point saturation. -/
def Aut.lift (a : Aut T) : Aut (Trace × T) := { acc := a.acc, edges := a.edges.map fun e => (e.1, e.2.1, e.2) }

theorem Aut.lift_keys (a : Aut T) : keys a.lift.edges = keys a.edges := by
  simp [Aut.lift, keys]

section
variable [LinearOrder T] [AddCommMonoid T] [LinearOrder W]
  {p : Pda W} {val : W → T} {a0 : Aut T} {qp : List ((Nat × Nat) × Nat)} {N : Nat} {κ : WithTop T}

theorem ShCtx.lift (hc : ShCtx p val a0 qp N) : PostCtx p a0.lift qp N := by
  refine ⟨hc.wf, hc.lab, ⟨hc.size_le, ?_, ?_, ?_⟩, ?_, hc.le, hc.qok⟩
  · rw [Aut.lift_keys]; exact hc.valid
  · rw [Aut.lift_keys]; exact hc.nodup
  · intro e he
    obtain ⟨e', he', rfl⟩ := List.mem_map.1 he
    exact hc.zero e' he'
  · rw [Aut.lift_keys]; exact hc.noInto

/-- What a rule requires of a transition of weight `x`. -/
def ShDone (val : W → T) (qp : List ((Nat × Nat) × Nat)) (s : ShSt T) (r : Rule W) (t : Tr) (x : T) : Prop :=
  match r.op with
  | .pop => s.Bound ⟨r.to, epsilon, t.dst⟩ (x + val r.weight)
  | .swap => s.Bound ⟨r.to, r.opLabel, t.dst⟩ (x + val r.weight)
  | .noop => s.Bound ⟨r.to, t.label, t.dst⟩ (x + val r.weight)
  | .push => s.Bound ⟨r.to, r.opLabel, qFind qp (r.to, r.opLabel)⟩ 0 ∧
      s.Bound ⟨qFind qp (r.to, r.opLabel), t.label, t.dst⟩ (x + val r.weight)

omit [LinearOrder W] in
theorem ShDone.mono {s s' : ShSt T} (h : ∀ t y, s.Bound t y → s'.Bound t y) {r : Rule W} {t : Tr} {x : T}
    (hd : ShDone val qp s r t x) : ShDone val qp s' r t x := by
  unfold ShDone at *
  cases hop : r.op <;> simp only [hop] at hd ⊢
  · exact ⟨h _ _ hd.1, h _ _ hd.2⟩
  · exact h _ _ hd
  · exact h _ _ hd
  · exact h _ _ hd

/-- The consequences of settled transitions other than those in `ex` have been drawn. -/
structure ShC (p : Pda W) (val : W → T) (qp : List ((Nat × Nat) × Nat)) (s : ShSt T) (ex : Tr → Prop) : Prop where
  ruleC : ∀ (t : Tr) (x : T) (k : WithTop T), s.weights t = some (x, k) → ¬ s.Pend t → ¬ ex t → t.src < p.size → t.label ≠ epsilon →
    ∀ (id : Nat) (r : Rule W) (l : Labels), (p.st t.src).rules[id]? = some (r, l) → l.contains t.label = true → ShDone val qp s r t x
  epsC : ∀ f m g q x k y k', s.weights ⟨f, epsilon, m⟩ = some (x, k) → ¬ s.Pend ⟨f, epsilon, m⟩ → ¬ ex ⟨f, epsilon, m⟩ →
    s.weights ⟨m, g, q⟩ = some (y, k') → ¬ s.Pend ⟨m, g, q⟩ → ¬ ex ⟨m, g, q⟩ → s.Bound ⟨f, g, q⟩ (y + x)

omit [LinearOrder W] in
theorem ShC.adv {s s' : ShSt T} {ex : Tr → Prop} (h : ShC p val qp s ex) (ha : ShAdv κ s s') : ShC p val qp s' ex := by
  refine ⟨?_, ?_⟩
  · intro t x k hx hn hex h1 h2 id r l hr hl
    obtain ⟨hx', hn'⟩ := ha.back t x k hx hn
    exact (h.ruleC t x k hx' hn' hex h1 h2 id r l hr hl).mono ha.less
  · intro f m g q x k y k' hx hn hex hy hn2 hex2
    obtain ⟨hx', hn'⟩ := ha.back _ x k hx hn
    obtain ⟨hy', hn2'⟩ := ha.back _ y k' hy hn2
    exact ha.less _ _ (h.epsC f m g q x k y k' hx' hn' hex hy' hn2' hex2)

variable [IsOrderedCancelAddMonoid T]

/-- Applying one rule to the transition `t` of weight `x` whose key is the current one. -/
theorem shRule_spec (hc : ShCtx p val a0 qp N) {s : ShSt T} (h : ShI p val a0 qp N κ s) {t : Tr} {x : T}
    (ht : s.weights t = some (x, κ)) (haut : s.aut.wt t = some x) (hne : t.label ≠ epsilon)
    {id : Nat} {r : Rule W} {l : Labels} (hr : (p.st t.src).rules[id]? = some (r, l)) :
    ShI p val a0 qp N κ (shRule val t κ x s ((r, l), id)) ∧ ShAdv κ s (shRule val t κ x s ((r, l), id)) ∧
      (l.contains t.label = true → ShDone val qp (shRule val t κ x s ((r, l), id)) r t x) := by
  have hsl := hc.size_le
  unfold shRule
  by_cases hl : l.contains t.label = true
  · have hder := h.der t x κ ht
    have hv := h.valid t x κ ht
    have hpos := h.pos t x κ ht
    obtain ⟨hkey, hkt⟩ := h.key t x κ ht
    have hd' := hder
    rw [← a0.lift_keys] at hd'
    obtain ⟨hto, hlab, hpop, hswap, hnoop, hpush⟩ := fpost_rule_der hc.lift hd' hv hne hr hl
    rw [a0.lift_keys] at hpop hswap hnoop hpush
    have hm := List.mem_of_getElem? hr
    have hexp : t.label ∈ p.expand l := (hc.wf.mem_expand hm t.label).2 ⟨hl, hlab⟩
    have hr0 : 0 ≤ val r.weight := hc.nonneg _ _ hm
    have hbase : s.base t.dst ≠ ⊤ := by
      intro e
      rw [e, WithTop.top_add] at hkey
      exact hkt hkey
    have hmin : a0.n ≤ t.dst → s.minpath t.dst ≤ κ := by
      intro hd
      rw [hkey]
      have : s.base t.dst = s.minpath t.dst := by
        unfold ShSt.base
        rw [h.nQ, if_neg (by omega)]
      rw [this]
      exact le_add_coe _ hpos
    have hw : 0 ≤ x + val r.weight := add_nonneg hpos hr0
    have hk2 : s.base t.dst + ((x + val r.weight : T) : WithTop T) = κ + (val r.weight : WithTop T) := by
      rw [WithTop.coe_add, ← add_assoc, ← hkey]
    have hκ2 : κ ≤ κ + (val r.weight : WithTop T) := le_add_coe _ hr0
    simp only [hl, Bool.not_true, Bool.false_eq_true, if_false, forall_const]
    have low : ∀ u : Tr, u.dst = t.dst → u.src < p.size →
        FPostDer p.Has val (qFind qp) (· ∈ keys a0.edges) u (x + val r.weight) → PValid p N u → ∀ tr,
        PostJW p val qp (fun u y => s.aut.wt u = some y) u tr (x + val r.weight) →
        ShI p val a0 qp N κ (shUpdate s u (x + val r.weight) tr) ∧ ShAdv κ s (shUpdate s u (x + val r.weight) tr) ∧
          (shUpdate s u (x + val r.weight) tr).Bound u (x + val r.weight) := by
      intro u hd hs hder hv tr hj
      refine shUpdate_spec hc h tr hder hv (.inl hs) hw (hd ▸ hbase) ?_ (hd ▸ hmin) (fun hn => absurd hn (by omega)) hj
      rw [hd, hk2]; exact hκ2
    unfold ShDone
    cases hop : r.op <;> simp only [] 
    · obtain ⟨⟨h1, h2⟩, ⟨h3, h4⟩, h5, h6⟩ := hpush hop
      rw [h.qpEq]
      obtain ⟨i1, i2, i3, i4⟩ := shPush_spec hc h hm hop (Trace.post t.src id t.label) hκ2 (add_coe_ne hkt _) h1 (.push1 hr hexp hop)
      dsimp only at i1 i2 i3 i4
      generalize shPush s ⟨r.to, r.opLabel, qFind qp (r.to, r.opLabel)⟩ (κ + (val r.weight : WithTop T)) (Trace.post t.src id t.label) = s1 at i1 i2 i3 i4 ⊢
      have hb : s1.base t.dst = s.base t.dst := by
        unfold ShSt.base
        rw [i2.x]
        split
        · rfl
        · exact i2.mp _ (hmin (by rw [← h.nQ]; omega))
      have hb2 : s1.base t.dst + ((x + val r.weight : T) : WithTop T) = κ + (val r.weight : WithTop T) := by rw [hb, hk2]
      obtain ⟨j1, j2, j3⟩ := shUpdate_spec hc i1 (Trace.post t.src id t.label) h3 h4 (.inr h5) hw (by show s1.base t.dst ≠ ⊤; rw [hb]; exact hbase)
        (by show κ ≤ s1.base t.dst + _; rw [hb2]; exact hκ2)
        (fun hd => by show s1.minpath t.dst ≤ κ; rw [i2.mp _ (hmin hd)]; exact hmin hd)
        (fun _ => by show s1.minpath _ ≤ s1.base t.dst + _; rw [hb2]; exact i4) (by rw [i2.aut]; exact .push2 hr hexp hop haut)
      exact ⟨j1, i2.trans j2, j2.less _ _ i3, j3⟩
    · obtain ⟨h1, h2⟩ := hpop hop
      exact low ⟨r.to, epsilon, t.dst⟩ rfl hto h1 h2 _ (.pop hr hexp hop haut)
    · obtain ⟨h1, h2⟩ := hswap hop
      exact low ⟨r.to, r.opLabel, t.dst⟩ rfl hto h1 h2 _ (.swap hr hexp hop haut)
    · obtain ⟨h1, h2⟩ := hnoop hop
      exact low ⟨r.to, t.label, t.dst⟩ rfl hto h1 h2 _ (.noop hr hexp hop haut)
  · simp only [hl, Bool.not_false, if_true, Bool.false_eq_true, false_implies, and_true]
    exact ⟨h, ShAdv.refl κ s⟩

/-- The loops of `step()`. -/
theorem shBody_spec (hc : ShCtx p val a0 qp N) {s : ShSt T} (h : ShI p val a0 qp N κ s) {t : Tr} {x : T}
    (ht : s.weights t = some (x, κ)) (hn : ¬ s.Pend t) (hsrc : t.src < p.size ∨ a0.n ≤ t.src) (hC : ShC p val qp s (· = t)) :
    ShI p val a0 qp N κ (shBody val p t κ x s) ∧ ShC p val qp (shBody val p t κ x s) (fun _ => False) ∧
      ShAdv κ s (shBody val p t κ x s) := by
  have hv := h.valid t x κ ht
  have hlab := hc.lab
  have hsl := hc.size_le
  have hpos := h.pos t x κ ht
  have haut : s.aut.wt t = some x := by
    rcases h.settled t x κ ht with hp | hp
    · exact absurd hp hn
    · exact hp.2.1
  obtain ⟨hkey, hkt⟩ := h.key t x κ ht
  have hbase : s.base t.dst ≠ ⊤ := by
    intro e
    rw [e, WithTop.top_add] at hkey
    exact hkt hkey
  have hmin : a0.n ≤ t.dst → s.minpath t.dst ≤ κ := by
    intro hd
    rw [hkey]
    have : s.base t.dst = s.minpath t.dst := by
      unfold ShSt.base
      rw [h.nQ, if_neg (by omega)]
    rw [this]
    exact le_add_coe _ hpos
  have hbadv : ∀ {s' : ShSt T}, ShAdv κ s s' → s'.base t.dst = s.base t.dst := by
    intro s' ha
    unfold ShSt.base
    rw [ha.x]
    split
    · rfl
    · exact ha.mp _ (hmin (by rw [← h.nQ]; omega))
  unfold shBody
  split
  · -- t leaves an added state
    rename_i hge
    have hlt : t.label < p.nLabels := by
      rcases hv.2.2.2 with h1 | h1
      · exact h1
      · exact absurd h1.2 (by omega)
    obtain ⟨h1, h2, h3⟩ := foldl_track (ShAdv κ) (ShAdv.refl κ) (fun _ _ _ => ShAdv.trans) (ShI p val a0 qp N κ)
      (fun s' f => ∀ y, s.aut.wt ⟨f, epsilon, t.src⟩ = some y → s'.Bound ⟨f, t.label, t.dst⟩ (x + y))
      (fun s1 s2 f ha hd y hy => ha.less _ _ (hd y hy)) (shRel2 t x) (s.x.rel2At t.src) s h (by
        intro s' ha h' f hf
        have hf : (t.src, f) ∈ s.x.rel2 := by
          unfold FPostX.rel2At at hf
          obtain ⟨d, hd, rfl⟩ := List.mem_map.1 hf
          obtain ⟨hd1, hd2⟩ := List.mem_filter.1 hd
          have : d.1 = t.src := by simpa using hd2
          rw [← this]; exact hd1
        obtain ⟨y, hy⟩ := h.rel2 _ _ hf
        obtain ⟨k', hk'⟩ := h.autw _ _ hy
        have hfv := h.valid _ _ _ hk'
        have hflt : f < p.size := by
          rcases hfv.2.2.2 with h1 | h1
          · have h1 : epsilon < p.nLabels := h1
            omega
          · exact h1.2
        have hy0 := h.pos _ _ _ hk'
        unfold shRel2
        rw [ha.aut, hy]
        dsimp only
        have hb := hbadv ha
        have hd1 : FPostDer p.Has val (qFind qp) (· ∈ keys a0.edges) ⟨f, t.label, t.dst⟩ (x + y) :=
          FPostDer.eps (h.der _ _ _ hk') (h.der t x κ ht)
        have hd2 : PValid p N ⟨f, t.label, t.dst⟩ := ⟨hfv.1, hv.2.1, hv.2.2.1, .inl hlt⟩
        obtain ⟨j1, j2, j3⟩ := shUpdate_spec hc h' (t := ⟨f, t.label, t.dst⟩) (w := x + y) (Trace.postEps t.src) hd1 hd2 (.inl hflt) (add_nonneg hpos hy0)
          (by show s'.base t.dst ≠ ⊤; rw [hb]; exact hbase)
          (by
            show κ ≤ s'.base t.dst + _
            rw [hb, WithTop.coe_add, ← add_assoc, ← hkey]
            exact le_add_coe _ hy0)
          (fun hd => by show s'.minpath t.dst ≤ κ; rw [ha.mp _ (hmin hd)]; exact hmin hd)
          (fun hd => by have hd : a0.n ≤ f := hd; omega)
          (by rw [ha.aut, add_comm]; exact .eps hy haut)
        exact ⟨j1, j2, fun y' hy' => by cases hy'; exact j3⟩)
    generalize List.foldl (shRel2 t x) s (s.x.rel2At t.src) = s' at h1 h2 h3 ⊢
    have hC' := hC.adv h2
    refine ⟨h1, ⟨?_, ?_⟩, h2⟩
    · intro u z k hz hnp _ hs hl id r l hr hcn
      by_cases hut : u = t
      · subst hut; omega
      · exact hC'.ruleC u z k hz hnp hut hs hl id r l hr hcn
    · intro f m g q z k y k' hz hnz _ hy hny _
      by_cases he1 : (⟨f, epsilon, m⟩ : Tr) = t
      · exfalso
        rw [← he1] at hlt
        have hlt : epsilon < p.nLabels := hlt
        omega
      · by_cases he2 : (⟨m, g, q⟩ : Tr) = t
        · obtain ⟨hz', hnz'⟩ := h2.back _ _ _ hz hnz
          obtain ⟨hy', _⟩ := h2.back _ _ _ hy hny
          have hyx : y = x := by
            rw [he2, ht] at hy'
            cases hy'; rfl
          have hsrc : t.src = m := by rw [← he2]
          rcases h.settled _ _ _ hz' with hp | ⟨_, h5, _, h6⟩
          · exact absurd hp hnz'
          · have hmn : a0.n ≤ m := by
              omega
            have hmem := h6 rfl hmn
            have := h3 f (by
              unfold FPostX.rel2At
              refine List.mem_map.2 ⟨(m, f), List.mem_filter.2 ⟨hmem, by simp [hsrc]⟩, rfl⟩) z (by rw [hsrc]; exact h5)
            rw [hyx]
            rw [← he2] at this
            exact this
        · exact hC'.epsC f m g q z k y k' hz hnz he1 hy hny he2
  · rename_i hge
    have hlt : t.src < p.size := by omega
    split
    · rename_i hne
      obtain ⟨h1, h2, h3⟩ := foldl_track (ShAdv κ) (ShAdv.refl κ) (fun _ _ _ => ShAdv.trans)
        (fun s' => ShI p val a0 qp N κ s' ∧ s'.weights t = some (x, κ))
        (fun s' (y : (Rule W × Labels) × Nat) => y.1.2.contains t.label = true → ShDone val qp s' y.1.1 t x)
        (fun s1 s2 y ha hd hcn => (hd hcn).mono ha.less) (shRule val t κ x) (p.st t.src).rules.zipIdx s ⟨h, ht⟩ (by
          rintro s' ha ⟨h', ht'⟩ ⟨⟨r, l⟩, id⟩ hy
          have hr : (p.st t.src).rules[id]? = some (r, l) := by
            have := List.mem_zipIdx_iff_getElem?.1 hy
            simpa using this
          obtain ⟨j1, j2, j3⟩ := shRule_spec hc h' ht' (by rw [ha.aut]; exact haut) hne hr
          exact ⟨⟨j1, (ha.trans j2).keep t x κ ht hn |>.1⟩, j2, j3⟩)
      generalize List.foldl (shRule val t κ x) s (p.st t.src).rules.zipIdx = s' at h1 h2 h3 ⊢
      have hC' := hC.adv h2
      refine ⟨h1.1, ⟨?_, ?_⟩, h2⟩
      · intro u z k hz hnp _ hs hl id r l hr hcn
        by_cases hut : u = t
        · subst hut
          rw [h1.2] at hz
          cases hz
          exact h3 ((r, l), id) (List.mem_zipIdx_iff_getElem?.2 (by simpa using hr)) hcn
        · exact hC'.ruleC u z k hz hnp hut hs hl id r l hr hcn
      · intro f m g q z k y k' hz hnz _ hy hny _
        refine hC'.epsC f m g q z k y k' hz hnz ?_ hy hny ?_
        · intro e
          rw [← e] at hne
          exact hne rfl
        · intro e
          have h5 := (h1.1.valid _ _ _ hz).2.1
          dsimp only at h5
          rw [← e] at hlt
          dsimp only at hlt
          omega
    · rename_i hne
      have hte : t.label = epsilon := by simpa using hne
      have hteq : t = ⟨t.src, epsilon, t.dst⟩ := by rw [← hte]
      obtain ⟨h1, h2, h3⟩ := foldl_track (ShAdv κ) (ShAdv.refl κ) (fun _ _ _ => ShAdv.trans) (ShI p val a0 qp N κ)
        (fun s' (u : Tr) => ∀ y, s.aut.wt u = some y → s'.Bound ⟨t.src, u.label, u.dst⟩ (y + x))
        (fun s1 s2 f ha hd y hy => ha.less _ _ (hd y hy)) (shRel1 t x) (s.x.rel1At t.dst) s h (by
          intro s' ha h' u hu
          obtain ⟨hu1, hu2⟩ := List.mem_filter.1 hu
          have husrc : u.src = t.dst := by simpa using hu2
          have hueq : (⟨t.dst, u.label, u.dst⟩ : Tr) = u := by rw [← husrc]
          obtain ⟨y, hy⟩ := h.rel1 _ hu1
          obtain ⟨k', hk'⟩ := h.autw _ _ hy
          have huv := h.valid _ _ _ hk'
          have hy0 := h.pos _ _ _ hk'
          obtain ⟨hukey, hukt⟩ := h.key _ _ _ hk'
          have hul : u.label < p.nLabels := by
            rcases huv.2.2.2 with h1 | h1
            · exact h1
            · have := hv.2.1
              omega
          unfold shRel1
          rw [ha.aut, hueq, hy]
          dsimp only
          have hub : s.base u.dst ≠ ⊤ := by
            intro e
            rw [e, WithTop.top_add] at hukey
            exact hukt hukey
          have hk'κ : k' ≤ κ := by
            rcases h.settled u y k' hk' with hp | hp
            · exfalso
              have h5 := (hc.valid u (h.autp u y hy hp)).1
              obtain ⟨_, _, e, _, he, hee, _⟩ := hp
              have h6 := h.entSrc e he
              rw [hee] at h6
              have := hv.2.1
              omega
            · exact hp.1
          have hmu : a0.n ≤ u.dst → s.minpath u.dst ≤ κ := by
            intro hd
            refine le_trans ?_ hk'κ
            rw [hukey]
            have : s.base u.dst = s.minpath u.dst := by
              unfold ShSt.base
              rw [h.nQ, if_neg (by omega)]
            rw [this]
            exact le_add_coe _ hy0
          have hb : s'.base u.dst = s.base u.dst := by
            unfold ShSt.base
            rw [ha.x]
            split
            · rfl
            · exact ha.mp _ (hmu (by rw [← h.nQ]; omega))
          have hbk : s.base t.dst ≤ k' := by
            unfold ShSt.base
            rw [h.nQ]
            split
            · rw [hukey]
              refine le_trans ?_ (le_add_coe _ hy0)
              unfold ShSt.base
              split
              · exact le_refl _
              · exact h.mpos _
            · rw [← husrc]
              exact h.tri u y k' hk' (by rw [husrc]; omega)
          have hd1 : FPostDer p.Has val (qFind qp) (· ∈ keys a0.edges) ⟨t.src, u.label, u.dst⟩ (y + x) := by
            refine FPostDer.eps (m := t.dst) ?_ ?_
            · rw [← hteq]; exact h.der t x κ ht
            · rw [hueq]; exact h.der u y k' hk'
          have hd2 : PValid p N ⟨t.src, u.label, u.dst⟩ := ⟨hv.1, huv.2.1, huv.2.2.1, .inl hul⟩
          obtain ⟨j1, j2, j3⟩ := shUpdate_spec hc h' (t := ⟨t.src, u.label, u.dst⟩) (w := y + x) (Trace.postEps t.dst) hd1 hd2 (.inl hlt) (add_nonneg hy0 hpos)
            (by show s'.base u.dst ≠ ⊤; rw [hb]; exact hub)
            (by
              show κ ≤ s'.base u.dst + _
              rw [hb, WithTop.coe_add, ← add_assoc, ← hukey, hkey]
              exact add_le_add hbk le_rfl)
            (fun hd => by show s'.minpath u.dst ≤ κ; rw [ha.mp _ (hmu hd)]; exact hmu hd)
            (fun hd => by have hd : a0.n ≤ t.src := hd; omega)
            (by rw [ha.aut, add_comm]; exact .eps (by rw [← hteq]; exact haut) (by rw [hueq]; exact hy))
          exact ⟨j1, j2, fun y' hy' => by cases hy'; exact j3⟩)
      generalize List.foldl (shRel1 t x) s (s.x.rel1At t.dst) = s' at h1 h2 h3 ⊢
      have hC' := hC.adv h2
      refine ⟨h1, ⟨?_, ?_⟩, h2⟩
      · intro u z k hz hnp _ hs hl id r l hr hcn
        refine hC'.ruleC u z k hz hnp ?_ hs hl id r l hr hcn
        rintro rfl
        exact hl hte
      · intro f m g q z k y k' hz hnz _ hy hny _
        have he2 : ¬ (⟨m, g, q⟩ : Tr) = t := by
          intro e
          have h5 := (h1.valid _ _ _ hz).2.1
          dsimp only at h5
          rw [← e] at hlt
          dsimp only at hlt
          omega
        by_cases he1 : (⟨f, epsilon, m⟩ : Tr) = t
        · obtain ⟨hz', _⟩ := h2.back _ _ _ hz hnz
          obtain ⟨hy', hny'⟩ := h2.back _ _ _ hy hny
          rw [he1, ht] at hz'
          cases hz'
          have hm : t.dst = m := by rw [← he1]
          have hf : t.src = f := by rw [← he1]
          rcases h.settled _ _ _ hy' with hp | ⟨_, h5, h6, _⟩
          · exact absurd hp hny'
          · have := h3 ⟨m, g, q⟩ (List.mem_filter.2 ⟨h6 (by rw [← hm]; exact hv.2.1), by simp [hm]⟩) y h5
            rw [hf] at this
            exact this
        · exact hC'.epsC f m g q z k y k' hz hnz he1 hy hny he2

end

end Verif
