import Verif.Proofs.ShortestPostStep

/-! # Shortest post*: the loop, initialisation and termination -/

namespace Verif

variable {W T : Type}

theorem Aut.wt_none_iff (a : Aut T) (t : Tr) : a.wt t = none ↔ t ∉ keys a.edges := by
  unfold Aut.wt
  rw [Option.map_eq_none_iff, getEdge_none_iff]

theorem Aut.wt_emplace (a : Aut T) (t u : Tr) (ann : Ann T) :
    (a.emplaceEdge t ann).wt u = if u = t ∧ a.wt t = none then some ann.2 else a.wt u := by
  by_cases h : a.wt t = none
  · have h' : a.getEdge t = none := by
      unfold Aut.wt at h
      rwa [Option.map_eq_none_iff] at h
    unfold Aut.wt
    rw [getEdge_emplace a t u ann h']
    unfold Aut.wt at h
    simp only [h, and_true]
    split <;> rfl
  · have hk : t ∈ keys a.edges := by
      by_contra hn
      exact h ((Aut.wt_none_iff a t).2 hn)
    have : a.emplaceEdge t ann = a := by
      unfold Aut.emplaceEdge
      rw [if_pos ((Aut.hasEdge_iff a t).2 hk)]
    rw [this, if_neg (fun hh => h hh.2)]

section
variable [LinearOrder T] [AddCommMonoid T] [LinearOrder W]
  {p : Pda W} {val : W → T} {a0 : Aut T} {qp : List ((Nat × Nat) × Nat)} {N : Nat} {κ : WithTop T}

/-- An outdated entry is dropped. -/
theorem ShI.drop {s s0 : ShSt T} (h : ShI p val a0 qp N κ s) {e : ShElem T} {r : List (ShElem T)} (hp : (e :: r).Perm s.ws)
    {w : T} {k : WithTop T} (hw : s.weights e.edge = some (w, k)) (hk : k < e.key)
    (e1 : s0.aut = s.aut) (e2 : s0.x = s.x) (e3 : s0.undef = s.undef) (e4 : s0.minpath = s.minpath)
    (e5 : s0.weights = s.weights) (e6 : s0.ws = r) :
    ShI p val a0 qp N κ s0 ∧ ∀ t, s0.Pend t ↔ s.Pend t := by
  have hmem : ∀ u, u ∈ s.ws ↔ u = e ∨ u ∈ r := fun u => by rw [← hp.mem_iff, List.mem_cons]
  have hpend : ∀ t, s0.Pend t ↔ s.Pend t := by
    intro t
    unfold ShSt.Pend
    rw [e5, e6]
    constructor
    · rintro ⟨x, k', u, h1, h2, h3, h4⟩
      exact ⟨x, k', u, h1, (hmem u).2 (.inr h2), h3, h4⟩
    · rintro ⟨x, k', u, h1, h2, h3, h4⟩
      rcases (hmem u).1 h2 with rfl | h2
      · exfalso
        rw [h3, h1] at hw
        cases hw
        exact absurd h4 (ne_of_gt hk)
      · exact ⟨x, k', u, h1, h2, h3, h4⟩
  have hnd : ((e :: r).map fun e => (e.edge, e.key)).Nodup := ((hp.map _).nodup_iff).2 h.entNodup
  refine ⟨?_, hpend⟩
  have hb : s0.base = s.base := by funext q; unfold ShSt.base; rw [e2, e4]
  exact {
    nodup := e1 ▸ h.nodup
    undef := e3.trans h.undef
    nQ := e2 ▸ h.nQ
    qpEq := e2 ▸ h.qpEq
    kpos := h.kpos
    mpos := e4 ▸ h.mpos
    der := e5 ▸ h.der
    valid := e5 ▸ h.valid
    pos := e5 ▸ h.pos
    key := by rw [e5, hb]; exact h.key
    entry := fun u hu => by rw [e5]; exact h.entry u ((hmem u).2 (.inr (e6 ▸ hu)))
    entSrc := fun u hu => h.entSrc u ((hmem u).2 (.inr (e6 ▸ hu)))
    entNodup := by rw [e6]; exact (List.nodup_cons.1 hnd).2
    settled := fun t x k ht => by rw [hpend, e1, e2]; exact h.settled t x k (e5 ▸ ht)
    autw := by rw [e1, e5]; exact h.autw
    autp := fun t x ht hp => h.autp t x (e1 ▸ ht) ((hpend t).1 hp)
    rel1 := by rw [e1, e2]; exact h.rel1
    rel2 := by rw [e1, e2]; exact h.rel2
    push := by rw [e4, e5]; exact h.push
    tri := by rw [e4, e5]; exact h.tri
    input := e1 ▸ h.input
    acc := e1 ▸ h.acc
    built := e1 ▸ h.built
    just := fun u hu x hx => by rw [e1]; exact h.just u ((hmem u).2 (.inr (e6 ▸ hu))) x (e5 ▸ hx) }

/-- The top element is taken and its transition enters the automaton. -/
theorem ShI.take {s s0 : ShSt T} (h : ShI p val a0 qp N κ s) {e : ShElem T} {r : List (ShElem T)} (hp : (e :: r).Perm s.ws)
    (hle : ∀ u ∈ r, e.key ≤ u.key) {w : T} (hw : s.weights e.edge = some (w, e.key)) 
    (e1 : s0.aut = s.aut.emplaceEdge e.edge (e.trace, w)) (e2 : s0.x = fpostRel p.size s.x e.edge) (e3 : s0.undef = s.undef)
    (e4 : s0.minpath = s.minpath) (e5 : s0.weights = s.weights) (e6 : s0.ws = r) :
    ShI p val a0 qp N e.key s0 ∧ ¬ s0.Pend e.edge ∧ ∀ t, t ≠ e.edge → (s0.Pend t ↔ s.Pend t) := by
  have hmem : ∀ u, u ∈ s.ws ↔ u = e ∨ u ∈ r := fun u => by rw [← hp.mem_iff, List.mem_cons]
  have hnd : ((e :: r).map fun e => (e.edge, e.key)).Nodup := ((hp.map _).nodup_iff).2 h.entNodup
  rw [List.map_cons, List.nodup_cons] at hnd
  have hpend : ∀ t, t ≠ e.edge → (s0.Pend t ↔ s.Pend t) := by
    intro t hne
    unfold ShSt.Pend
    rw [e5, e6]
    constructor
    · rintro ⟨x, k', u, h1, h2, h3, h4⟩
      exact ⟨x, k', u, h1, (hmem u).2 (.inr h2), h3, h4⟩
    · rintro ⟨x, k', u, h1, h2, h3, h4⟩
      rcases (hmem u).1 h2 with rfl | h2
      · exact absurd h3.symm hne
      · exact ⟨x, k', u, h1, h2, h3, h4⟩
  have hnp : ¬ s0.Pend e.edge := by
    rintro ⟨x, k', u, h1, h2, h3, h4⟩
    rw [e5, hw] at h1
    cases h1
    rw [e6] at h2
    exact hnd.1 (List.mem_map.2 ⟨u, h2, by rw [h3, h4]⟩)
  have hκ : κ ≤ e.key := (h.entry e ((hmem e).2 (.inl rfl))).1
  have hb : s0.base = s.base := by
    funext q; unfold ShSt.base; rw [e2, e4]; rfl
  have hwt : ∀ t x, s.aut.wt t = some x → s0.aut.wt t = some x := by
    intro t x ht
    rw [e1, Aut.wt_emplace, if_neg]
    · exact ht
    · rintro ⟨rfl, hn⟩
      rw [hn] at ht
      cases ht
  have hwte : s0.aut.wt e.edge = some w := by
    rw [e1, Aut.wt_emplace]
    split
    · rfl
    · rename_i hn
      rcases ha : s.aut.wt e.edge with _ | x
      · exact absurd ⟨rfl, ha⟩ hn
      · obtain ⟨k, hk⟩ := h.autw _ _ ha
        rw [hw] at hk
        cases hk
        rfl
  have hwtb : ∀ t x, s0.aut.wt t = some x → (t = e.edge ∧ x = w) ∨ t ≠ e.edge ∧ s.aut.wt t = some x := by
    intro t x ht
    by_cases hte : t = e.edge
    · subst hte
      rw [hwte] at ht
      cases ht
      exact .inl ⟨rfl, rfl⟩
    · rw [e1, Aut.wt_emplace, if_neg (fun hh => hte hh.1)] at ht
      exact .inr ⟨hte, ht⟩
  have hr1 : ∀ t, t ∈ s0.x.rel1 ↔ t ∈ s.x.rel1 ∨ t = e.edge ∧ p.size ≤ t.src := by
    intro t
    rw [e2]
    unfold fpostRel
    dsimp only
    split
    · rename_i hge
      rw [List.mem_append, List.mem_singleton]
      constructor
      · rintro (h1 | rfl)
        · exact .inl h1
        · exact .inr ⟨rfl, hge⟩
      · rintro (h1 | ⟨h1, _⟩)
        · exact .inl h1
        · exact .inr h1
    · rename_i hge
      constructor
      · exact .inl
      · rintro (h1 | ⟨rfl, h2⟩)
        · exact h1
        · exact absurd h2 hge
  have hr2 : ∀ m f, (m, f) ∈ s0.x.rel2 ↔ (m, f) ∈ s.x.rel2 ∨ e.edge = ⟨f, epsilon, m⟩ ∧ a0.n ≤ m := by
    intro m f
    rw [e2]
    unfold fpostRel
    dsimp only
    rw [h.nQ]
    have hee : e.edge = ⟨e.edge.src, e.edge.label, e.edge.dst⟩ := rfl
    split
    · rename_i hge
      rw [List.mem_append, List.mem_singleton]
      constructor
      · rintro (h1 | h1)
        · exact .inl h1
        · cases h1
          exact .inr ⟨by rw [← hge.1], hge.2⟩
      · rintro (h1 | ⟨h1, _⟩)
        · exact .inl h1
        · rw [h1]; exact .inr rfl
    · rename_i hge
      constructor
      · exact .inl
      · rintro (h1 | ⟨h1, h2⟩)
        · exact h1
        · rw [h1] at hge
          exact absurd ⟨rfl, h2⟩ hge
  refine ⟨?_, hnp, hpend⟩
  refine ⟨?_, e3.trans h.undef, by rw [e2]; exact h.nQ, by rw [e2]; exact h.qpEq, le_trans h.kpos hκ, e4 ▸ h.mpos,
    e5 ▸ h.der, e5 ▸ h.valid, e5 ▸ h.pos, by rw [e5, hb]; exact h.key, ?_, fun u hu => h.entSrc u ((hmem u).2 (.inr (e6 ▸ hu))),
    by rw [e6]; exact hnd.2, ?_, ?_, ?_, ?_, ?_, ?_, by rw [e4, e5]; exact h.tri, fun t ht => hwt t 0 (h.input t ht), ?_, ?_, ?_⟩
  · rw [e1]
    unfold Aut.emplaceEdge
    split
    · exact h.nodup
    · rename_i hne
      rw [Aut.hasEdge_iff] at hne
      exact List.nodup_cons.2 ⟨hne, h.nodup⟩
  · intro u hu
    rw [e6] at hu
    rw [e5]
    exact ⟨hle u hu, (h.entry u ((hmem u).2 (.inr hu))).2⟩
  · intro t x k ht
    rw [e5] at ht
    by_cases hte : t = e.edge
    · subst hte
      rw [hw] at ht
      cases ht
      refine .inr ⟨le_refl _, hwte, fun hs => (hr1 _).2 (.inr ⟨rfl, hs⟩), fun hl hd => (hr2 _ _).2 (.inr ⟨by rw [← hl], hd⟩)⟩
    · rw [hpend t hte]
      rcases h.settled t x k ht with h1 | ⟨h1, h2, h3, h4⟩
      · exact .inl h1
      · exact .inr ⟨le_trans h1 hκ, hwt t x h2, fun hs => (hr1 t).2 (.inl (h3 hs)), fun hl hd => (hr2 _ _).2 (.inl (h4 hl hd))⟩
  · intro t x ht
    rw [e5]
    rcases hwtb t x ht with ⟨rfl, rfl⟩ | ⟨_, ht⟩
    · exact ⟨_, hw⟩
    · exact h.autw t x ht
  · intro t x ht hpt
    rcases hwtb t x ht with ⟨rfl, rfl⟩ | ⟨hne, ht⟩
    · exact absurd hpt hnp
    · exact h.autp t x ht ((hpend t hne).1 hpt)
  · intro t ht
    rcases (hr1 t).1 ht with ht | ⟨rfl, _⟩
    · obtain ⟨x, hx⟩ := h.rel1 t ht
      exact ⟨x, hwt t x hx⟩
    · exact ⟨w, hwte⟩
  · intro m f hm
    rcases (hr2 m f).1 hm with hm | ⟨hm, _⟩
    · obtain ⟨x, hx⟩ := h.rel2 m f hm
      exact ⟨x, hwt _ x hx⟩
    · rw [← hm]; exact ⟨w, hwte⟩
  · rw [e4, e5]
    intro q r' l hr hop hne
    obtain ⟨h1, h2⟩ := h.push q r' l hr hop hne
    refine ⟨h1, fun t ht hd => ?_⟩
    rcases h2 t ht hd with h3 | h3
    · exact .inl h3
    · exact .inr (le_trans h3 hκ)
  · intro q
    rw [← h.acc q, e1]
    unfold Aut.emplaceEdge
    split <;> rfl
  · rw [e1]
    unfold Aut.emplaceEdge
    split
    · exact h.built
    · rename_i hne
      rw [Aut.hasEdge_iff] at hne
      refine .cons h.built hne ?_
      rcases h.just e ((hmem e).2 (.inl rfl)) w hw with h1 | h1
      · exfalso
        have h2 := h.input _ h1
        rw [(Aut.wt_none_iff _ _).2 hne] at h2
        cases h2
      · exact PostJW.mono _ _ _ _ _ (fun u y hu => Aut.mem_of_wt hu) _ _ _ h1
  · intro u hu x hx
    rw [e6] at hu
    rw [e5] at hx
    rcases h.just u ((hmem u).2 (.inr hu)) x hx with h1 | h1
    · exact .inl h1
    · exact .inr (PostJW.mono _ _ _ _ _ (fun v y hv => hwt v y hv) _ _ _ h1)

/-- The transition has been taken from the queue. -/
def ShSt.Settled (s : ShSt T) (t : Tr) : Prop := (∃ v, s.weights t = some v) ∧ ¬ s.Pend t

variable [IsOrderedCancelAddMonoid T]

/-- The invariant of the loop. -/
def ShL (p : Pda W) (val : W → T) (a0 : Aut T) (qp : List ((Nat × Nat) × Nat)) (N : Nat) (s : ShSt T) : Prop :=
  (∃ κ, ShI p val a0 qp N κ s) ∧ ShC p val qp s fun _ => False

/-- One round of the loop. -/
theorem ShL.step (hc : ShCtx p val a0 qp N) {s : ShSt T} (h : ShL p val a0 qp N s) {e : ShElem T} {r : List (ShElem T)}
    (hp : (e :: r).Perm s.ws) (hle : ∀ u ∈ r, e.key ≤ u.key) :
    ShL p val a0 qp N (shStepWith val p { s with ws := r } e) ∧
      ((∀ t, (shStepWith val p { s with ws := r } e).Settled t ↔ s.Settled t) ∧
          (shStepWith val p { s with ws := r } e).ws.length < s.ws.length ∨
        (∀ t, s.Settled t → (shStepWith val p { s with ws := r } e).Settled t) ∧
          ∃ t, PValid p N t ∧ ¬ s.Settled t ∧ (shStepWith val p { s with ws := r } e).Settled t) := by
  obtain ⟨⟨κ, h⟩, hC⟩ := h
  have hin : e ∈ s.ws := hp.mem_iff.1 (List.mem_cons_self ..)
  obtain ⟨hκ, w, k, hw, hk⟩ := h.entry e hin
  unfold shStepWith
  dsimp only
  rw [hw]
  dsimp only
  split
  · rename_i hlt
    obtain ⟨h1, h2⟩ := h.drop (s0 := { s with ws := r }) hp hw hlt rfl rfl rfl rfl rfl rfl
    refine ⟨⟨⟨κ, h1⟩, ?_, ?_⟩, .inl ⟨?_, ?_⟩⟩
    · intro t x k ht hn hex hs hl id r' l hr hcn
      exact (hC.ruleC t x k ht (fun hp => hn ((h2 t).2 hp)) hex hs hl id r' l hr hcn).mono fun _ _ h => h
    · intro f m g q x k y k' hx hn hex hy hn2 hex2
      exact hC.epsC f m g q x k y k' hx (fun hp => hn ((h2 _).2 hp)) hex hy (fun hp => hn2 ((h2 _).2 hp)) hex2
    · intro t
      unfold ShSt.Settled
      rw [h2]
    · have := hp.length_eq
      show r.length < _
      rw [← this]
      simp
  · rename_i hlt
    have hke : k = e.key := le_antisymm hk (not_lt.1 hlt)
    subst hke
    obtain ⟨h1, h2, h3⟩ := h.take (s0 := { s with ws := r, x := fpostRel p.size s.x e.edge, aut := s.aut.emplaceEdge e.edge (e.trace, w) }) hp hle hw rfl rfl rfl rfl rfl rfl
    have hC1 : ShC p val qp ({ s with ws := r, x := fpostRel p.size s.x e.edge, aut := s.aut.emplaceEdge e.edge (e.trace, w) } : ShSt T) (· = e.edge) := by
      refine ⟨?_, ?_⟩
      · intro t x k ht hn hex hs hl id r' l hr hcn
        exact (hC.ruleC t x k ht (fun hp => hn ((h3 t hex).2 hp)) (fun h => h) hs hl id r' l hr hcn).mono fun _ _ h => h
      · intro f m g q x k y k' hx hn hex hy hn2 hex2
        exact hC.epsC f m g q x k y k' hx (fun hp => hn ((h3 _ hex).2 hp)) (fun h => h) hy (fun hp => hn2 ((h3 _ hex2).2 hp)) (fun h => h)
    obtain ⟨i1, i2, i3⟩ := shBody_spec hc h1 hw h2 (h.entSrc e hin) hC1
    have hset : ∀ t, s.Settled t ∨ t = e.edge → (shBody val p e.edge e.key w { s with ws := r, x := fpostRel p.size s.x e.edge, aut := s.aut.emplaceEdge e.edge (e.trace, w) }).Settled t := by
      rintro t (⟨⟨⟨x, k⟩, hv⟩, hn⟩ | rfl)
      · have hne : t ≠ e.edge := by
          rintro rfl
          rw [hw] at hv
          cases hv
          exact hn ⟨w, e.key, e, hw, hin, rfl, rfl⟩
        obtain ⟨j1, j2⟩ := i3.keep t x k hv (fun hp => hn ((h3 t hne).1 hp))
        exact ⟨⟨_, j1⟩, j2⟩
      · obtain ⟨j1, j2⟩ := i3.keep e.edge w e.key hw h2
        exact ⟨⟨_, j1⟩, j2⟩
    refine ⟨⟨⟨_, i1⟩, i2⟩, .inr ⟨fun t ht => hset t (.inl ht), e.edge, h.valid _ _ _ hw, ?_, hset _ (.inr rfl)⟩⟩
    rintro ⟨_, hn⟩
    exact hn ⟨w, e.key, e, hw, hin, rfl, rfl⟩

/-! ## Termination -/

omit [LinearOrder T] [AddCommMonoid T] [LinearOrder W] [IsOrderedCancelAddMonoid T] in
theorem countP_le_of_imp {α : Type} (P Q : α → Bool) (l : List α) (h : ∀ a ∈ l, Q a = true → P a = true) :
    l.countP Q ≤ l.countP P := by
  induction l with
  | nil => simp
  | cons a l ih =>
    have h1 := ih fun b hb => h b (List.mem_cons_of_mem _ hb)
    have h2 := h a (List.mem_cons_self ..)
    rw [List.countP_cons, List.countP_cons]
    cases hq : Q a
    · simp only [Bool.false_eq_true, if_false]; omega
    · simp only [h2 hq, if_true]; omega

omit [LinearOrder T] [AddCommMonoid T] [LinearOrder W] [IsOrderedCancelAddMonoid T] in
theorem countP_lt_of_imp {α : Type} (P Q : α → Bool) (l : List α) (h : ∀ a ∈ l, Q a = true → P a = true) {a : α}
    (ha : a ∈ l) (hp : P a = true) (hq : Q a = false) : l.countP Q < l.countP P := by
  induction l with
  | nil => cases ha
  | cons b l ih =>
    rw [List.countP_cons, List.countP_cons]
    have hle := countP_le_of_imp P Q l fun b hb => h b (List.mem_cons_of_mem _ hb)
    rcases List.mem_cons.1 ha with rfl | ha
    · simp only [hp, hq, if_true, Bool.false_eq_true, if_false]; omega
    · have h1 := ih (fun b hb => h b (List.mem_cons_of_mem _ hb)) ha
      have h2 := h b (List.mem_cons_self ..)
      cases hqb : Q b
      · simp only [Bool.false_eq_true, if_false]; omega
      · simp only [h2 hqb, if_true]; omega

/-- All transitions in range. -/
def allTr (p : Pda W) (N : Nat) : List Tr :=
  (List.range N).flatMap fun a => (epsilon :: List.range p.nLabels).flatMap fun g => (List.range N).map fun b => ⟨a, g, b⟩

omit [LinearOrder W] in
theorem mem_allTr {t : Tr} (h : PValid p N t) : t ∈ allTr p N := by
  obtain ⟨h1, h2, h3, h4⟩ := h
  unfold allTr
  refine List.mem_flatMap.2 ⟨t.src, List.mem_range.2 h1, List.mem_flatMap.2 ⟨t.label, ?_, List.mem_map.2 ⟨t.dst, List.mem_range.2 h3, rfl⟩⟩⟩
  rcases h4 with h4 | h4
  · exact List.mem_cons_of_mem _ (List.mem_range.2 h4)
  · rw [h4.1]; exact List.mem_cons_self ..

open Classical in
theorem shLoop_terminates (hc : ShCtx p val a0 qp N) (hp : Heap (ShElem T) (WithTop T) ShElem.key) {s : ShSt T}
    (hs : ShL p val a0 qp N s) : ∃ fuel r, shLoop val hp p fuel s = some r := by
  refine FP.whileSome_wf (fun s => (allTr p N).countP fun t => decide (¬ s.Settled t)) (fun s => s.ws.length)
    (ShL p val a0 qp N) ?_ s hs
  intro s s' hs hst
  rcases hpop : hp.pop s.ws with _ | ⟨e, r⟩
  · rw [hpop] at hst; cases hst
  · rw [hpop] at hst
    simp only [Option.map_some, Option.some.injEq] at hst
    obtain ⟨h1, h2⟩ := hp.spec _ _ _ hpop
    obtain ⟨h3, h4⟩ := hs.step hc h1 h2
    rw [hst] at h3 h4
    refine ⟨h3, ?_⟩
    rcases h4 with ⟨h4, h5⟩ | ⟨h4, t, ht, h5, h6⟩
    · refine .inr ⟨?_, h5⟩
      simp only [h4]
    · refine .inl (countP_lt_of_imp _ _ _ ?_ (mem_allTr ht) (by simpa using h5) (by simpa using h6))
      intro u _ hu
      simp only [decide_eq_true_eq] at hu ⊢
      exact fun hh => hu (h4 u hh)

/-- The invariant holds at the end, and the queue is empty. -/
theorem shLoop_inv (hc : ShCtx p val a0 qp N) (hp : Heap (ShElem T) (WithTop T) ShElem.key) {s r : ShSt T} {fuel : Nat}
    (hs : ShL p val a0 qp N s) (hr : shLoop val hp p fuel s = some r) : ShL p val a0 qp N r ∧ r.ws = [] := by
  obtain ⟨h1, h2⟩ := whileSome_inv (I := ShL p val a0 qp N) (by
    intro s s' hs hst
    rcases hpop : hp.pop s.ws with _ | ⟨e, r⟩
    · rw [hpop] at hst; cases hst
    · rw [hpop] at hst
      simp only [Option.map_some, Option.some.injEq] at hst
      obtain ⟨h1, h2⟩ := hp.spec _ _ _ hpop
      rw [← hst]
      exact (hs.step hc h1 h2).1) hs hr
  refine ⟨h1, ?_⟩
  rw [Option.map_eq_none_iff] at h2
  exact (hp.none_iff _).1 h2

/-! ## Closedness -/

/-- When the queue is empty, the weights of the automaton are closed. -/
theorem ShL.closed (hc : ShCtx p val a0 qp N) {s : ShSt T} (h : ShL p val a0 qp N s) (hws : s.ws = []) :
    FPostClosed p.Has val p.size (fun t x => s.aut.wt t = some x) := by
  obtain ⟨⟨κ, h⟩, hC⟩ := h
  have hnp : ∀ t, ¬ s.Pend t := by
    rintro t ⟨_, _, e, _, he, _⟩
    rw [hws] at he
    cases he
  have hwt : ∀ t x, s.aut.wt t = some x ↔ ∃ k, s.weights t = some (x, k) := by
    intro t x
    constructor
    · exact h.autw t x
    · rintro ⟨k, hk⟩
      rcases h.settled t x k hk with hp | hp
      · exact absurd hp (hnp t)
      · exact hp.2.1
  have hbd : ∀ t y, s.Bound t y → ∃ z, s.aut.wt t = some z ∧ z ≤ y := by
    rintro t y ⟨x, k, h1, h2⟩
    exact ⟨x, (hwt t x).2 ⟨k, h1⟩, h2⟩
  have hlab := hc.lab
  have hok := hc.lift.pushOK
  refine ⟨?_, ?_, ?_, ?_, ?_⟩
  · intro t x hx
    obtain ⟨k, hk⟩ := (hwt t x).1 hx
    exact (h.valid t x k hk).2.1
  · intro t x hx he
    obtain ⟨k, hk⟩ := (hwt t x).1 hx
    rcases (h.valid t x k hk).2.2.2 with h3 | h3
    · omega
    · exact h3.2
  · intro r hr; exact (hok.range r hr).2.2
  · intro r hr q x hx
    obtain ⟨k, hk⟩ := (hwt _ x).1 hx
    have hr' := (Pda.Has_iff p r).1 hr
    obtain ⟨l, hm, hg⟩ := hr'
    obtain ⟨id, hid⟩ := List.mem_iff_getElem?.1 hm
    have hcn := (hc.wf.mem_expand hm r.pre).1 hg
    have hd := hC.ruleC _ x k hk (hnp _) (fun h => h) (Pda.lt_size_of_rule hid) (hok.range r hr).2.2.1 id _ l hid hcn.1
    unfold ShDone Pda.toImpl at hd
    dsimp only at hd
    cases hop : r.op <;> simp only [hop] at hd ⊢
    · obtain ⟨z1, hz1, hl1⟩ := hbd _ _ hd.1
      obtain ⟨z2, hz2, hl2⟩ := hbd _ _ hd.2
      exact ⟨_, z1, z2, hz1, hl1, hz2, hl2⟩
    · exact hbd _ _ hd
    · exact hbd _ _ hd
    · exact hbd _ _ hd
  · intro f m g q x y hx hy
    obtain ⟨k, hk⟩ := (hwt _ x).1 hx
    obtain ⟨k', hk'⟩ := (hwt _ y).1 hy
    exact hbd _ _ (hC.epsC f m g q x k y k' hk (hnp _) (fun h => h) hk' (hnp _) (fun h => h))

/-! ## Initialisation -/

omit [LinearOrder W] [IsOrderedCancelAddMonoid T] in
theorem shInitEdges (n : Nat) (l : List Tr) (hl : ∀ t ∈ l, t.label ≠ epsilon) (s : ShSt T)
    (hw : ∀ t v, s.weights t = some v → v = (0, 0)) :
    (l.foldl (shInitEdge n) s).aut = s.aut ∧
      (l.foldl (shInitEdge n) s).x.rel1 = s.x.rel1 ++ l.filter (fun t => decide (n ≤ t.src)) ∧
      (l.foldl (shInitEdge n) s).x.rel2 = s.x.rel2 ∧ (l.foldl (shInitEdge n) s).x.nQ = s.x.nQ ∧
      (l.foldl (shInitEdge n) s).x.qPrime = s.x.qPrime ∧
      (l.foldl (shInitEdge n) s).ws = s.ws ++ (l.filter fun t => decide (t.src < n)).map (fun t => ⟨0, t, {}⟩) ∧
      (l.foldl (shInitEdge n) s).undef = s.undef ∧ (l.foldl (shInitEdge n) s).minpath = s.minpath ∧
      (∀ t v, (l.foldl (shInitEdge n) s).weights t = some v ↔ v = (0, 0) ∧ (s.weights t = some v ∨ t ∈ l)) := by
  induction l generalizing s with
  | nil =>
    refine ⟨rfl, by simp, rfl, rfl, rfl, by simp, rfl, rfl, fun t v => ?_⟩
    simp only [List.foldl_nil, List.not_mem_nil, or_false]
    exact ⟨fun h => ⟨hw t v h, h⟩, fun h => h.2⟩
  | cons t l ih =>
    have hne := hl t (List.mem_cons_self ..)
    have hw1 : ∀ u v, (shInitEdge n s t).weights u = some v ↔ v = (0, 0) ∧ (s.weights u = some v ∨ u = t) := by
      intro u v
      have key : (shInitEdge n s t).weights = if (s.weights t).isSome then s.weights else setW s.weights t (0, 0) := by
        unfold shInitEdge
        dsimp only
        split <;> split <;> rfl
      rw [key]
      split
      · rename_i hs
        obtain ⟨v', hv'⟩ := Option.isSome_iff_exists.1 hs
        have := hw t v' hv'
        constructor
        · intro h; exact ⟨hw u v h, .inl h⟩
        · rintro ⟨rfl, h | rfl⟩
          · exact h
          · rw [hv', this]
      · unfold setW
        split
        · rename_i hs hut
          constructor
          · intro h; cases h; exact ⟨rfl, .inr hut⟩
          · rintro ⟨rfl, _⟩; rfl
        · rename_i hs hut
          constructor
          · intro h; exact ⟨hw u v h, .inl h⟩
          · rintro ⟨rfl, h | h⟩
            · exact h
            · exact absurd h hut
    obtain ⟨h1, h2, h3, h4, h5, h6, h7, h8, h9⟩ := ih (fun u hu => hl u (List.mem_cons_of_mem _ hu)) (shInitEdge n s t)
      (fun u v h => ((hw1 u v).1 h).1)
    rw [List.foldl_cons]
    have hfin : ∀ u v, (l.foldl (shInitEdge n) (shInitEdge n s t)).weights u = some v ↔ v = (0, 0) ∧ (s.weights u = some v ∨ u ∈ t :: l) := by
      intro u v
      rw [h9, hw1, List.mem_cons]
      constructor
      · rintro ⟨h, ⟨_, h' | h'⟩ | h'⟩
        · exact ⟨h, .inl h'⟩
        · exact ⟨h, .inr (.inl h')⟩
        · exact ⟨h, .inr (.inr h')⟩
      · rintro ⟨h, h' | h' | h'⟩
        · exact ⟨h, .inl ⟨h, .inl h'⟩⟩
        · exact ⟨h, .inl ⟨h, .inr h'⟩⟩
        · exact ⟨h, .inr h'⟩
    have e1 : (shInitEdge n s t).aut = s.aut := by unfold shInitEdge; dsimp only; split <;> split <;> rfl
    have e2 : (shInitEdge n s t).undef = s.undef := by unfold shInitEdge; dsimp only; split <;> split <;> rfl
    have e3 : (shInitEdge n s t).minpath = s.minpath := by unfold shInitEdge; dsimp only; split <;> split <;> rfl
    have e4 : (shInitEdge n s t).ws = if t.src < n then s.ws ++ [⟨0, t, {}⟩] else s.ws := by unfold shInitEdge; dsimp only; split <;> split <;> rfl
    have e5 : (shInitEdge n s t).x = if t.src < n then s.x else fpostRel n s.x t := by unfold shInitEdge; dsimp only; split <;> split <;> rfl
    rw [e1] at h1
    rw [e2] at h7
    rw [e3] at h8
    rw [e4] at h6
    rw [e5] at h2 h3 h4 h5
    by_cases ht : t.src < n
    · have ht' : ¬ n ≤ t.src := by omega
      simp only [ht, if_true] at h2 h3 h4 h5 h6
      refine ⟨h1, ?_, h3, h4, h5, ?_, h7, h8, hfin⟩
      · rw [h2, List.filter_cons_of_neg (by simpa using ht')]
      · rw [h6, List.filter_cons_of_pos (by simpa using ht)]; simp
    · have ht' : n ≤ t.src := by omega
      simp only [fpostRel, ht, if_false, ge_iff_le, ht', if_true, hne, false_and] at h2 h3 h4 h5 h6
      refine ⟨h1, ?_, h3, h4, h5, ?_, h7, h8, hfin⟩
      · rw [h2, List.filter_cons_of_pos (by simpa using ht')]; simp
      · rw [h6, List.filter_cons_of_neg (by simpa using ht)]

/-- The states added for PUSH rules and the number of states in all. -/
def shQ (p : Pda W) (a : Aut T) : List ((Nat × Nat) × Nat) := (qInit p ({ acc := a.acc } : Aut W)).2

def shN (p : Pda W) (a : Aut T) : Nat := (qInit p ({ acc := a.acc } : Aut W)).1.n

omit [IsOrderedCancelAddMonoid T] in
/-- The state after the constructor satisfies the invariant. -/
theorem shInit_inv (h : HashOrder) (hc : ShCtx p val a0 (shQ p a0) (shN p a0)) :
    ShL p val a0 (shQ p a0) (shN p a0) (shInit h p a0) := by
  unfold shInit
  simp only
  have hacc := (qInit_inv p ({ acc := a0.acc } : Aut W)).1.acc
  have hle := hc.le
  have hlab := hc.lab
  unfold shN at hle
  have hperm := out_all h ({ acc := (qInit p ({ acc := a0.acc } : Aut W)).1.acc, edges := a0.edges } : Aut T)
    fun t ht => Nat.lt_of_lt_of_le (hc.valid t ht).1 hle
  have hne : ∀ t ∈ keys a0.edges, t.label ≠ epsilon := by
    intro t ht he
    have := (hc.valid t ht).2.1
    omega
  obtain ⟨e1, e2, e3, e4, e5, e6, e7, e8, e9⟩ := shInitEdges p.size _
    (fun t ht => hne t (hperm.mem_iff.1 ht)) ({ aut := { acc := (qInit p ({ acc := a0.acc } : Aut W)).1.acc, edges := a0.edges }, x := { nQ := a0.n, qPrime := (qInit p ({ acc := a0.acc } : Aut W)).2 } } : ShSt T) (fun t v h => by cases h)
  generalize hs : List.foldl (shInitEdge p.size) ({ aut := { acc := (qInit p ({ acc := a0.acc } : Aut W)).1.acc, edges := a0.edges }, x := { nQ := a0.n, qPrime := (qInit p ({ acc := a0.acc } : Aut W)).2 } } : ShSt T) _ = s0
    at e1 e2 e3 e4 e5 e6 e7 e8 e9 ⊢
  simp only [List.nil_append, reduceCtorEq, false_or] at e1 e2 e3 e4 e5 e6 e7 e8 e9
  have hedges : s0.aut.edges = a0.edges := by rw [e1]
  have hw : ∀ t v, s0.weights t = some v ↔ v = (0, 0) ∧ t ∈ keys a0.edges := by
    intro t v; rw [e9, hperm.mem_iff]
  have hws : ∀ e, e ∈ s0.ws ↔ ∃ t, (t ∈ keys a0.edges ∧ t.src < p.size) ∧ (⟨0, t, {}⟩ : ShElem T) = e := by
    intro e
    rw [e6, List.mem_map]
    simp only [List.mem_filter, hperm.mem_iff, decide_eq_true_eq]
  have haw : ∀ t x, s0.aut.wt t = some x ↔ x = 0 ∧ t ∈ keys a0.edges := by
    intro t x
    constructor
    · intro hx
      have ht : t ∈ keys a0.edges := by
        by_contra hn
        rw [← hedges] at hn
        rw [(Aut.wt_none_iff _ _).2 hn] at hx
        cases hx
      refine ⟨?_, ht⟩
      unfold Aut.wt Aut.getEdge at hx
      rw [hedges] at hx
      obtain ⟨ann, h1, h2⟩ := Option.map_eq_some_iff.1 hx
      obtain ⟨e, h3, h4⟩ := Option.map_eq_some_iff.1 h1
      have := hc.zero e (List.mem_of_find?_eq_some h3)
      rw [h4, h2] at this
      exact this
    · rintro ⟨rfl, ht⟩
      rcases hx : s0.aut.wt t with _ | x
      · rw [Aut.wt_none_iff, hedges] at hx
        exact absurd ht hx
      · unfold Aut.wt Aut.getEdge at hx
        rw [hedges] at hx
        obtain ⟨ann, h1, h2⟩ := Option.map_eq_some_iff.1 hx
        obtain ⟨e, h3, h4⟩ := Option.map_eq_some_iff.1 h1
        have := hc.zero e (List.mem_of_find?_eq_some h3)
        rw [h4, h2] at this
        rw [this]
  have hpend : ∀ t ∈ keys a0.edges, t.src < p.size → s0.Pend t :=
    fun t ht hlt => ⟨0, 0, ⟨0, t, {}⟩, (hw t _).2 ⟨rfl, ht⟩, (hws _).2 ⟨t, ⟨ht, hlt⟩, rfl⟩, rfl, rfl⟩
  have hnpz : ∀ t ∈ keys a0.edges, t.dst < a0.n := fun t ht => (hc.valid t ht).2.2
  refine ⟨⟨0, ⟨hedges ▸ hc.nodup, e7, e4, e5, le_refl 0, ?_, ?_, ?_, ?_, ?_, ?_, ?_, ?_, ?_, ?_, ?_, ?_, ?_, ?_, ?_, ?_, ?_, by rw [hedges]; exact .base, ?_⟩⟩, ?_, ?_⟩
  · intro q; rw [e8]; exact le_top
  · intro t x k ht
    obtain ⟨h1, h2⟩ := (hw t _).1 ht
    cases h1
    exact FPostDer.init h2
  · intro t x k ht
    obtain ⟨h1, h2⟩ := (hw t _).1 ht
    have hv := hc.valid t h2
    exact ⟨Nat.lt_of_lt_of_le hv.1 hle, hc.noInto t h2, Nat.lt_of_lt_of_le hv.2.2 hle, .inl hv.2.1⟩
  · intro t x k ht
    obtain ⟨h1, h2⟩ := (hw t _).1 ht
    cases h1
    exact le_refl 0
  · intro t x k ht
    obtain ⟨h1, h2⟩ := (hw t _).1 ht
    cases h1
    unfold ShSt.base
    rw [e4, if_pos (hnpz t h2)]
    exact ⟨by rw [WithTop.coe_zero, add_zero], WithTop.zero_ne_top⟩
  · intro e he
    obtain ⟨t, ⟨ht, _⟩, rfl⟩ := (hws e).1 he
    exact ⟨le_refl _, 0, 0, (hw t _).2 ⟨rfl, ht⟩, le_refl _⟩
  · intro e he
    obtain ⟨t, ⟨_, ht⟩, rfl⟩ := (hws e).1 he
    exact .inl ht
  · rw [e6, List.map_map]
    have hnd : (List.filter (fun t => decide (t.src < p.size)) (List.flatMap (fun i => Aut.out h ({ acc := (qInit p ({ acc := a0.acc } : Aut W)).1.acc, edges := a0.edges } : Aut T) i) (List.range ({ acc := (qInit p ({ acc := a0.acc } : Aut W)).1.acc, edges := a0.edges } : Aut T).n))).Nodup :=
      List.Nodup.filter _ (hperm.nodup_iff.2 hc.nodup)
    refine (List.nodup_map_iff ?_).2 hnd
    intro a b hab
    simp only [Function.comp_apply, Prod.mk.injEq, and_true] at hab
    exact hab
  · intro t x k ht
    obtain ⟨h1, h2⟩ := (hw t _).1 ht
    cases h1
    by_cases hlt : t.src < p.size
    · exact .inl (hpend t h2 hlt)
    · refine .inr ⟨le_refl _, (haw t 0).2 ⟨rfl, h2⟩, fun hs => ?_, fun hl => absurd hl (hne t h2)⟩
      rw [e2]
      exact List.mem_filter.2 ⟨hperm.mem_iff.2 h2, by simpa using hs⟩
  · intro t x ht
    obtain ⟨rfl, h2⟩ := (haw t x).1 ht
    exact ⟨0, (hw t _).2 ⟨rfl, h2⟩⟩
  · intro t x ht _
    exact ((haw t x).1 ht).2
  · intro t ht
    rw [e2] at ht
    exact ⟨0, (haw t 0).2 ⟨rfl, hperm.mem_iff.1 (List.mem_filter.1 ht).1⟩⟩
  · intro m f hm
    rw [e3] at hm
    cases hm
  · intro q r l hr hop hn
    rw [e8] at hn
    exact absurd rfl hn
  · intro t x k ht hs
    obtain ⟨_, h2⟩ := (hw t _).1 ht
    have := (hc.valid t h2).1
    omega
  · intro t ht; exact (haw t 0).2 ⟨rfl, ht⟩
  · intro q
    unfold Aut.isAcc
    rw [e1]
    dsimp only
    rw [hacc]
    rw [List.getElem?_append]
    split
    · rfl
    · rename_i hq
      have hq : ¬ q < a0.acc.length := hq
      rw [List.getElem?_eq_none (by omega : a0.acc.length ≤ q)]
      rw [List.getElem?_replicate]
      split <;> rfl
  · intro e he x _
    obtain ⟨t, ⟨ht, _⟩, rfl⟩ := (hws e).1 he
    exact .inl ht
  · intro t x k ht hn _ hs
    exact absurd (hpend t ((hw t _).1 ht).2 hs) hn
  · intro f m g q x k y k' hx
    exact absurd rfl (hne _ ((hw _ _).1 hx).2)

end

end Verif
