import Verif.Proofs.FixedPost

/-! # Fixed-point post*: invariant of the first phase -/

namespace Verif

variable {W T : Type}

/-- The setting of the saturation: the added states are `qp` and there are `N` states in all. -/
structure PostCtx [LinearOrder W] [Zero T] (p : Pda W) (a0 : Aut (Trace × T)) (qp : List ((Nat × Nat) × Nat)) (N : Nat) : Prop where
  wf : p.WF
  lab : p.nLabels ≤ epsilon
  ok : FAutOK p a0
  noInto : ∀ t ∈ keys a0.edges, p.size ≤ t.dst
  le : a0.n ≤ N
  qok : QOK p a0.n N qp

section
variable [LinearOrder T] [AddCommMonoid T] [LinearOrder W]

/-- What every update of the first phase keeps. -/
structure FPostI (p : Pda W) (val : W → T) (a0 : Aut (Trace × T)) (qp : List ((Nat × Nat) × Nat)) (N : Nat) (s : FPost T) :
    Prop where
  nodup : (keys s.aut.edges).Nodup
  sound : ∀ t x, s.wt t = some x → FPostDer p.Has val (qFind qp) (· ∈ keys a0.edges) t x
  valid : ∀ t ∈ keys s.aut.edges, PValid p N t
  rel1 : ∀ t, t ∈ s.x.rel1 ↔ t ∈ keys s.aut.edges ∧ p.size ≤ t.src
  rel2 : ∀ m f, (m, f) ∈ s.x.rel2 ↔ (⟨f, epsilon, m⟩ : Tr) ∈ keys s.aut.edges ∧ a0.n ≤ m
  undef : s.undef = false
  count : s.count ≤ s.aut.edges.length
  queued : ∀ t, s.Queued t → t ∈ keys s.aut.edges ∧ t.src < p.size
  nQ : s.x.nQ = a0.n
  qpEq : s.x.qPrime = qp

/-- Progress of post*. -/
abbrev PAdv (p : Pda W) (s s' : FPost T) : Prop := Adv (fun t => decide (t.src < p.size)) s s'

/-- What a rule requires of a transition of weight `x`. -/
def FPostDone (val : W → T) (qp : List ((Nat × Nat) × Nat)) (s : FPost T) (r : Rule W) (t : Tr) (x : T) : Prop :=
  match r.op with
  | .pop => s.Bound ⟨r.to, epsilon, t.dst⟩ (x + val r.weight)
  | .swap => s.Bound ⟨r.to, r.opLabel, t.dst⟩ (x + val r.weight)
  | .noop => s.Bound ⟨r.to, t.label, t.dst⟩ (x + val r.weight)
  | .push => s.Bound ⟨r.to, r.opLabel, qFind qp (r.to, r.opLabel)⟩ 0 ∧
      s.Bound ⟨qFind qp (r.to, r.opLabel), t.label, t.dst⟩ (x + val r.weight)

omit [LinearOrder W] in
theorem FPostDone.mono {val : W → T} {qp : List ((Nat × Nat) × Nat)} {s s' : FPost T}
    (hs : ∀ t x, s.Bound t x → s'.Bound t x) {r : Rule W} {t : Tr} {x : T} (h : FPostDone val qp s r t x) :
    FPostDone val qp s' r t x := by
  unfold FPostDone at *
  cases hop : r.op <;> simp only [hop] at h ⊢
  · exact ⟨hs _ _ h.1, hs _ _ h.2⟩
  · exact hs _ _ h
  · exact hs _ _ h
  · exact hs _ _ h

/-- All consequences of the transitions that are not pending are there, except for those of a transition in `ex` after
an epsilon transition. -/
structure FPostC (p : Pda W) (val : W → T) (qp : List ((Nat × Nat) × Nat)) (s : FPost T) (pend : Tr → Prop)
    (ex : Tr → Prop) : Prop where
  ruleC : ∀ t x, s.wt t = some x → t.src < p.size → t.label ≠ epsilon → ¬ pend t →
    ∀ (id : Nat) (r : Rule W) (l : Labels), (p.st t.src).rules[id]? = some (r, l) → l.contains t.label = true →
    FPostDone val qp s r t x
  epsC : ∀ f m g q x y, s.wt ⟨f, epsilon, m⟩ = some x → ¬ pend ⟨f, epsilon, m⟩ → s.wt ⟨m, g, q⟩ = some y →
    ¬ ex ⟨m, g, q⟩ → s.Bound ⟨f, g, q⟩ (y + x)

variable {p : Pda W} {val : W → T} {a0 : Aut (Trace × T)} {qp : List ((Nat × Nat) × Nat)} {N : Nat}

/-- Progress that leaves the transitions from other than control states alone keeps the consequences. -/
theorem FPostC.adv (hl : p.nLabels ≤ epsilon) {s s' : FPost T} {P ex : Tr → Prop}
    (h : FPostC p val qp s (fun t => P t ∨ s.Queued t) ex)
    (hI' : FPostI p val a0 qp N s') (ha : PAdv p s s') (hm : ∀ u, p.size ≤ u.src → ¬ ex u → s'.wt u = s.wt u) :
    FPostC p val qp s' (fun t => P t ∨ s'.Queued t) ex := by
  have back : ∀ t x, s'.wt t = some x → t.src < p.size → ¬ (P t ∨ s'.Queued t) →
      s.wt t = some x ∧ ¬ (P t ∨ s.Queued t) := by
    intro t x hx hlt hn
    have := ha.back (t := t) (by simpa using hlt) (fun hc => hn (.inr hc))
    exact ⟨this.1.trans hx, fun hc => hc.elim (fun h => hn (.inl h)) this.2⟩
  constructor
  · intro t x hx hlt hne hn id r l hr hc
    have hb := back t x hx hlt hn
    exact (h.ruleC t x hb.1 hlt hne hb.2 id r l hr hc).mono ha.less
  · intro f m g q x y hx hn hy hex
    have hv := hI'.valid _ (s'.wt_some hx)
    have hlt : f < p.size := by
      rcases hv.2.2.2 with h1 | h1
      · have h1 : epsilon < p.nLabels := h1
        omega
      · exact h1.2
    have hb := back _ x hx hlt hn
    have hm' := hm ⟨m, g, q⟩ hv.2.1 hex
    exact ha.less _ _ (h.epsC f m g q x y hb.1 hb.2 (hm'.symm.trans hy) hex)

variable [OrderBot T]

/-- One update with a derivable weight. -/
theorem fpostUpdate_spec (hc : PostCtx p a0 qp N) {s : FPost T} (h : FPostI p val a0 qp N s) {t : Tr} {w : T}
    (hd : FPostDer p.Has val (qFind qp) (· ∈ keys a0.edges) t w) (hv : PValid p N t) (tr : Trace) :
    FPostI p val a0 qp N (fpostUpdate p.size false s t w tr).1 ∧ PAdv p s (fpostUpdate p.size false s t w tr).1 ∧
      (fpostUpdate p.size false s t w tr).1.Bound t w ∧
      (∀ u, u ≠ t → (fpostUpdate p.size false s t w tr).1.wt u = s.wt u) ∧
      ((fpostUpdate p.size false s t w tr).2 = false → (fpostUpdate p.size false s t w tr).1 = s) ∧
      ((fpostUpdate p.size false s t w tr).2 = true → (fpostUpdate p.size false s t w tr).1.wt t = some w) := by
  obtain ⟨h1, h2, h3, h4, h5, h6, h7, h8⟩ :=
    fixUpdate_spec (fpostRel p.size) (fun t => decide (t.src < p.size)) s t w tr
  have hq : ∀ u, (fpostUpdate p.size false s t w tr).1.Queued u → s.Queued u ∨ u = t ∧ t.src < p.size := by
    intro u hu
    unfold fpostUpdate fixUpdate at hu
    have aux : ∀ (s' : FPost T), s'.workset = s.workset →
        s'.next = (if decide (t.src < p.size) = true then s.next ++ [t] else s.next) → s'.Queued u →
        s.Queued u ∨ u = t ∧ t.src < p.size := by
      intro s' e1 e2 hu
      rcases hu with hu | hu
      · exact .inl (.inl (e1 ▸ hu))
      · rw [e2] at hu
        split at hu
        · rename_i hlt
          rcases List.mem_append.1 hu with hu | hu
          · exact .inl (.inr hu)
          · exact .inr ⟨List.mem_singleton.1 hu, by simpa using hlt⟩
        · exact .inl (.inr hu)
    split at hu
    · simp only [Bool.false_eq_true, if_false] at hu
      refine aux _ ?_ ?_ hu <;> rfl
    · split at hu
      · refine aux _ ?_ ?_ hu <;> rfl
      · exact .inl hu
  unfold fpostUpdate at *
  generalize hs' : (fixUpdate (fpostRel p.size) (fun t => decide (t.src < p.size)) false s t w tr) = u' at *
  obtain ⟨s', b⟩ := u'
  dsimp only at *
  have hkeys : ∀ u, u ∈ keys s'.aut.edges ↔ u = t ∨ u ∈ keys s.aut.edges := by
    intro u
    rcases h8 with ⟨_, hk, _⟩ | ⟨hk0, hk, _⟩
    · rw [hk, List.mem_cons]
    · rw [hk]
      constructor
      · exact .inr
      · rintro (rfl | h)
        · exact hk0
        · exact h
  have hx : (s'.x.nQ = s.x.nQ ∧ s'.x.qPrime = s.x.qPrime) ∧
      (∀ u, u ∈ s'.x.rel1 ↔ u ∈ s.x.rel1 ∨ u = t ∧ p.size ≤ u.src) ∧
      ∀ m f, (m, f) ∈ s'.x.rel2 ↔ (m, f) ∈ s.x.rel2 ∨ (⟨f, epsilon, m⟩ : Tr) = t ∧ a0.n ≤ m := by
    rcases h8 with ⟨_, _, hx, _⟩ | ⟨hk0, _, hx, _⟩ <;> rw [hx]
    · refine ⟨⟨rfl, rfl⟩, fun u => ?_, fun m f => ?_⟩
      · unfold fpostRel
        dsimp only
        split
        · rename_i hge
          rw [List.mem_append, List.mem_singleton]
          constructor
          · rintro (h | rfl)
            · exact .inl h
            · exact .inr ⟨rfl, hge⟩
          · rintro (h | ⟨rfl, _⟩)
            · exact .inl h
            · exact .inr rfl
        · rename_i hge
          constructor
          · exact .inl
          · rintro (h | ⟨rfl, h⟩)
            · exact h
            · exact absurd h hge
      · unfold fpostRel
        dsimp only
        rw [h.nQ]
        split
        · rename_i hge
          rw [List.mem_append, List.mem_singleton]
          constructor
          · rintro (h | h)
            · exact .inl h
            · cases h
              refine .inr ⟨?_, hge.2⟩
              rw [← hge.1]
          · rintro (h | ⟨rfl, _⟩)
            · exact .inl h
            · exact .inr rfl
        · rename_i hge
          constructor
          · exact .inl
          · rintro (h | ⟨rfl, h⟩)
            · exact h
            · exact absurd ⟨rfl, h⟩ hge
    · refine ⟨⟨rfl, rfl⟩, fun u => ⟨.inl, ?_⟩, fun m f => ⟨.inl, ?_⟩⟩
      · rintro (h' | ⟨rfl, h'⟩)
        · exact h'
        · exact (h.rel1 _).2 ⟨hk0, h'⟩
      · rintro (h' | ⟨rfl, h'⟩)
        · exact h'
        · exact (h.rel2 _ _).2 ⟨hk0, h'⟩
  refine ⟨⟨?_, ?_, ?_, ?_, ?_, h3.trans h.undef, ?_, ?_, hx.1.1.trans h.nQ, hx.1.2.trans h.qpEq⟩, h1, h2, h5, h6, h7⟩
  · rcases h8 with ⟨hn, hk, _⟩ | ⟨_, hk, _⟩ <;> rw [hk]
    · exact List.nodup_cons.2 ⟨hn, h.nodup⟩
    · exact h.nodup
  · intro u x hx
    rcases h4 u x hx with hx | ⟨rfl, rfl⟩
    · exact h.sound u x hx
    · exact hd
  · intro u hu
    rcases (hkeys u).1 hu with rfl | hu
    · exact hv
    · exact h.valid u hu
  · intro u
    rw [hx.2.1, h.rel1, hkeys]
    constructor
    · rintro (⟨a, b⟩ | ⟨a, b⟩)
      · exact ⟨.inr a, b⟩
      · exact ⟨.inl a, b⟩
    · rintro ⟨a | a, b⟩
      · exact .inr ⟨a, b⟩
      · exact .inl ⟨a, b⟩
  · intro m f
    rw [hx.2.2, h.rel2, hkeys]
    constructor
    · rintro (⟨a, b⟩ | ⟨a, b⟩)
      · exact ⟨.inr a, b⟩
      · exact ⟨.inl a, b⟩
    · rintro ⟨a | a, b⟩
      · exact .inr ⟨a, b⟩
      · exact .inl ⟨a, b⟩
  · have hlen : ∀ E : List (AEdge (Trace × T)), (keys E).length = E.length := fun E => List.length_map ..
    have hcount := h.count
    rcases h8 with ⟨_, hk, _, hc⟩ | ⟨_, hk, _, hc⟩
    · rw [hc, ← hlen s'.aut.edges, hk, List.length_cons, hlen]; omega
    · rw [hc, ← hlen s'.aut.edges, hk, hlen]; omega
  · intro u hu
    rw [hkeys]
    rcases hq u hu with hu | ⟨rfl, hu⟩
    · exact ⟨.inr (h.queued u hu).1, (h.queued u hu).2⟩
    · exact ⟨.inl rfl, hu⟩

omit [OrderBot T] in
/-- The derivations and ranges of what a rule adds. -/
theorem fpost_rule_der (hc : PostCtx p a0 qp N) {t : Tr} {w : T}
    (ht : FPostDer p.Has val (qFind qp) (· ∈ keys a0.edges) t w) (hv : PValid p N t) (hne : t.label ≠ epsilon)
    {id : Nat} {r : Rule W} {l : Labels} (hr : (p.st t.src).rules[id]? = some (r, l)) (hl : l.contains t.label = true) :
    r.to < p.size ∧ t.label < p.nLabels ∧
    (r.op = .pop → FPostDer p.Has val (qFind qp) (· ∈ keys a0.edges) ⟨r.to, epsilon, t.dst⟩ (w + val r.weight) ∧
      PValid p N ⟨r.to, epsilon, t.dst⟩) ∧
    (r.op = .swap → FPostDer p.Has val (qFind qp) (· ∈ keys a0.edges) ⟨r.to, r.opLabel, t.dst⟩ (w + val r.weight) ∧
      PValid p N ⟨r.to, r.opLabel, t.dst⟩) ∧
    (r.op = .noop → FPostDer p.Has val (qFind qp) (· ∈ keys a0.edges) ⟨r.to, t.label, t.dst⟩ (w + val r.weight) ∧
      PValid p N ⟨r.to, t.label, t.dst⟩) ∧
    (r.op = .push →
      (FPostDer p.Has val (qFind qp) (· ∈ keys a0.edges) ⟨r.to, r.opLabel, qFind qp (r.to, r.opLabel)⟩ 0 ∧
        PValid p N ⟨r.to, r.opLabel, qFind qp (r.to, r.opLabel)⟩) ∧
      (FPostDer p.Has val (qFind qp) (· ∈ keys a0.edges) ⟨qFind qp (r.to, r.opLabel), t.label, t.dst⟩ (w + val r.weight) ∧
        PValid p N ⟨qFind qp (r.to, r.opLabel), t.label, t.dst⟩) ∧ a0.n ≤ qFind qp (r.to, r.opLabel) ∧
        qFind qp (r.to, r.opLabel) < N) := by
  have hm := List.mem_of_getElem? hr
  have hto : r.to < p.size := hc.wf.toLt _ _ hm
  have hlab : t.label < p.nLabels := by
    rcases hv.2.2.2 with h | h
    · exact h
    · exact absurd h.1 hne
  have hg := (hc.wf.mem_expand hm t.label).2 ⟨hl, hlab⟩
  have hhas := has_of_rule hr hg
  have hle := hc.le
  have hsz := hc.ok.size_le
  have ht' : FPostDer p.Has val (qFind qp) (· ∈ keys a0.edges) ⟨t.src, t.label, t.dst⟩ w := ht
  refine ⟨hto, hlab, fun hop => ⟨.pop hhas hop ht', ?_, hv.2.1, hv.2.2.1, .inr ⟨rfl, hto⟩⟩,
    fun hop => ⟨.swap hhas hop ht', ?_, hv.2.1, hv.2.2.1, .inl (hc.wf.opLt _ _ hm (.inr hop))⟩,
    fun hop => ⟨.noop hhas hop ht', ?_, hv.2.1, hv.2.2.1, .inl hlab⟩, fun hop => ?_⟩
  · show r.to < N; omega
  · show r.to < N; omega
  · show r.to < N; omega
  · have hq := hc.qok.range _ _ _ hm hop
    refine ⟨⟨.push1 hhas hop ht', ?_, ?_, hq.2, .inl (hc.wf.opLt _ _ hm (.inl hop))⟩,
      ⟨.push2 hhas hop ht', hq.2, hv.2.1, hv.2.2.1, .inl hlab⟩, hq.1, hq.2⟩
    · show r.to < N; omega
    · show p.size ≤ qFind qp _; omega

omit [OrderBot T] in
theorem FPostC.weaken {s : FPost T} {P P' ex ex' : Tr → Prop} (h : FPostC p val qp s P ex) (hP : ∀ t, P t → P' t)
    (hex : ∀ t, ex t → ex' t) : FPostC p val qp s P' ex' :=
  ⟨fun t x hx h1 h2 h3 => h.ruleC t x hx h1 h2 fun hp => h3 (hP t hp),
   fun f m g q x y hx hn hy he => h.epsC f m g q x y hx (fun hp => hn (hP _ hp)) hy fun hp => he (hex _ hp)⟩

/-- Applying one rule. -/
theorem fpostRule_spec (hc : PostCtx p a0 qp N) {t : Tr} {w : T}
    (ht : FPostDer p.Has val (qFind qp) (· ∈ keys a0.edges) t w) (hv : PValid p N t) (hne : t.label ≠ epsilon)
    {P : Tr → Prop} {s : FPost T} (h : FPostI p val a0 qp N s)
    (hC : FPostC p val qp s (fun t => P t ∨ s.Queued t) fun _ => False)
    {id : Nat} {r : Rule W} {l : Labels} (hr : (p.st t.src).rules[id]? = some (r, l)) :
    FPostI p val a0 qp N (fpostRule val p.size false t w s ((r, l), id)) ∧
      PAdv p s (fpostRule val p.size false t w s ((r, l), id)) ∧
      FPostC p val qp (fpostRule val p.size false t w s ((r, l), id))
        (fun t' => P t' ∨ (fpostRule val p.size false t w s ((r, l), id)).Queued t') (fun _ => False) ∧
      (l.contains t.label = true → FPostDone val qp (fpostRule val p.size false t w s ((r, l), id)) r t w) := by
  have hlabs := hc.lab
  unfold fpostRule
  by_cases hl : l.contains t.label = true
  · obtain ⟨hto, hlab, hpop, hswap, hnoop, hpush⟩ := fpost_rule_der hc ht hv hne hr hl
    simp only [hl, Bool.not_true, Bool.false_eq_true, if_false]
    have low : ∀ {u : Tr} {x : T} {tr : Trace} {s : FPost T}, FPostI p val a0 qp N s →
        ∀ {ex : Tr → Prop}, FPostC p val qp s (fun t => P t ∨ s.Queued t) ex →
        FPostDer p.Has val (qFind qp) (· ∈ keys a0.edges) u x → PValid p N u → u.src < p.size →
        FPostI p val a0 qp N (fpostUpdate p.size false s u x tr).1 ∧ PAdv p s (fpostUpdate p.size false s u x tr).1 ∧
        FPostC p val qp (fpostUpdate p.size false s u x tr).1
          (fun t => P t ∨ (fpostUpdate p.size false s u x tr).1.Queued t) ex ∧
        (fpostUpdate p.size false s u x tr).1.Bound u x ∧
        ∀ u', u' ≠ u → (fpostUpdate p.size false s u x tr).1.wt u' = s.wt u' := by
      intro u x tr s h ex hC hd hv hlt
      obtain ⟨g1, g2, g3, g4, _, _⟩ := fpostUpdate_spec hc h hd hv tr
      refine ⟨g1, g2, hC.adv hlabs g1 g2 (fun u' hu' _ => g4 u' ?_), g3, g4⟩
      rintro rfl; omega
    cases hop : r.op <;> simp only [hop]
    · obtain ⟨⟨d1, v1⟩, ⟨d2, v2⟩, hm, hmN⟩ := hpush hop
      unfold fpostPush
      simp only
      rw [h.qpEq]
      generalize hmq : qFind qp (r.to, r.opLabel) = m at *
      obtain ⟨a1, a2, a3, a4, a5⟩ := low (tr := Trace.post t.src id t.label) h hC d1 v1 hto
      generalize (fpostUpdate p.size false s ⟨r.to, r.opLabel, m⟩ 0 (Trace.post t.src id t.label)).1 = s1 at *
      obtain ⟨b1, b2, b3, b4, b5, b6⟩ := fpostUpdate_spec hc a1 d2 v2 (Trace.post t.src id t.label)
      have hdone : ∀ s' : FPost T, (∀ u x, s1.Bound u x → s'.Bound u x) →
          s'.Bound ⟨m, t.label, t.dst⟩ (w + val r.weight) → FPostDone val qp s' r t w := by
        intro s' h1 h2
        unfold FPostDone
        rw [hop]
        dsimp only
        rw [hmq]
        exact ⟨h1 _ _ a4, h2⟩
      generalize fpostUpdate p.size false s1 ⟨m, t.label, t.dst⟩ (w + val r.weight) (Trace.post t.src id t.label) = u2 at *
      obtain ⟨s2, b⟩ := u2
      dsimp only at *
      cases b
      · have e := b5 rfl
        subst e
        simp only [Bool.false_eq_true, if_false]
        exact ⟨b1, a2, a3, fun _ => hdone _ (fun _ _ h => h) b3⟩
      · have e := b6 rfl
        simp only [if_true]
        have hsz := hc.ok.size_le
        have hC2 : FPostC p val qp s2 (fun t => P t ∨ s2.Queued t) (fun u => u = ⟨m, t.label, t.dst⟩) :=
          (a3.weaken (fun _ h => h) (fun _ h => h.elim)).adv hlabs b1 b2 fun u _ hu => b4 u hu
        obtain ⟨c1, c2, c3⟩ := foldl_adv (R := PAdv p) (Adv.refl _) (fun _ _ _ h h' => Adv.trans h h')
          (fun s' => FPostI p val a0 qp N s' ∧ FPostC p val qp s' (fun t => P t ∨ s'.Queued t) (fun u => u = ⟨m, t.label, t.dst⟩) ∧
            ∀ u, p.size ≤ u.src ∨ u.label = epsilon → s'.wt u = s2.wt u)
          (fpostRel2 p.size false t m (w + val r.weight))
          (fun f s' => ∀ y, s2.wt ⟨f, epsilon, m⟩ = some y → s'.Bound ⟨f, t.label, t.dst⟩ (w + val r.weight + y))
          (fun f s s' hR hP y hy => by exact hR.less _ _ (hP y hy)) (s2.x.rel2At m)
          (fun s' f hf hs' => by
            obtain ⟨i1, i2, i3⟩ := hs'
            have hfk : (⟨f, epsilon, m⟩ : Tr) ∈ keys s2.aut.edges := by
              unfold FPostX.rel2At at hf
              rw [List.mem_map] at hf
              obtain ⟨⟨m', f'⟩, hf1, rfl⟩ := hf
              rw [List.mem_filter] at hf1
              have hm' : m' = m := by simpa using hf1.2
              subst hm'
              exact ((b1.rel2 _ _).1 hf1.1).1
            obtain ⟨y, hy⟩ := s2.exists_wt hfk
            have hy' := (i3 ⟨f, epsilon, m⟩ (.inr rfl)).trans hy
            have hfv := b1.valid _ hfk
            have hflt : f < p.size := by
              rcases hfv.2.2.2 with h1 | h1
              · have h1 : epsilon < p.nLabels := h1
                omega
              · exact h1.2
            unfold fpostRel2
            rw [hy']
            dsimp only
            obtain ⟨k1, k2, k3, k4, k5⟩ := low (u := ⟨f, t.label, t.dst⟩) (tr := Trace.postEps m) i1 i2
              (.eps (b1.sound _ _ hy) d2) ⟨hfv.1, hv.2.1, hv.2.2.1, .inl hlab⟩ hflt
            refine ⟨⟨k1, k3, fun u hu => (k5 u ?_).trans (i3 u hu)⟩, k2, ?_⟩
            · rintro rfl
              rcases hu with hu | hu
              · have hu : p.size ≤ f := hu
                omega
              · exact hne hu
            · intro y' hy''
              rw [hy] at hy''
              cases hy''
              exact k4)
          s2 ⟨b1, hC2, fun _ _ => rfl⟩
        obtain ⟨c1, c4, c5⟩ := c1
        generalize (s2.x.rel2At m).foldl (fpostRel2 p.size false t m (w + val r.weight)) s2 = s3 at *
        refine ⟨c1, Adv.trans a2 (Adv.trans b2 c2), ⟨c4.ruleC, ?_⟩, fun _ => hdone _ (fun u x h => c2.less _ _ (b2.less _ _ h)) (c2.less _ _ b3)⟩
        intro f m' g q x y hx hn hy _
        by_cases he : (⟨m', g, q⟩ : Tr) = ⟨m, t.label, t.dst⟩
        · cases he
          have hx' := (c5 ⟨f, epsilon, m⟩ (.inr rfl)).symm.trans hx
          have hy' := (c5 ⟨m, t.label, t.dst⟩ (.inl (by show p.size ≤ m; omega))).symm.trans hy
          rw [e] at hy'
          cases hy'
          refine c3 f ?_ x hx'
          unfold FPostX.rel2At
          rw [List.mem_map]
          exact ⟨(m, f), List.mem_filter.2 ⟨(b1.rel2 _ _).2 ⟨s2.wt_some hx', hm⟩, by simp⟩, rfl⟩
        · exact c4.epsC f m' g q x y hx hn hy he
    · obtain ⟨d, v⟩ := hpop hop
      obtain ⟨g1, g2, g3, g4, _⟩ := low (tr := Trace.post t.src id t.label) h hC d v hto
      refine ⟨g1, g2, g3, fun _ => ?_⟩
      unfold FPostDone; rw [hop]; exact g4
    · obtain ⟨d, v⟩ := hswap hop
      obtain ⟨g1, g2, g3, g4, _⟩ := low (tr := Trace.post t.src id t.label) h hC d v hto
      refine ⟨g1, g2, g3, fun _ => ?_⟩
      unfold FPostDone; rw [hop]; exact g4
    · obtain ⟨d, v⟩ := hnoop hop
      obtain ⟨g1, g2, g3, g4, _⟩ := low (tr := Trace.post t.src id t.label) h hC d v hto
      refine ⟨g1, g2, g3, fun _ => ?_⟩
      unfold FPostDone; rw [hop]; exact g4
  · have : (!l.contains t.label) = true := by simpa using hl
    simp only [this, if_true]
    exact ⟨h, Adv.refl _ _, hC, fun hc => absurd hc hl⟩

/-- Processing one transition. -/
theorem fpostStepWith_spec (hc : PostCtx p a0 qp N) {t : Tr} {s : FPost T} (h : FPostI p val a0 qp N s)
    (hC : FPostC p val qp s (fun u => u = t ∨ s.Queued u) fun _ => False) (htk : t ∈ keys s.aut.edges)
    (hlt : t.src < p.size) :
    FPostI p val a0 qp N (fpostStepWith val p false s t) ∧
      FPostC p val qp (fpostStepWith val p false s t) (fpostStepWith val p false s t).Queued (fun _ => False) ∧
      PAdv p s (fpostStepWith val p false s t) := by
  obtain ⟨w, hw⟩ := s.exists_wt htk
  have ht := h.sound t w hw
  have hv := h.valid t htk
  have hlabs := hc.lab
  unfold fpostStepWith
  rw [hw]
  dsimp only
  by_cases hne : t.label = epsilon
  · rw [if_neg (by simpa using hne)]
    obtain ⟨c1, c2, c3⟩ := foldl_adv (R := PAdv p) (Adv.refl _) (fun _ _ _ h h' => Adv.trans h h')
      (fun s' => FPostI p val a0 qp N s' ∧ FPostC p val qp s' (fun u => u = t ∨ s'.Queued u) (fun _ => False) ∧
        ∀ u, p.size ≤ u.src ∨ u.label = epsilon → s'.wt u = s.wt u)
      (fpostRel1 p.size false t w)
      (fun u s' => ∀ y, s.wt u = some y → s'.Bound ⟨t.src, u.label, u.dst⟩ (y + w))
      (fun u s s' hR hP y hy => by exact hR.less _ _ (hP y hy)) (s.x.rel1At t.dst)
      (fun s' u hu hs' => by
        obtain ⟨i1, i2, i3⟩ := hs'
        unfold FPostX.rel1At at hu
        rw [List.mem_filter] at hu
        obtain ⟨hu1, hu2⟩ := hu
        have hu2 : u.src = t.dst := by simpa using hu2
        obtain ⟨hu1, hu3⟩ := (h.rel1 u).1 hu1
        obtain ⟨y, hy⟩ := s.exists_wt hu1
        have hy' := (i3 u (.inl hu3)).trans hy
        have huv := h.valid u hu1
        have hul : u.label < p.nLabels := by
          rcases huv.2.2.2 with h1 | h1
          · exact h1
          · omega
        unfold fpostRel1
        rw [hy']
        dsimp only
        have d : FPostDer p.Has val (qFind qp) (· ∈ keys a0.edges) ⟨t.src, u.label, u.dst⟩ (y + w) := by
          refine .eps (m := t.dst) ?_ ?_
          · rw [← hne]; exact ht
          · rw [← hu2]; exact h.sound u y hy
        obtain ⟨g1, g2, g3, g4, _, _⟩ := fpostUpdate_spec hc i1 d ⟨hv.1, huv.2.1, huv.2.2.1, .inl hul⟩ (Trace.postEps t.dst)
        have hne' : ∀ u' : Tr, p.size ≤ u'.src ∨ u'.label = epsilon → u' ≠ ⟨t.src, u.label, u.dst⟩ := by
          rintro _ h' rfl
          rcases h' with h' | h'
          · have h' : p.size ≤ t.src := h'
            omega
          · have h' : u.label = epsilon := h'
            omega
        refine ⟨⟨g1, i2.adv hlabs g1 g2 (fun u' hu' _ => g4 u' (hne' u' (.inl hu'))), fun u' hu' => (g4 u' (hne' u' hu')).trans (i3 u' hu')⟩, g2, ?_⟩
        intro y' hy''
        rw [hy] at hy''
        cases hy''
        exact g3)
      s ⟨h, hC, fun _ _ => rfl⟩
    obtain ⟨c1, c4, c5⟩ := c1
    generalize (s.x.rel1At t.dst).foldl (fpostRel1 p.size false t w) s = s3 at *
    refine ⟨c1, ⟨?_, ?_⟩, c2⟩
    · intro u x hx h1 h2 hn
      refine c4.ruleC u x hx h1 h2 ?_
      rintro (rfl | hq)
      · exact h2 hne
      · exact hn hq
    · intro f m g q x y hx hn hy _
      by_cases he : (⟨f, epsilon, m⟩ : Tr) = t
      · have hx' := (c5 ⟨f, epsilon, m⟩ (.inr rfl)).symm.trans hx
        rw [he, hw] at hx'
        cases hx'
        have hm : p.size ≤ m := by have := hv.2.1; rw [← he] at this; exact this
        have hy' := (c5 ⟨m, g, q⟩ (.inl hm)).symm.trans hy
        have := c3 ⟨m, g, q⟩ (List.mem_filter.2 ⟨(h.rel1 _).2 ⟨s.wt_some hy', hm⟩, by rw [← he]; simp⟩) y hy'
        rw [← he] at this
        exact this
      · refine c4.epsC f m g q x y hx ?_ hy (fun h => h)
        rintro (h1 | h1)
        · exact he h1
        · exact hn h1
  · rw [if_pos hne]
    obtain ⟨c1, c2, c3⟩ := foldl_adv (R := PAdv p) (Adv.refl _) (fun _ _ _ h h' => Adv.trans h h')
      (fun s' => FPostI p val a0 qp N s' ∧ FPostC p val qp s' (fun u => u = t ∨ s'.Queued u) (fun _ => False))
      (fpostRule val p.size false t w)
      (fun y s' => y.1.2.contains t.label = true → FPostDone val qp s' y.1.1 t w)
      (fun y s s' hR hP hl => by exact (hP hl).mono hR.less) (p.st t.src).rules.zipIdx
      (fun s' y hy hs' => by
        obtain ⟨⟨r, l⟩, id⟩ := y
        have hr : (p.st t.src).rules[id]? = some (r, l) := by
          have := List.mem_zipIdx_iff_getElem?.1 hy
          simpa using this
        have := fpostRule_spec hc ht hv hne (P := fun u => u = t) hs'.1 hs'.2 hr
        exact ⟨⟨this.1, this.2.2.1⟩, this.2.1, this.2.2.2⟩)
      s ⟨h, hC⟩
    obtain ⟨c1, c4⟩ := c1
    generalize (p.st t.src).rules.zipIdx.foldl (fpostRule val p.size false t w) s = s3 at *
    refine ⟨c1, ⟨?_, ?_⟩, c2⟩
    · intro u x hx h1 h2 hn id r l hr hl
      by_cases hut : u = t
      · subst hut
        have hb := (c2.back (t := u) (by simpa using hlt) hn).1
        rw [hw, hx] at hb
        cases hb
        exact c3 ((r, l), id) (List.mem_zipIdx_iff_getElem?.2 (by simpa using hr)) hl
      · refine c4.ruleC u x hx h1 h2 ?_ id r l hr hl
        rintro (h3 | h3)
        · exact hut h3
        · exact hn h3
    · intro f m g q x y hx hn hy _
      refine c4.epsC f m g q x y hx ?_ hy (fun h => h)
      rintro (h1 | h1)
      · rw [← h1] at hne
        exact hne rfl
      · exact hn h1

end

end Verif
