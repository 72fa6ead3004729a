import Verif.Proofs.FixedPostInv

/-! # Fixed-point post*: the loop, initialisation and termination -/

namespace Verif

variable {W T : Type}

section
variable [LinearOrder T] [AddCommMonoid T] [LinearOrder W]

/-- The invariant of the first phase. -/
structure FPostL (p : Pda W) (val : W → T) (a0 : Aut (Trace × T)) (qp : List ((Nat × Nat) × Nat)) (N : Nat) (s : FPost T) :
    Prop extends FPostI p val a0 qp N s, FPostC p val qp s s.Queued (fun _ => False) where
  acc : ∀ q, s.aut.isAcc q = a0.isAcc q
  states : s.aut.n = N
  limit : s.limit = s.count
  init : ∀ t ∈ keys a0.edges, s.Bound t 0
  fin : s.done = true → s.workset = [] ∧ s.next = []

variable [OrderBot T] {p : Pda W} {val : W → T} {a0 : Aut (Trace × T)} {qp : List ((Nat × Nat) × Nat)} {N : Nat}

/-- The invariant is kept by `step`. -/
theorem FPostL.step (hc : PostCtx p a0 qp N) {s : FPost T} (h : FPostL p val a0 qp N s) (hd : s.isDone = false) :
    FPostL p val a0 qp N (fixStep (fpostStepWith val p) false s) := by
  have hdone : s.done = false := by
    unfold FixSt.isDone at hd
    rw [Bool.or_eq_false_iff] at hd
    exact hd.1
  have key : ∀ (s0 : FPost T) (t : Tr), s0.aut = s.aut → s0.x = s.x → s0.count = s.count → s0.limit = s.limit →
      s0.undef = s.undef → s0.done = s.done → (∀ u, s.Queued u ↔ u = t ∨ s0.Queued u) →
      FPostL p val a0 qp N (fpostStepWith val p false s0 t) := by
    intro s0 t e1 e2 e3 e4 e5 e6 hq
    have hwt : ∀ u, s0.wt u = s.wt u := by intro u; unfold FixSt.wt; rw [e1]
    have hbd : ∀ u x, s0.Bound u x ↔ s.Bound u x := by intro u x; unfold FixSt.Bound; rw [hwt]
    obtain ⟨htk, hlt⟩ := h.queued t ((hq t).2 (.inl rfl))
    have htk : t ∈ keys s0.aut.edges := by rw [e1]; exact htk
    have hI : FPostI p val a0 qp N s0 := by
      refine ⟨e1 ▸ h.nodup, ?_, e1 ▸ h.valid, ?_, ?_, e5.trans h.undef, ?_, ?_, e2 ▸ h.nQ, e2 ▸ h.qpEq⟩
      · intro u x hx; exact h.sound u x (hwt u ▸ hx)
      · rw [e1, e2]; exact h.rel1
      · rw [e1, e2]; exact h.rel2
      · rw [e1, e3]; exact h.count
      · intro u hu; rw [e1]; exact h.queued u ((hq u).2 (.inr hu))
    have hC : FPostC p val qp s0 (fun u => u = t ∨ s0.Queued u) fun _ => False := by
      have hpe : (fun u => u = t ∨ s0.Queued u) = s.Queued := funext fun u => propext (hq u).symm
      rw [hpe]
      refine ⟨?_, ?_⟩
      · intro u x hx h1 h2 h3 id r l hr hl
        exact (h.ruleC u x (hwt u ▸ hx) h1 h2 h3 id r l hr hl).mono fun u x hb => (hbd u x).2 hb
      · simp only [hwt, hbd]; exact h.epsC
    obtain ⟨h1, h2, h3⟩ := fpostStepWith_spec hc hI hC htk hlt
    refine { toFPostI := h1, toFPostC := h2, acc := ?_, states := ?_, limit := ?_, init := ?_, fin := ?_ }
    · intro q
      rw [← h.acc q]
      unfold Aut.isAcc
      rw [h3.acc, e1]
    · rw [← h.states]
      unfold Aut.n
      rw [h3.acc, e1]
    · exact h3.limit (by rw [e4, e3, h.limit])
    · intro u hu; exact h3.less _ _ ((hbd _ _).2 (h.init u hu))
    · intro hf
      rw [h3.done, e6, hdone] at hf
      cases hf
  rcases fixStep_cases (fpostStepWith val p) false s with ⟨h1, h2, h3⟩ | ⟨t, ws, hq, ⟨h1, h3⟩ | ⟨h1, h2, h3⟩⟩
  · rw [h3]
    exact { toFPostI := ⟨h.nodup, h.sound, h.valid, h.rel1, h.rel2, h.undef, h.count, h.queued, h.nQ, h.qpEq⟩, toFPostC := ⟨h.ruleC, h.epsC⟩, acc := h.acc, states := h.states, limit := h.limit, init := h.init, fin := fun _ => ⟨h1, h2⟩ }
  · rw [h3]
    refine key _ t rfl rfl rfl rfl rfl rfl ?_
    intro u
    rw [hq u]
    unfold FixSt.Queued
    simp [h1]
  · rw [h3]
    refine key _ t rfl rfl rfl rfl rfl rfl ?_
    intro u
    rw [hq u]
    unfold FixSt.Queued
    simp [h1]

/-! ## Initialisation -/

omit [LinearOrder T] [LinearOrder W] [OrderBot T] [AddCommMonoid T] in
theorem fpostInitEdges (n : Nat) (l : List Tr) (hl : ∀ t ∈ l, t.label ≠ epsilon) (s : FPost T) :
    (l.foldl (fpostInitEdge n) s).aut = s.aut ∧
      (l.foldl (fpostInitEdge n) s).x.rel1 = s.x.rel1 ++ l.filter (fun t => decide (n ≤ t.src)) ∧
      (l.foldl (fpostInitEdge n) s).x.rel2 = s.x.rel2 ∧ (l.foldl (fpostInitEdge n) s).x.nQ = s.x.nQ ∧
      (l.foldl (fpostInitEdge n) s).x.qPrime = s.x.qPrime ∧
      (l.foldl (fpostInitEdge n) s).next = s.next ++ l.filter (fun t => decide (t.src < n)) ∧
      (l.foldl (fpostInitEdge n) s).count ≤ s.count + l.length ∧
      (l.foldl (fpostInitEdge n) s).undef = s.undef ∧ (l.foldl (fpostInitEdge n) s).workset = s.workset ∧
      (l.foldl (fpostInitEdge n) s).done = s.done ∧ (l.foldl (fpostInitEdge n) s).rounds = s.rounds := by
  induction l generalizing s with
  | nil => simp
  | cons t l ih =>
    obtain ⟨h1, h2, h3, h4, h5, h6, h7, h8, h9, h10, h11⟩ := ih (fun u hu => hl u (List.mem_cons_of_mem _ hu)) (fpostInitEdge n s t)
    have hne := hl t (List.mem_cons_self ..)
    rw [List.foldl_cons]
    by_cases ht : t.src < n
    · have ht' : ¬ n ≤ t.src := by omega
      simp only [fpostInitEdge, ht, if_true] at h1 h2 h3 h4 h5 h6 h7 h8 h9 h10 h11 ⊢
      refine ⟨h1, ?_, h3, h4, h5, ?_, ?_, h8, h9, h10, h11⟩
      · rw [h2, List.filter_cons_of_neg (by simpa using ht')]
      · rw [h6, List.filter_cons_of_pos (by simpa using ht)]; simp
      · rw [List.length_cons]; omega
    · have ht' : n ≤ t.src := by omega
      simp only [fpostInitEdge, fpostRel, ht, if_false, ge_iff_le, ht', if_true, hne, false_and] at h1 h2 h3 h4 h5 h6 h7 h8 h9 h10 h11 ⊢
      refine ⟨h1, ?_, h3, h4, h5, ?_, ?_, h8, h9, h10, h11⟩
      · rw [h2, List.filter_cons_of_pos (by simpa using ht')]; simp
      · rw [h6, List.filter_cons_of_neg (by simpa using ht)]
      · rw [List.length_cons]; omega

/-- The states added for PUSH rules and the number of states in all. -/
def fpostQ (p : Pda W) (a : Aut (Trace × T)) : List ((Nat × Nat) × Nat) := (qInit p ({ acc := a.acc } : Aut W)).2

def fpostN (p : Pda W) (a : Aut (Trace × T)) : Nat := (qInit p ({ acc := a.acc } : Aut W)).1.n

omit [LinearOrder T] [OrderBot T] in
theorem postCtx (hp : p.WF) (hl : p.nLabels ≤ epsilon) (ha : FAutOK p a0) (hno : ∀ t ∈ keys a0.edges, p.size ≤ t.dst) :
    PostCtx p a0 (fpostQ p a0) (fpostN p a0) := by
  refine ⟨hp, hl, ha, hno, ?_, qInit_ok p ({ acc := a0.acc } : Aut W)⟩
  have := (qInit_inv p ({ acc := a0.acc } : Aut W)).1.acc
  show a0.acc.length ≤ (qInit p ({ acc := a0.acc } : Aut W)).1.acc.length
  rw [this]
  simp

omit [OrderBot T] in
/-- The state after the constructor satisfies the invariant. -/
theorem fpostInit_inv (h : HashOrder) (hc : PostCtx p a0 (fpostQ p a0) (fpostN p a0)) :
    FPostL p val a0 (fpostQ p a0) (fpostN p a0) (fpostInit h p a0) ∧ (fpostInit h p a0).rounds = 0 ∧
      (fpostInit h p a0).done = false := by
  unfold fpostInit
  simp only
  have hacc := (qInit_inv p ({ acc := a0.acc } : Aut W)).1.acc
  have hle := hc.le
  have hlab := hc.lab
  unfold fpostN at hle
  have hperm := out_all h ({ acc := (qInit p ({ acc := a0.acc } : Aut W)).1.acc, edges := a0.edges } : Aut (Trace × T))
    fun t ht => Nat.lt_of_lt_of_le (hc.ok.valid t ht).1 hle
  have hne : ∀ t ∈ keys a0.edges, t.label ≠ epsilon := by
    intro t ht he
    have := (hc.ok.valid t ht).2.1
    omega
  obtain ⟨e1, e2, e3, e4, e5, e6, e7, e8, e9, e10, e11⟩ := fpostInitEdges p.size _
    (fun t ht => hne t (hperm.mem_iff.1 ht)) ({ aut := { acc := (qInit p ({ acc := a0.acc } : Aut W)).1.acc, edges := a0.edges }, x := { nQ := a0.n, qPrime := (qInit p ({ acc := a0.acc } : Aut W)).2 } } : FPost T)
  generalize hs : List.foldl (fpostInitEdge p.size) ({ aut := { acc := (qInit p ({ acc := a0.acc } : Aut W)).1.acc, edges := a0.edges }, x := { nQ := a0.n, qPrime := (qInit p ({ acc := a0.acc } : Aut W)).2 } } : FPost T) _ = s0
    at e1 e2 e3 e4 e5 e6 e7 e8 e9 e10 e11 ⊢
  simp only [List.nil_append, Nat.zero_add] at e1 e2 e3 e4 e5 e6 e7 e8 e9 e10 e11
  have hedges : s0.aut.edges = a0.edges := by rw [e1]
  have hw0 : ∀ t x, s0.wt t = some x → x = 0 ∧ t ∈ keys a0.edges := by
    intro t x hx
    have ht : t ∈ keys a0.edges := by have := s0.wt_some hx; rwa [hedges] at this
    have := hc.ok.wt_zero (s := s0) hedges ht
    rw [this] at hx
    exact ⟨(Option.some.inj hx).symm, ht⟩
  have hq0 : ∀ t ∈ keys a0.edges, t.src < p.size → s0.Queued t := by
    intro t ht hlt; right; rw [e6]; exact List.mem_filter.2 ⟨hperm.mem_iff.2 ht, by simpa using hlt⟩
  refine ⟨{ toFPostI := ⟨?_, ?_, ?_, ?_, ?_, e8, ?_, ?_, e4, e5⟩, toFPostC := ⟨?_, ?_⟩, acc := ?_, states := ?_, limit := rfl, init := ?_, fin := ?_ }, e11, e10⟩
  · show (keys s0.aut.edges).Nodup
    rw [hedges]; exact hc.ok.nodup
  · intro t x hx
    obtain ⟨rfl, ht⟩ := hw0 t x hx
    exact FPostDer.init ht
  · show ∀ t ∈ keys s0.aut.edges, _
    rw [hedges]
    intro t ht
    have hv := hc.ok.valid t ht
    refine ⟨Nat.lt_of_lt_of_le hv.1 hle, hc.noInto t ht, Nat.lt_of_lt_of_le hv.2.2 hle, .inl hv.2.1⟩
  · intro t
    show t ∈ s0.x.rel1 ↔ t ∈ keys s0.aut.edges ∧ _
    rw [e2, hedges, List.mem_filter, hperm.mem_iff]
    simp
  · intro m f
    show (m, f) ∈ s0.x.rel2 ↔ _ ∈ keys s0.aut.edges ∧ _
    rw [e3, hedges]
    constructor
    · intro hm; cases hm
    · rintro ⟨hm, _⟩; exact absurd rfl (hne _ hm)
  · show s0.count ≤ s0.aut.edges.length
    rw [hedges]
    refine Nat.le_trans e7 ?_
    rw [hperm.length_eq]
    exact Nat.le_of_eq (List.length_map ..)
  · rintro t (ht | ht)
    · have ht : t ∈ s0.workset := ht
      rw [e9] at ht; cases ht
    · have ht : t ∈ s0.next := ht
      rw [e6, List.mem_filter, hperm.mem_iff] at ht
      refine ⟨?_, by simpa using ht.2⟩
      show t ∈ keys s0.aut.edges
      rw [hedges]; exact ht.1
  · intro t x hx h1 h2 hn
    exact absurd (hq0 t (hw0 t x hx).2 h1) hn
  · intro f m g q x y hx
    exact absurd rfl (hne _ (hw0 _ x hx).2)
  · intro q
    show s0.aut.isAcc q = _
    unfold Aut.isAcc
    rw [e1]
    dsimp only
    rw [hacc]
    rw [List.getElem?_append]
    split
    · rfl
    · rename_i hq
      have hq : ¬ q < a0.acc.length := hq
      rw [List.getElem?_eq_none (by omega : a0.acc.length ≤ q)]
      rw [List.getElem?_replicate]
      split <;> rfl
  · show s0.aut.n = _
    unfold Aut.n
    rw [e1]
    rfl
  · intro t ht
    exact FixSt.wt_bound (hc.ok.wt_zero (s := s0) hedges ht)
  · intro hf
    have : s0.done = true := hf
    rw [e10] at this; cases this

/-! ## Closedness -/

omit [LinearOrder T] [OrderBot T] in
theorem PostCtx.pushOK (hc : PostCtx p a0 qp N) : PushOK p.Has p.size a0.n (qFind qp) := by
  have hlab := hc.lab
  have get : ∀ r, p.Has r → ∃ l, ((⟨r.dst, r.op, r.weight, r.opLabel⟩ : Rule W), l) ∈ (p.st r.src).rules ∧ r.pre ∈ p.expand l :=
    fun r hr => (Pda.Has_iff p r).1 hr
  refine ⟨?_, ?_, ?_⟩
  · intro r hr
    obtain ⟨l, hm, hg⟩ := get r hr
    obtain ⟨id, hid⟩ := List.mem_iff_getElem?.1 hm
    refine ⟨Pda.lt_size_of_rule hid, hc.wf.toLt _ _ hm, ?_, ?_⟩
    · have := ((hc.wf.mem_expand hm r.pre).1 hg).2; omega
    · intro ho
      have := hc.wf.opLt _ _ hm ho
      dsimp only at this
      omega
  · intro r hr hop
    obtain ⟨l, hm, hg⟩ := get r hr
    exact (hc.qok.range _ _ _ hm hop).1
  · intro r r' hr hr' hop hop' he
    obtain ⟨l, hm, hg⟩ := get r hr
    obtain ⟨l', hm', hg'⟩ := get r' hr'
    exact hc.qok.inj _ _ _ _ _ _ hm hop hm' hop' he

omit [OrderBot T] in
/-- When nothing is queued, the weights are closed. -/
theorem FPostL.closed (hc : PostCtx p a0 qp N) {s : FPost T} (h : FPostL p val a0 qp N s) (h1 : s.workset = [])
    (h2 : s.next = []) : FPostClosed p.Has val p.size (fun t x => s.wt t = some x) := by
  have hq : ∀ t, ¬ s.Queued t := by
    intro t ht
    unfold FixSt.Queued at ht
    rw [h1, h2] at ht
    simp at ht
  have hlab := hc.lab
  have hok := hc.pushOK
  refine ⟨?_, ?_, ?_, ?_, ?_⟩
  · intro t x hx; exact (h.valid t (s.wt_some hx)).2.1
  · intro t x hx he
    rcases (h.valid t (s.wt_some hx)).2.2.2 with h3 | h3
    · omega
    · exact h3.2
  · intro r hr; exact (hok.range r hr).2.2
  · intro r hr q x hx
    have hr' := (Pda.Has_iff p r).1 hr
    obtain ⟨l, hm, hg⟩ := hr'
    obtain ⟨id, hid⟩ := List.mem_iff_getElem?.1 hm
    have hcn := (hc.wf.mem_expand hm r.pre).1 hg
    have hd := h.ruleC _ x hx (Pda.lt_size_of_rule hid) (hok.range r hr).2.2.1 (hq _) id _ l hid hcn.1
    unfold FPostDone Pda.toImpl at hd
    dsimp only at hd
    cases hop : r.op <;> simp only [hop] at hd ⊢
    · obtain ⟨⟨z1, hz1, hl1⟩, z2, hz2, hl2⟩ := hd
      exact ⟨_, z1, z2, hz1, hl1, hz2, hl2⟩
    · exact hd
    · exact hd
    · exact hd
  · intro f m g q x y hx hy
    exact h.epsC f m g q x y hx (hq _) hy fun h => h

/-! ## Termination -/

theorem fpostStepWith_frame (hc : PostCtx p a0 qp N) (bot : Bool) (s : FPost T) (t : Tr) :
    FixR (fun x => x.qPrime = qp) (PValid p N) True s (fpostStepWith val p bot s t) := by
  unfold fpostStepWith
  split
  · exact FixR.of_eq rfl rfl rfl rfl rfl rfl fun h => h
  · rename_i w hw
    have hlab := hc.lab
    have hle := hc.le
    have hsz := hc.ok.size_le
    have hupd : ∀ (P : Prop) (s : FPost T) (u : Tr) (w : T) (tr : Trace),
        (P → FixK (fun x => x.qPrime = qp) (PValid p N) s → PValid p N u) →
        FixR (fun x => x.qPrime = qp) (PValid p N) P s (fpostUpdate p.size bot s u w tr).1 :=
      fun P s u w tr hv => fixUpdate_frame _ _ bot s u w tr (fun _ _ h => h) hv
    have fin : ∀ {s' : FPost T}, FixR (fun x => x.qPrime = qp) (PValid p N) (PValid p N t) s s' →
        FixR (fun x => x.qPrime = qp) (PValid p N) True s s' :=
      fun key => ⟨key.1, key.2.1, key.2.2.1, fun _ hk => key.2.2.2 (hk.valid t (s.wt_some hw)) hk⟩
    split
    · rename_i hne
      have htl : PValid p N t → t.label < p.nLabels := by
        intro hv
        rcases hv.2.2.2 with h | h
        · exact h
        · exact absurd h.1 hne
      refine fin (FixR.foldl _ _ (fun s y hy => ?_) s)
      obtain ⟨⟨r, l⟩, id⟩ := y
      have hr : (p.st t.src).rules[id]? = some (r, l) := by
        have := List.mem_zipIdx_iff_getElem?.1 hy
        simpa using this
      have hm := List.mem_of_getElem? hr
      have hto : r.to < p.size := hc.wf.toLt _ _ hm
      have hop2 := hc.wf.opLt _ _ hm
      dsimp only at hop2
      unfold fpostRule
      split
      · exact FixR.refl _ _ _ _
      · dsimp only
        cases hop : r.op <;> simp only [hop] at hop2 ⊢
        · have hol := hop2 (.inl trivial)
          have hq := hc.qok.range _ _ _ hm hop
          have key : FixR (fun x => x.qPrime = qp) (PValid p N) (PValid p N t ∧ s.x.qPrime = qp) s
              (fpostPush p.size bot t r (w + val r.weight) (Trace.post t.src id t.label) s) := by
            unfold fpostPush
            simp only
            have hq' : s.x.qPrime = qp → a0.n ≤ qFind s.x.qPrime (r.to, r.opLabel) ∧ qFind s.x.qPrime (r.to, r.opLabel) < N := by
              intro e; rw [e]; exact hq
            generalize qFind s.x.qPrime (r.to, r.opLabel) = m at *
            refine FixR.trans _ _ _ (hupd _ s ⟨r.to, r.opLabel, m⟩ 0 (Trace.post t.src id t.label) fun h _ => ⟨by show r.to < N; omega, by show p.size ≤ m; have := hq' h.2; omega, (hq' h.2).2, .inl hol⟩) ?_
            generalize (fpostUpdate p.size bot s ⟨r.to, r.opLabel, m⟩ 0 (Trace.post t.src id t.label)).1 = s1
            have h2 := hupd (PValid p N t ∧ s.x.qPrime = qp) s1 ⟨m, t.label, t.dst⟩ (w + val r.weight) (Trace.post t.src id t.label)
              fun hv _ => ⟨(hq' hv.2).2, hv.1.2.1, hv.1.2.2.1, .inl (htl hv.1)⟩
            split
            · refine FixR.trans _ _ _ h2 (FixR.foldl _ _ (fun s f _ => ?_) _)
              unfold fpostRel2
              split
              · exact FixR.of_eq rfl rfl rfl rfl rfl rfl fun h => h
              · rename_i y hy
                refine hupd _ _ _ _ _ fun hv hk => ?_
                have := hk.valid _ (s.wt_some hy)
                exact ⟨this.1, hv.1.2.1, hv.1.2.2.1, .inl (htl hv.1)⟩
            · exact h2
          exact ⟨key.1, key.2.1, key.2.2.1, fun hv hk => key.2.2.2 ⟨hv, hk.inv⟩ hk⟩
        · exact hupd _ _ _ _ _ fun hv _ => ⟨by show r.to < N; omega, hv.2.1, hv.2.2.1, .inr ⟨rfl, hto⟩⟩
        · exact hupd _ _ _ _ _ fun hv _ => ⟨by show r.to < N; omega, hv.2.1, hv.2.2.1, .inl (hop2 (.inr trivial))⟩
        · exact hupd _ _ _ _ _ fun hv _ => ⟨by show r.to < N; omega, hv.2.1, hv.2.2.1, .inl (htl hv)⟩
    · rename_i hne
      refine fin (FixR.foldl _ _ (fun s u hu => ?_) s)
      unfold fpostRel1
      split
      · exact FixR.of_eq rfl rfl rfl rfl rfl rfl fun h => h
      · rename_i y hy
        refine hupd _ _ _ _ _ fun hv hk => ?_
        have := hk.valid _ (s.wt_some hy)
        refine ⟨hv.1, this.2.1, this.2.2.1, ?_⟩
        rcases this.2.2.2 with h1 | h1
        · exact .inl h1
        · refine .inr ⟨h1.1, ?_⟩
          rcases hv.2.2.2 with h2 | h2
          · have : t.label = epsilon := by simpa using hne
            omega
          · exact h2.2

theorem fpost_terminates (h : HashOrder) (val : W → T) (hc : PostCtx p a0 (fpostQ p a0) (fpostN p a0)) :
    ∃ fuel r, postStarFixedPoint val h p a0 fuel = some r := by
  obtain ⟨h1, h2, h3⟩ := fpostInit_inv (val := val) h hc
  refine fixRun_terminates (fpostStepWith val p) (fpostN p a0 * (p.nLabels + 1) * fpostN p a0)
    (fun x => x.qPrime = fpostQ p a0) (PValid p (fpostN p a0)) ?_
    (fun bot s t => fpostStepWith_frame hc bot s t) _ ⟨h1.nodup, h1.valid, h1.count, h1.limit, h1.qpEq⟩
    (by rw [h2]; exact Nat.zero_le _)
  intro s hs
  rw [hs.limit]
  refine Nat.le_trans hs.count ?_
  have : (keys s.aut.edges).length = s.aut.edges.length := List.length_map ..
  rw [← this]
  exact length_le_of_pvalid hs.nodup hs.valid

end

end Verif
