import Verif.Proofs.FixedHistory
import Verif.Proofs.FixedRun

/-! # Fixed-point post*: if no weight can be pumped, the first phase ends with nothing left to do -/

namespace Verif

variable {W T : Type}

section
variable [LinearOrder T] [AddCommMonoid T] [LinearOrder W]

/-- The weights that post* can derive. -/
abbrev FPostD (p : Pda W) (val : W → T) (a0 : Aut (Trace × T)) (qp : List ((Nat × Nat) × Nat)) : Tr → T → Prop :=
  FPostDer p.Has val (qFind qp) (· ∈ keys a0.edges)

/-- The transitions that are counted: all except those of the input from other than control states. -/
def postCnt (p : Pda W) (a0 : Aut (Trace × T)) (t : Tr) : Bool :=
  decide (t.src < p.size) || decide (t ∉ keys a0.edges)

/-- What the history knows about the states added for PUSH rules. -/
structure PostExtra (p : Pda W) (a0 : Aut (Trace × T)) (qp : List ((Nat × Nat) × Nat)) (s : FPost T) (g : Hist T) : Prop where
  out : ∀ e ∈ keys s.aut.edges, p.size ≤ e.src → g.born e.src ≤ g.ins e
  low : ∀ f, f < a0.n → g.born f = 0
  born : ∀ f, g.born f ≤ s.rounds
  ready : ∀ e ∈ keys s.aut.edges, ∀ (i : Nat) (r : Rule W) (l : Labels), (r, l) ∈ (p.st i).rules → r.op = .push →
    e.src = qFind qp (r.to, r.opLabel) ∨ e.dst = qFind qp (r.to, r.opLabel) →
    s.Bound ⟨r.to, r.opLabel, qFind qp (r.to, r.opLabel)⟩ 0

variable [OrderBot T] [IsOrderedAddMonoid T] {p : Pda W} {val : W → T} {a0 : Aut (Trace × T)} {qp : List ((Nat × Nat) × Nat)}
  {N : Nat}

/-- One update, with a given history. -/
theorem fpostUpdate_hist (hc : PostCtx p a0 qp N) (hB : NoPump (FPostD p val a0 qp)) {s : FPost T} (hI : FPostI p val a0 qp N s)
    {g : Hist T} (h : HistOK (FPostD p val a0 qp) (postCnt p a0) s g) (hx : PostExtra p a0 qp s g)
    {u : Tr} {x : T} (tr : Trace) (hd : FPostD p val a0 qp u x) (hv : PValid p N u) (L : List (Tr × T))
    (hL : ∀ v y, (v, y) ∈ L → (∃ b, s.wt v = some b ∧ y + b ≤ x) ∧ ∀ z, FPostD p val a0 qp v z → FPostD p val a0 qp u (y + z))
    (hready : ∀ (i : Nat) (r : Rule W) (l : Labels), (r, l) ∈ (p.st i).rules → r.op = .push →
      u.src = qFind qp (r.to, r.opLabel) ∨ u.dst = qFind qp (r.to, r.opLabel) →
      (fpostUpdate p.size false s u x tr).1.Bound ⟨r.to, r.opLabel, qFind qp (r.to, r.opLabel)⟩ 0)
    (hcause : (∀ y, s.wt u = some y → x < y) →
      Cause (postCnt p a0) g.chg g.born (fun v => ∃ y, (v, y) ∈ L) u s.rounds) :
    ∃ g', HistOK (FPostD p val a0 qp) (postCnt p a0) (fpostUpdate p.size false s u x tr).1 g' ∧
      PostExtra p a0 qp (fpostUpdate p.size false s u x tr).1 g' ∧ ∀ v ∈ keys s.aut.edges, g.chg v ≤ g'.chg v := by
  obtain ⟨h1, h2, h3, h4, _⟩ := fpostUpdate_spec hc hI hd hv tr
  obtain ⟨g', m1, m2⟩ := h.update hB hI.sound (fpostRel p.size) (fun t => decide (t.src < p.size)) tr
    (fun hq => by unfold postCnt; rw [hq]; rfl) L hL (hx.born _) hcause
  have hkeys : ∀ e ∈ keys (fpostUpdate p.size false s u x tr).1.aut.edges, e ∈ keys s.aut.edges ∨ e = u ∧ u ∉ keys s.aut.edges := by
    intro e he
    by_cases hek : e ∈ keys s.aut.edges
    · exact .inl hek
    · obtain ⟨y, hy⟩ := FixSt.exists_wt _ he
      by_cases heu : e = u
      · exact .inr ⟨heu, heu ▸ hek⟩
      · rw [h4 e heu] at hy
        exact absurd (s.wt_some hy) hek
  refine ⟨g', m1, ⟨?_, ?_, ?_, ?_⟩, m2.chg⟩
  · intro e he hs
    rw [m2.born]
    rcases hkeys e he with he | ⟨rfl, he⟩
    · rw [m2.ins e he]; exact hx.out e he hs
    · rw [m2.new he]; exact hx.born _
  · rw [m2.born]; exact hx.low
  · rw [m2.born, h2.rounds]; exact hx.born
  · intro e he i r l hm hop ho
    rcases hkeys e he with he | ⟨rfl, he⟩
    · exact h2.less _ _ (hx.ready e he i r l hm hop ho)
    · exact hready i r l hm hop ho

/-- The invariant while `t` is processed, which had the weight `w` at the start. -/
structure PostStep (p : Pda W) (val : W → T) (a0 : Aut (Trace × T)) (qp : List ((Nat × Nat) × Nat)) (N : Nat) (s0 : FPost T)
    (t : Tr) (w : T) (s : FPost T) : Prop where
  I : FPostI p val a0 qp N s
  adv : PAdv p s0 s
  bound : s.Bound t w
  hist : ∃ g, HistOK (FPostD p val a0 qp) (postCnt p a0) s g ∧ PostExtra p a0 qp s g ∧ s.rounds ≤ g.chg t + 1

variable {s0 : FPost T} {t : Tr} {w : T}

/-- One update while `t` is processed. -/
theorem PostStep.update (hc : PostCtx p a0 qp N) (hB : NoPump (FPostD p val a0 qp)) {s : FPost T}
    (h : PostStep p val a0 qp N s0 t w s) {u : Tr} {x : T} (tr : Trace) (hd : FPostD p val a0 qp u x) (hv : PValid p N u)
    (L : List (Tr × T))
    (hL : ∀ v y, (v, y) ∈ L → (∃ b, s.wt v = some b ∧ y + b ≤ x) ∧ ∀ z, FPostD p val a0 qp v z → FPostD p val a0 qp u (y + z))
    (hg : ∃ g, HistOK (FPostD p val a0 qp) (postCnt p a0) s g ∧ PostExtra p a0 qp s g ∧ s.rounds ≤ g.chg t + 1 ∧
      ((∀ y, s.wt u = some y → x < y) → Cause (postCnt p a0) g.chg g.born (fun v => ∃ y, (v, y) ∈ L) u s.rounds))
    (hready : ∀ (i : Nat) (r : Rule W) (l : Labels), (r, l) ∈ (p.st i).rules → r.op = .push →
      u.src = qFind qp (r.to, r.opLabel) ∨ u.dst = qFind qp (r.to, r.opLabel) →
      (fpostUpdate p.size false s u x tr).1.Bound ⟨r.to, r.opLabel, qFind qp (r.to, r.opLabel)⟩ 0) :
    PostStep p val a0 qp N s0 t w (fpostUpdate p.size false s u x tr).1 := by
  obtain ⟨h1, h2, _⟩ := fpostUpdate_spec hc h.I hd hv tr
  obtain ⟨g, k1, k2, k3, k4⟩ := hg
  obtain ⟨g', m1, m2, m3⟩ := fpostUpdate_hist hc hB h.I k1 k2 tr hd hv L hL hready k4
  refine ⟨h1, Adv.trans h.adv h2, h2.less _ _ h.bound, g', m1, m2, ?_⟩
  rw [h2.rounds]
  have := m3 t h.bound.mem
  omega

/-- An update with the target of `t`. -/
theorem PostStep.same (hc : PostCtx p a0 qp N) (hB : NoPump (FPostD p val a0 qp)) {s : FPost T}
    (h : PostStep p val a0 qp N s0 t w s) (hcnt : postCnt p a0 t = true) {u : Tr} {x c : T} (tr : Trace)
    (hd : FPostD p val a0 qp u x) (hv : PValid p N u) (hdst : u.dst = t.dst) (hx : c + w ≤ x)
    (hcx : ∀ z, FPostD p val a0 qp t z → FPostD p val a0 qp u (c + z))
    (hsrc : ∀ (i : Nat) (r : Rule W) (l : Labels), (r, l) ∈ (p.st i).rules → r.op = .push →
      u.src = qFind qp (r.to, r.opLabel) → s.Bound ⟨r.to, r.opLabel, qFind qp (r.to, r.opLabel)⟩ 0) :
    PostStep p val a0 qp N s0 t w (fpostUpdate p.size false s u x tr).1 := by
  obtain ⟨b, hb1, hb2⟩ := h.bound
  obtain ⟨g, k1, k2, k3⟩ := h.hist
  refine h.update hc hB tr hd hv [(t, c)] ?_ ⟨g, k1, k2, k3, fun _ => ?_⟩ ?_
  · intro v y hv
    cases List.mem_singleton.1 hv
    exact ⟨⟨b, hb1, le_trans (add_le_add le_rfl hb2) hx⟩, hcx⟩
  · exact .same (v := t) ⟨c, List.mem_singleton.2 rfl⟩ hdst.symm k3 hcnt
  · intro i r l hm hop ho
    refine (fpostUpdate_spec hc h.I hd hv tr).2.1.less _ _ ?_
    rcases ho with ho | ho
    · exact hsrc i r l hm hop ho
    · exact k2.ready t h.bound.mem i r l hm hop (.inr (hdst.symm.trans ho))

/-- The first transition added by a PUSH rule. -/
theorem PostStep.push (hc : PostCtx p a0 qp N) (hB : NoPump (FPostD p val a0 qp)) {s : FPost T}
    (h : PostStep p val a0 qp N s0 t w s) (tr : Trace) {i : Nat} {r : Rule W} {l : Labels} (hm : (r, l) ∈ (p.st i).rules)
    (hop : r.op = .push) (hd : FPostD p val a0 qp ⟨r.to, r.opLabel, qFind qp (r.to, r.opLabel)⟩ 0)
    (hv : PValid p N ⟨r.to, r.opLabel, qFind qp (r.to, r.opLabel)⟩) :
    PostStep p val a0 qp N s0 t w (fpostUpdate p.size false s ⟨r.to, r.opLabel, qFind qp (r.to, r.opLabel)⟩ 0 tr).1 := by
  obtain ⟨g, k1, k2, k3⟩ := h.hist
  have hr := hc.qok.range _ _ _ hm hop
  have hto : r.to < p.size := hc.wf.toLt _ _ hm
  have hsz := hc.ok.size_le
  refine h.update hc hB tr hd hv [] (fun _ _ hv => by cases hv) ?_ ?_
  · by_cases hk : ∃ e ∈ keys s.aut.edges, e.src = qFind qp (r.to, r.opLabel) ∨ e.dst = qFind qp (r.to, r.opLabel)
    · obtain ⟨e, he, ho⟩ := hk
      obtain ⟨b, hb1, hb2⟩ := k2.ready e he i r l hm hop ho
      refine ⟨g, k1, k2, k3, fun hlt => ?_⟩
      exact absurd (lt_of_lt_of_le (hlt b hb1) hb2) (lt_irrefl _)
    · have hno : ∀ e ∈ keys s.aut.edges, e.src ≠ qFind qp (r.to, r.opLabel) ∧ e.dst ≠ qFind qp (r.to, r.opLabel) :=
        fun e he => ⟨fun h1 => hk ⟨e, he, .inl h1⟩, fun h1 => hk ⟨e, he, .inr h1⟩⟩
      refine ⟨_, k1.birth (fun e he => (hno e he).2) s.rounds, ⟨?_, ?_, ?_, k2.ready⟩, k3, fun _ => .leaf (if_pos rfl)⟩
      · intro e he hs
        dsimp only
        rw [if_neg (hno e he).1]
        exact k2.out e he hs
      · intro f hf
        dsimp only
        rw [if_neg (by omega)]
        exact k2.low f hf
      · intro f
        dsimp only
        split
        · exact Nat.le_refl _
        · exact k2.born f
  · intro i' r' l' hm' hop' ho
    have hb := (fpostUpdate_spec hc h.I hd hv tr).2.2.1
    rcases ho with ho | ho
    · have := hc.qok.range _ _ _ hm' hop'
      dsimp only at ho
      omega
    · obtain ⟨e1, e2⟩ := hc.qok.inj _ _ _ _ _ _ hm hop hm' hop' ho
      rw [← e1, ← e2]
      exact hb

/-- Two transitions are read as one, the first with epsilon. -/
theorem PostStep.both (hc : PostCtx p a0 qp N) (hB : NoPump (FPostD p val a0 qp)) {s : FPost T}
    (h : PostStep p val a0 qp N s0 t w s) (hcnt : postCnt p a0 t = true) {u e : Tr} {x y c d : T} (tr : Trace)
    (hd : FPostD p val a0 qp u x) (hv : PValid p N u) (hlt : u.src < p.size) (hdst : u.dst = e.dst) (he : s.wt e = some y)
    (hsrc : e.src = t.dst) (hsz : p.size ≤ t.dst) (hx : c + w ≤ x) (hy : d + y ≤ x)
    (hcx : ∀ z, FPostD p val a0 qp t z → FPostD p val a0 qp u (c + z))
    (hcy : ∀ z, FPostD p val a0 qp e z → FPostD p val a0 qp u (d + z)) :
    PostStep p val a0 qp N s0 t w (fpostUpdate p.size false s u x tr).1 := by
  obtain ⟨b, hb1, hb2⟩ := h.bound
  obtain ⟨g, k1, k2, k3⟩ := h.hist
  have hek := s.wt_some he
  refine h.update hc hB tr hd hv [(t, c), (e, d)] ?_ ⟨g, k1, k2, k3, fun _ => ?_⟩ ?_
  · intro v z hv
    rcases List.mem_cons.1 hv with hv | hv
    · cases hv
      exact ⟨⟨b, hb1, le_trans (add_le_add le_rfl hb2) hx⟩, hcx⟩
    · cases List.mem_singleton.1 hv
      exact ⟨⟨y, he, hy⟩, hcy⟩
  · have h1 := k1.le e hek
    have h2 := k2.out e hek (by rw [hsrc]; exact hsz)
    rw [hsrc] at h2
    refine .both (v := t) (e := e) ⟨c, List.mem_cons_self ..⟩
      ⟨d, List.mem_cons_of_mem _ (List.mem_singleton.2 rfl)⟩ hdst.symm k3 hcnt (by omega) ?_
    by_cases hce : postCnt p a0 e = true
    · exact .inl hce
    · right
      unfold postCnt at hce
      rw [Bool.or_eq_true, not_or, decide_eq_true_eq, decide_eq_true_eq, not_not] at hce
      refine k2.low _ ?_
      rw [← hsrc]
      exact (hc.ok.valid e hce.2).1
  · intro i r l hm hop ho
    refine (fpostUpdate_spec hc h.I hd hv tr).2.1.less _ _ ?_
    rcases ho with ho | ho
    · have := hc.qok.range _ _ _ hm hop
      have := hc.ok.size_le
      omega
    · exact k2.ready e hek i r l hm hop (.inr (hdst.symm.trans ho))

/-! ## The loops of `step_with` -/

/-- Applying one rule. -/
theorem PostStep.rule (hc : PostCtx p a0 qp N) (hB : NoPump (FPostD p val a0 qp)) {s : FPost T}
    (h : PostStep p val a0 qp N s0 t w s) (hcnt : postCnt p a0 t = true)
    (ht : FPostD p val a0 qp t w) (hv : PValid p N t) (hne : t.label ≠ epsilon)
    {id : Nat} {r : Rule W} {l : Labels} (hr : (p.st t.src).rules[id]? = some (r, l)) :
    PostStep p val a0 qp N s0 t w (fpostRule val p.size false t w s ((r, l), id)) := by
  have hlabs := hc.lab
  have hsz := hc.ok.size_le
  have hm := List.mem_of_getElem? hr
  unfold fpostRule
  by_cases hl : l.contains t.label = true
  · have der := fun z (hz : FPostD p val a0 qp t z) => fpost_rule_der hc hz hv hne hr hl
    obtain ⟨hto, hlab, hpop, hswap, hnoop, hpush⟩ := der w ht
    simp only [hl, Bool.not_true, Bool.false_eq_true, if_false]
    have low : ∀ (q : Nat), q < p.size → ∀ (s : FPost T) (i : Nat) (r : Rule W) (l : Labels), (r, l) ∈ (p.st i).rules → r.op = .push →
        q = qFind qp (r.to, r.opLabel) → s.Bound ⟨r.to, r.opLabel, qFind qp (r.to, r.opLabel)⟩ 0 := by
      intro q hq s i r' l' hm' hop' he
      have := hc.qok.range _ _ _ hm' hop'
      omega
    have comm : val r.weight + w ≤ w + val r.weight := by rw [add_comm]
    cases hop : r.op <;> simp only [hop]
    · obtain ⟨⟨d1, v1⟩, ⟨d2, v2⟩, hm1, hm2⟩ := hpush hop
      have d2' := fun z hz => ((der z hz).2.2.2.2.2 hop).2.1.1
      unfold fpostPush
      simp only
      rw [h.I.qpEq]
      have a1 := h.push hc hB (Trace.post t.src id t.label) hm hop d1 v1
      have ab := (fpostUpdate_spec hc h.I d1 v1 (Trace.post t.src id t.label)).2.2.1
      generalize hmq : qFind qp (r.to, r.opLabel) = m at *
      generalize (fpostUpdate p.size false s ⟨r.to, r.opLabel, m⟩ 0 (Trace.post t.src id t.label)).1 = s1 at *
      have b1 : PostStep p val a0 qp N s0 t w
          (fpostUpdate p.size false s1 ⟨m, t.label, t.dst⟩ (w + val r.weight) (Trace.post t.src id t.label)).1 := by
        refine a1.same hc hB hcnt _ d2 v2 rfl comm (fun z hz => by rw [add_comm]; exact d2' z hz) ?_
        intro i' r' l' hm' hop' he
        dsimp only at he
        obtain ⟨e1, e2⟩ := hc.qok.inj _ _ _ _ _ _ hm hop hm' hop' (hmq.trans he)
        rw [← he, ← e1, ← e2]
        exact ab
      generalize fpostUpdate p.size false s1 ⟨m, t.label, t.dst⟩ (w + val r.weight) (Trace.post t.src id t.label) = u2 at *
      obtain ⟨s2, b⟩ := u2
      dsimp only at *
      cases b
      · simp only [Bool.false_eq_true, if_false]
        exact b1
      · simp only [if_true]
        have hfk : ∀ f ∈ s2.x.rel2At m, (⟨f, epsilon, m⟩ : Tr) ∈ keys s2.aut.edges := by
          intro f hf
          unfold FPostX.rel2At at hf
          rw [List.mem_map] at hf
          obtain ⟨⟨m', f'⟩, hf1, rfl⟩ := hf
          rw [List.mem_filter] at hf1
          have hm' : m' = m := by simpa using hf1.2
          subst hm'
          exact ((b1.I.rel2 _ _).1 hf1.1).1
        refine (foldl_keep (fun s' => PostStep p val a0 qp N s0 t w s' ∧ ∀ f ∈ s2.x.rel2At m, (⟨f, epsilon, m⟩ : Tr) ∈ keys s'.aut.edges)
          _ _ ?_ s2 ⟨b1, hfk⟩).1
        intro s' f hf hs'
        obtain ⟨i1, i2⟩ := hs'
        obtain ⟨y, hy⟩ := s'.exists_wt (i2 f hf)
        have hfv := i1.I.valid _ (i2 f hf)
        have hflt : f < p.size := by
          rcases hfv.2.2.2 with h1 | h1
          · have h1 : epsilon < p.nLabels := h1
            omega
          · exact h1.2
        unfold fpostRel2
        rw [hy]
        dsimp only
        have dn := fun z hz => FPostDer.eps (i1.I.sound _ _ hy) (d2' z hz)
        have vn : PValid p N ⟨f, t.label, t.dst⟩ := ⟨hfv.1, hv.2.1, hv.2.2.1, .inl hlab⟩
        refine ⟨i1.same hc hB hcnt _ (dn w ht) vn rfl (c := val r.weight + y) ?_ ?_ (low f hflt s'), ?_⟩
        · rw [add_right_comm, add_comm (val r.weight) w]
        · intro z hz
          rw [add_right_comm, add_comm (val r.weight) z]
          exact dn z hz
        · intro f' hf'
          obtain ⟨x, hx⟩ := s'.exists_wt (i2 f' hf')
          exact ((fpostUpdate_spec hc i1.I (dn w ht) vn _).2.1.less _ _ (FixSt.wt_bound hx)).mem
    · obtain ⟨d, v⟩ := hpop hop
      exact h.same hc hB hcnt _ d v rfl comm (fun z hz => by rw [add_comm]; exact ((der z hz).2.2.1 hop).1) (low _ hto s)
    · obtain ⟨d, v⟩ := hswap hop
      exact h.same hc hB hcnt _ d v rfl comm (fun z hz => by rw [add_comm]; exact ((der z hz).2.2.2.1 hop).1) (low _ hto s)
    · obtain ⟨d, v⟩ := hnoop hop
      exact h.same hc hB hcnt _ d v rfl comm (fun z hz => by rw [add_comm]; exact ((der z hz).2.2.2.2.1 hop).1) (low _ hto s)
  · have : (!l.contains t.label) = true := by simpa using hl
    simp only [this, if_true]
    exact h

/-- Processing a transition. -/
theorem fpostStepWith_hist (hc : PostCtx p a0 qp N) (hB : NoPump (FPostD p val a0 qp)) {s : FPost T} {t : Tr} {ws : List Tr}
    (hw : ∀ u, u ∈ s.workset ↔ u = t ∨ u ∈ ws) (hI : FPostI p val a0 qp N { s with workset := ws }) {g : Hist T}
    (hlt : t.src < p.size) (h : HistOK (FPostD p val a0 qp) (postCnt p a0) s g) (hx : PostExtra p a0 qp s g) :
    ∃ g', HistOK (FPostD p val a0 qp) (postCnt p a0) (fpostStepWith val p false { s with workset := ws } t) g' ∧
      PostExtra p a0 qp (fpostStepWith val p false { s with workset := ws } t) g' ∧
      t ∈ keys (fpostStepWith val p false { s with workset := ws } t).aut.edges ∧ postCnt p a0 t = true ∧
      (fpostStepWith val p false { s with workset := ws } t).rounds ≤ g'.chg t + 1 := by
  obtain ⟨htk, hcnt, htc⟩ := h.work t ((hw t).2 (.inl rfl))
  obtain ⟨w, hwt⟩ := s.exists_wt htk
  have hwt' : ({ s with workset := ws } : FPost T).wt t = some w := hwt
  have ht : FPostD p val a0 qp t w := hI.sound t w hwt
  have hv := hI.valid t htk
  have hlabs := hc.lab
  have h1 : HistOK (FPostD p val a0 qp) (postCnt p a0) { s with workset := ws } g := h.pop fun u hu => (hw u).2 (.inr hu)
  have hstart : PostStep p val a0 qp N { s with workset := ws } t w { s with workset := ws } :=
    ⟨hI, Adv.refl _ _, ⟨w, hwt, le_rfl⟩, g, h1, ⟨hx.out, hx.low, hx.born, hx.ready⟩, htc⟩
  have hend : PostStep p val a0 qp N { s with workset := ws } t w (fpostStepWith val p false { s with workset := ws } t) := by
    unfold fpostStepWith
    simp only [hwt']
    by_cases hne : t.label = epsilon
    · rw [if_neg (by simpa using hne)]
      have hk : ∀ u ∈ s.x.rel1At t.dst, u.src = t.dst ∧ u ∈ keys s.aut.edges := by
        intro u hu
        unfold FPostX.rel1At at hu
        rw [List.mem_filter] at hu
        exact ⟨by simpa using hu.2, ((hI.rel1 u).1 hu.1).1⟩
      refine (foldl_keep (fun s' => PostStep p val a0 qp N { s with workset := ws } t w s' ∧
        ∀ u ∈ s.x.rel1At t.dst, u ∈ keys s'.aut.edges) _ _ ?_ _ ⟨hstart, fun u hu => (hk u hu).2⟩).1
      intro s' u hu hs'
      obtain ⟨i1, i2⟩ := hs'
      have husrc := (hk u hu).1
      obtain ⟨y, hy⟩ := s'.exists_wt (i2 u hu)
      have huv := i1.I.valid u (i2 u hu)
      have hsz := hv.2.1
      have hul : u.label < p.nLabels := by
        rcases huv.2.2.2 with h1 | h1
        · exact h1
        · omega
      unfold fpostRel1
      rw [hy]
      dsimp only
      have d : ∀ z z', FPostD p val a0 qp t z → FPostD p val a0 qp u z' → FPostD p val a0 qp ⟨t.src, u.label, u.dst⟩ (z' + z) := by
        intro z z' hz hz'
        refine .eps (m := t.dst) ?_ ?_
        · rw [← hne]; exact hz
        · rw [← husrc]; exact hz'
      have hyd := i1.I.sound u y hy
      have vn : PValid p N ⟨t.src, u.label, u.dst⟩ := ⟨hv.1, huv.2.1, huv.2.2.1, .inl hul⟩
      refine ⟨i1.both hc hB hcnt (e := u) _ (d w y ht hyd) vn hlt rfl hy husrc hv.2.1 (c := y) (d := w) le_rfl ?_
        (fun z hz => d z y hz hyd) (fun z hz => by rw [add_comm]; exact d w z ht hz), ?_⟩
      · rw [add_comm]
      · intro u' hu'
        obtain ⟨x, hx⟩ := s'.exists_wt (i2 u' hu')
        exact ((fpostUpdate_spec hc i1.I (d w y ht hyd) vn _).2.1.less _ _ (FixSt.wt_bound hx)).mem
    · rw [if_pos hne]
      refine foldl_keep (PostStep p val a0 qp N { s with workset := ws } t w) _ _ ?_ _ hstart
      rintro s' ⟨⟨r, l⟩, id⟩ hy hs'
      have hr : (p.st t.src).rules[id]? = some (r, l) := by
        have := List.mem_zipIdx_iff_getElem?.1 hy
        simpa using this
      exact hs'.rule hc hB hcnt ht hv hne hr
  obtain ⟨g', k1, k2, k3⟩ := hend.hist
  exact ⟨g', k1, k2, hend.bound.mem, hcnt, k3⟩

/-! ## Rounds -/

omit [LinearOrder T] [LinearOrder W] [OrderBot T] [IsOrderedAddMonoid T] [AddCommMonoid T] in
theorem filter_parts (f : Tr → Bool) (l : List Tr) :
    l.length = (l.filter f).length + (l.filter fun t => !f t).length := by
  induction l with
  | nil => rfl
  | cons t l ih =>
    by_cases ht : f t = true
    · rw [List.filter_cons_of_pos ht, List.filter_cons_of_neg (by simpa using ht), List.length_cons, List.length_cons]
      omega
    · rw [List.filter_cons_of_neg ht, List.filter_cons_of_pos (by simpa using ht), List.length_cons, List.length_cons]
      omega

omit [IsOrderedAddMonoid T] [OrderBot T] in
/-- The counter counts the counted transitions. -/
theorem FPostR.cnt (hc : PostCtx p a0 (fpostQ p a0) (fpostN p a0)) {s : FPost T} (h : FPostR p val a0 s) :
    ((keys s.aut.edges).filter (postCnt p a0)).length = s.count := by
  have h1 := filter_parts (postCnt p a0) (keys s.aut.edges)
  have h2 : (keys s.aut.edges).length = s.aut.edges.length := List.length_map ..
  have h3 := h.counted
  have h4 : ((keys s.aut.edges).filter fun t => !postCnt p a0 t).Perm
      ((keys a0.edges).filter fun t => decide (¬ t.src < p.size)) := by
    rw [List.perm_ext_iff_of_nodup (h.nodup.filter _) (hc.ok.nodup.filter _)]
    intro t
    rw [List.mem_filter, List.mem_filter]
    unfold postCnt
    constructor
    · rintro ⟨_, k2⟩
      simp only [Bool.not_or, Bool.and_eq_true, Bool.not_eq_true', decide_eq_false_iff_not, not_not] at k2
      exact ⟨k2.2, by simpa using k2.1⟩
    · rintro ⟨k1, k2⟩
      rw [decide_eq_true_eq] at k2
      refine ⟨(h.init t k1).mem, ?_⟩
      simp only [Bool.not_or, Bool.and_eq_true, Bool.not_eq_true', decide_eq_false_iff_not, not_not]
      exact ⟨k2, k1⟩
  have h5 := h4.length_eq
  omega

/-- The history of post*, and that nothing waits when the loop ends because of the round limit. -/
structure FPostH (p : Pda W) (val : W → T) (a0 : Aut (Trace × T)) (s : FPost T) : Prop extends FPostR p val a0 s where
  hist : s.done = false → ∃ g, HistOK (FPostD p val a0 (fpostQ p a0)) (postCnt p a0) s g ∧ PostExtra p a0 (fpostQ p a0) s g
  le : s.done = false → s.rounds ≤ s.limit
  ends : s.done = false → s.rounds = s.limit → s.workset = [] ∧ s.next = []

theorem FPostH.step (hc : PostCtx p a0 (fpostQ p a0) (fpostN p a0)) (hB : NoPump (FPostD p val a0 (fpostQ p a0))) {s : FPost T}
    (hs : FPostH p val a0 s) (hd : s.isDone = false) : FPostH p val a0 (fixStep (fpostStepWith val p) false s) := by
  have hR := hs.toFPostR.step hc hd
  unfold FixSt.isDone at hd
  rw [Bool.or_eq_false_iff] at hd
  have hlt : s.rounds < s.limit := by
    have := hs.le hd.1
    have h2 : s.rounds ≠ s.limit := by simpa using hd.2
    omega
  obtain ⟨g, k1, k2⟩ := hs.hist hd.1
  have hlim : ∀ (s0 : FPost T) (t : Tr), s0.aut = s.aut → s0.count = s.count → s0.limit = s.limit → s0.x = s.x →
      s.limit ≤ (fpostStepWith val p false s0 t).limit := by
    intro s0 t e1 e2 e3 e4
    have hk : FixK (fun x => x.qPrime = fpostQ p a0) (PValid p (fpostN p a0)) s0 :=
      ⟨e1 ▸ hs.nodup, e1 ▸ hs.valid, by rw [e1, e2]; exact hs.toFPostI.count, by rw [e2, e3]; exact hs.limit, by rw [e4]; exact hs.qpEq⟩
    obtain ⟨h1, h2⟩ := (fpostStepWith_frame (val := val) hc false s0 t).2.2.2 trivial hk
    rw [h1.limit, hs.limit, ← e2]
    exact h2
  have hI : ∀ (s0 : FPost T), s0.aut = s.aut → s0.x = s.x → s0.count = s.count → s0.undef = s.undef →
      (∀ u, s0.Queued u → s.Queued u) → FPostI p val a0 (fpostQ p a0) (fpostN p a0) s0 := by
    intro s0 e1 e2 e3 e5 hq
    refine ⟨e1 ▸ hs.nodup, ?_, e1 ▸ hs.valid, ?_, ?_, e5.trans hs.undef, ?_, ?_, e2 ▸ hs.nQ, e2 ▸ hs.qpEq⟩
    · intro u x hx
      unfold FixSt.wt at hx
      rw [e1] at hx
      exact hs.sound u x hx
    · rw [e1, e2]; exact hs.rel1
    · rw [e1, e2]; exact hs.rel2
    · rw [e1, e3]; exact hs.toFPostI.count
    · intro u hu; rw [e1]; exact hs.queued u (hq u hu)
  rcases fixStep_split (fpostStepWith val p) false s with ⟨h1, h2, h3⟩ | ⟨t, ws, h1, h2, h4, h3⟩ | ⟨t, ws, h1, h2, h3⟩
  · rw [h3] at hR ⊢
    refine ⟨hR, (fun hc => by cases hc), (fun hc => by cases hc), (fun hc => by cases hc)⟩
  · have hl := hlim { s with rounds := s.rounds + 1, workset := ws, next := [] } t rfl rfl rfl rfl
    have hfr := fpostStepWith_frame (val := val) hc false { s with rounds := s.rounds + 1, workset := ws, next := [] } t
    have hne : s.next ≠ [] := List.ne_nil_of_mem ((h2 t).2 (.inl rfl))
    have hsub : ∀ u ∈ t :: ws, u ∈ s.next := by
      intro u hu
      rw [h2]
      exact List.mem_cons.1 hu
    obtain ⟨g', m1, m2, m3, m4, m5⟩ := fpostStepWith_hist hc hB (ws := ws) (t := t)
      (s := { s with rounds := s.rounds + 1, workset := t :: ws, next := [] }) (fun u => List.mem_cons)
      (hI _ rfl rfl rfl rfl (fun u hu => by
        rcases hu with hu | hu
        · exact .inr (hsub u (List.mem_cons_of_mem _ hu))
        · cases hu))
      (hs.queued t (.inr ((h2 t).2 (.inl rfl)))).2
      (k1.swap hsub hne) ⟨k2.out, k2.low, fun f => Nat.le_succ_of_le (k2.born f), k2.ready⟩
    rw [h3] at hR ⊢
    refine ⟨hR, fun _ => ⟨g', m1, m2⟩, ?_, ?_⟩
    · intro _
      rw [hfr.2.1]
      dsimp only
      omega
    · intro _ he
      refine m1.exit hR.nodup ?_ m3 m4 m5 ?_
      · rw [he, hR.limit]
        exact hR.cnt hc
      · rw [hfr.1]; exact h4
  · have hl := hlim { s with workset := ws } t rfl rfl rfl rfl
    have hfr := fpostStepWith_frame (val := val) hc false { s with workset := ws } t
    obtain ⟨g', m1, m2, m3, m4, m5⟩ := fpostStepWith_hist hc hB (s := s) h2
      (hI _ rfl rfl rfl rfl (fun u hu => by
        rcases hu with hu | hu
        · exact .inl ((h2 u).2 (.inr hu))
        · exact .inr hu)) (hs.queued t (.inl ((h2 t).2 (.inl rfl)))).2 k1 k2
    rw [h3] at hR ⊢
    refine ⟨hR, fun _ => ⟨g', m1, m2⟩, ?_, ?_⟩
    · intro _
      rw [hfr.2.1]
      dsimp only
      omega
    · intro _ he
      rw [hfr.2.1] at he
      dsimp only at he
      omega

omit [LinearOrder T] [OrderBot T] [IsOrderedAddMonoid T] [AddCommMonoid T] in
theorem fpostInit_start [Zero T] (h : HashOrder) (hne : ∀ t ∈ keys a0.edges, t.label ≠ epsilon) (hv : ∀ t ∈ keys a0.edges, t.src < fpostN p a0) :
    (fpostInit h p a0).workset = [] ∧ keys (fpostInit h p a0).aut.edges = keys a0.edges := by
  unfold fpostInit
  dsimp only
  have hperm := out_all h ({ acc := (qInit p ({ acc := a0.acc } : Aut W)).1.acc, edges := a0.edges } : Aut (Trace × T)) hv
  obtain ⟨e1, _, _, _, _, _, _, _, e9, _⟩ := fpostInitEdges p.size _
    (fun t ht => hne t (hperm.mem_iff.1 ht)) ({ aut := { acc := (qInit p ({ acc := a0.acc } : Aut W)).1.acc, edges := a0.edges }, x := { nQ := a0.n, qPrime := (qInit p ({ acc := a0.acc } : Aut W)).2 } } : FPost T)
  exact ⟨e9, by rw [e1]⟩

/-- At the start nothing has happened yet. -/
theorem fpostInit_hist (hc : PostCtx p a0 (fpostQ p a0) (fpostN p a0)) (h : HashOrder) : FPostH p val a0 (fpostInit h p a0) := by
  have hR := fpostInit_run (val := val) h hc
  have hr := (fpostInit_inv (val := val) h hc).2.1
  have hlab := hc.lab
  have hle := hc.le
  obtain ⟨hws, hkeys⟩ := fpostInit_start (p := p) (a0 := a0) h
    (fun t ht he => by have := (hc.ok.valid t ht).2.1; omega) fun t ht => Nat.lt_of_lt_of_le (hc.ok.valid t ht).1 hle
  refine ⟨hR, fun _ => ⟨⟨fun _ => 0, fun _ => 0, fun _ => 0, fun _ => []⟩, ⟨?_, ?_, ?_, ?_, ?_, ?_, ?_, ?_⟩, ?_⟩, ?_, ?_⟩
  · intro u _; exact ⟨Nat.le_refl _, Nat.le_refl _, Nat.zero_le _⟩
  · intro u _; rfl
  · intro u v x hx; cases hx
  · intro u hu
    have : ∀ a b, Relation.TransGen (Hist.Prem (⟨fun _ => 0, fun _ => 0, fun _ => 0, fun _ => []⟩ : Hist T)) a b → False := by
      intro a b hab
      induction hab with
      | single h => obtain ⟨x, hx⟩ := h; cases hx
      | tail _ h _ => obtain ⟨x, hx⟩ := h; cases hx
    exact this u u hu
  · intro u _; exact .start rfl
  · intro u hu; rw [hws] at hu; cases hu
  · intro u hu
    have := hR.queued u (.inr hu)
    exact ⟨this.1, by unfold postCnt; rw [decide_eq_true this.2]; rfl, hr.symm⟩
  · intro j hj; rw [hr] at hj; omega
  · refine ⟨fun _ _ _ => Nat.zero_le _, fun _ _ => rfl, fun _ => Nat.zero_le _, ?_⟩
    intro e he i r l hm hop ho
    rw [hkeys] at he
    have hv := hc.ok.valid e he
    have := hc.qok.range _ _ _ hm hop
    have h2 := hv.2.2
    have h3 := hv.1
    omega
  · intro _; rw [hr]; exact Nat.zero_le _
  · intro _ he
    refine ⟨hws, ?_⟩
    rw [hr, hR.limit, ← hR.cnt hc] at he
    rw [List.eq_nil_iff_forall_not_mem]
    intro u hu
    have := hR.queued u (.inr hu)
    have hm : u ∈ (keys (fpostInit h p a0).aut.edges).filter (postCnt p a0) :=
      List.mem_filter.2 ⟨this.1, by unfold postCnt; rw [decide_eq_true this.2]; rfl⟩
    rw [List.eq_nil_of_length_eq_zero he.symm] at hm
    cases hm

/-- Nothing waits when the loop of the first phase ends. -/
theorem FPostH.idle {s : FPost T} (hs : FPostH p val a0 s) (hd : s.isDone = true) : s.workset = [] ∧ s.next = [] := by
  unfold FixSt.isDone at hd
  rw [Bool.or_eq_true] at hd
  cases hdone : s.done with
  | true => exact hs.fin hdone
  | false =>
    rw [hdone] at hd
    exact hs.ends hdone (by simpa using hd)

/-- The second phase does nothing if nothing waits. -/
theorem FPostL.finalize_idle {s r : FPost T} (hs : FPostL p val a0 qp N s) (hi : s.workset = [] ∧ s.next = []) {fuel : Nat}
    (hr : fixFinalize (fpostStepWith val p) fuel s = some r) : FPostL p val a0 qp N r ∧ r.workset = [] ∧ r.next = [] := by
  refine (whileSome_inv (I := fun r => FPostL p val a0 qp N r ∧ r.workset = [] ∧ r.next = []) ?_ ⟨hs.rounds 0, hi⟩ hr).1
  rintro s s' ⟨hs, h1, h2⟩ hst
  split at hst
  · cases hst
  · cases hst
    unfold fixStep
    rw [if_pos h1, if_pos h2]
    exact ⟨{ toFPostI := ⟨hs.nodup, hs.sound, hs.valid, hs.rel1, hs.rel2, hs.undef, hs.count, hs.queued, hs.nQ, hs.qpEq⟩,
             toFPostC := ⟨hs.ruleC, hs.epsC⟩, acc := hs.acc, states := hs.states, limit := hs.limit,
             init := hs.init, fin := fun _ => ⟨h1, h2⟩ }, h1, h2⟩

/-- Both phases of post*, if no weight can be pumped. -/
theorem postStarFixedPoint_nopump (hc : PostCtx p a0 (fpostQ p a0) (fpostN p a0))
    (hB : NoPump (FPostD p val a0 (fpostQ p a0))) (h : HashOrder) {fuel : Nat} {r : FPost T}
    (hr : postStarFixedPoint val h p a0 fuel = some r) :
    FPostL p val a0 (fpostQ p a0) (fpostN p a0) r ∧ r.workset = [] ∧ r.next = [] := by
  unfold postStarFixedPoint fixRun at hr
  rw [Option.bind_eq_some_iff] at hr
  obtain ⟨s, hs, hr⟩ := hr
  have := whileSome_inv (I := FPostH p val a0) ?_ (fpostInit_hist hc h) hs
  · refine FPostL.finalize_idle this.1.toFPostL (this.1.idle ?_) hr
    have h2 := this.2
    split at h2
    · assumption
    · cases h2
  · intro s s' hs hst
    split at hst
    · cases hst
    · rename_i hd
      cases hst
      exact hs.step hc hB (by simpa using hd)

end

end Verif
