import Verif.Proofs.FixedTrace
import Verif.Proofs.FixedPostRounds
import Verif.Proofs.ShortestTrace
import Verif.Model.FixedProduct

/-! # Fixed-point post*: the last traces -/

namespace Verif

variable {W T : Type}

section
variable [LinearOrder W] [LinearOrder T] [AddCommMonoid T] [IsOrderedAddMonoid T]
  {p : Pda W} {val : W → T} {a0 : Aut (Trace × T)} {qp : List ((Nat × Nat) × Nat)} {N : Nat}

/-- The reasons of post* are of the required form. -/
theorem postJ_ok (p : Pda W) (val : W → T) (a0 : Aut (Trace × T)) (qp : List ((Nat × Nat) × Nat)) :
    JOK (FPostD p val a0 qp) (PostJW p val qp) := by
  refine ⟨?_, ?_, fun P Q h t tr w hj => PostJW.mono p val qp P Q h t tr w hj⟩
  · intro P Q h t tr w hj
    cases hj with
    | pop h1 h2 h3 h4 =>
      obtain ⟨x', k1, k2⟩ := h _ _ h4
      exact ⟨_, add_le_add k1 le_rfl, .pop h1 h2 h3 k2⟩
    | swap h1 h2 h3 h4 =>
      obtain ⟨x', k1, k2⟩ := h _ _ h4
      exact ⟨_, add_le_add k1 le_rfl, .swap h1 h2 h3 k2⟩
    | noop h1 h2 h3 h4 =>
      obtain ⟨x', k1, k2⟩ := h _ _ h4
      exact ⟨_, add_le_add k1 le_rfl, .noop h1 h2 h3 k2⟩
    | push1 h1 h2 h3 => exact ⟨_, le_rfl, .push1 h1 h2 h3⟩
    | push2 h1 h2 h3 h4 =>
      obtain ⟨x', k1, k2⟩ := h _ _ h4
      exact ⟨_, add_le_add k1 le_rfl, .push2 h1 h2 h3 k2⟩
    | eps h1 h2 =>
      obtain ⟨x', k1, k2⟩ := h _ _ h1
      obtain ⟨y', k3, k4⟩ := h _ _ h2
      exact ⟨_, add_le_add k1 k3, .eps k2 k4⟩
  · intro P hP t tr w hj
    cases hj with
    | @pop a g q id r l x h1 h2 h3 h4 =>
      refine ⟨[(⟨a, g, q⟩, x)], .pop h1 h2 h3 (List.mem_singleton.2 rfl), ?_⟩
      intro u y hu
      cases List.mem_singleton.1 hu
      refine ⟨h4, val r.weight, add_comm _ _, fun y hy => ?_⟩
      rw [add_comm]
      exact FPostDer.pop (has_of_rule h1 h2) h3 hy
    | @swap a g q id r l x h1 h2 h3 h4 =>
      refine ⟨[(⟨a, g, q⟩, x)], .swap h1 h2 h3 (List.mem_singleton.2 rfl), ?_⟩
      intro u y hu
      cases List.mem_singleton.1 hu
      refine ⟨h4, val r.weight, add_comm _ _, fun y hy => ?_⟩
      rw [add_comm]
      exact FPostDer.swap (has_of_rule h1 h2) h3 hy
    | @noop a g q id r l x h1 h2 h3 h4 =>
      refine ⟨[(⟨a, g, q⟩, x)], .noop h1 h2 h3 (List.mem_singleton.2 rfl), ?_⟩
      intro u y hu
      cases List.mem_singleton.1 hu
      refine ⟨h4, val r.weight, add_comm _ _, fun y hy => ?_⟩
      rw [add_comm]
      exact FPostDer.noop (has_of_rule h1 h2) h3 hy
    | push1 h1 h2 h3 => exact ⟨[], .push1 h1 h2 h3, fun _ _ hu => by cases hu⟩
    | @push2 a g q id r l x h1 h2 h3 h4 =>
      refine ⟨[(⟨a, g, q⟩, x)], .push2 h1 h2 h3 (List.mem_singleton.2 rfl), ?_⟩
      intro u y hu
      cases List.mem_singleton.1 hu
      refine ⟨h4, val r.weight, add_comm _ _, fun y hy => ?_⟩
      rw [add_comm]
      exact FPostDer.push2 (has_of_rule h1 h2) h3 hy
    | @eps f m g q x y h1 h2 =>
      refine ⟨[(⟨f, epsilon, m⟩, x), (⟨m, g, q⟩, y)], .eps (List.mem_cons_self ..)
        (List.mem_cons_of_mem _ (List.mem_singleton.2 rfl)), ?_⟩
      intro u z hu
      rcases List.mem_cons.1 hu with hu | hu
      · cases hu
        exact ⟨h1, y, add_comm _ _, fun z hz => FPostDer.eps hz (hP _ _ h2)⟩
      · cases List.mem_singleton.1 hu
        refine ⟨h2, x, rfl, fun z hz => ?_⟩
        rw [add_comm]
        exact FPostDer.eps (hP _ _ h1) hz

omit [IsOrderedAddMonoid T] [LinearOrder T] in
/-- Derived transitions are in range. -/
theorem fpostDer_valid (hc : PostCtx p a0 qp N) {t : Tr} {x : T}
    (h : FPostDer p.Has val (qFind qp) (· ∈ keys a0.edges) t x) : PValid p N t := by
  have hsz := hc.ok.size_le
  have hle := hc.le
  have hlab := hc.lab
  have rule : ∀ r, p.Has r → r.dst < p.size ∧ r.pre < p.nLabels ∧ (r.op = .push ∨ r.op = .swap → r.opLabel < p.nLabels) ∧
      (r.op = .push → a0.n ≤ qFind qp (r.dst, r.opLabel) ∧ qFind qp (r.dst, r.opLabel) < N) := by
    intro r hr
    rw [Pda.Has_iff] at hr
    obtain ⟨l, hm, hg⟩ := hr
    exact ⟨hc.wf.toLt _ _ hm, ((hc.wf.mem_expand hm r.pre).1 hg).2, hc.wf.opLt _ _ hm, fun hop => hc.qok.range _ _ _ hm hop⟩
  induction h with
  | init ht =>
    have hv := hc.ok.valid _ ht
    exact ⟨Nat.lt_of_lt_of_le hv.1 hle, hc.noInto _ ht, Nat.lt_of_lt_of_le hv.2.2 hle, .inl hv.2.1⟩
  | pop hr hop _ ih =>
    obtain ⟨h1, h2, h3, h4⟩ := rule _ hr
    exact ⟨by dsimp only; omega, ih.2.1, ih.2.2.1, .inr ⟨rfl, h1⟩⟩
  | swap hr hop _ ih =>
    obtain ⟨h1, h2, h3, h4⟩ := rule _ hr
    exact ⟨by dsimp only; omega, ih.2.1, ih.2.2.1, .inl (h3 (.inr hop))⟩
  | noop hr hop _ ih =>
    obtain ⟨h1, h2, h3, h4⟩ := rule _ hr
    exact ⟨by dsimp only; omega, ih.2.1, ih.2.2.1, .inl h2⟩
  | push1 hr hop _ ih =>
    obtain ⟨h1, h2, h3, h4⟩ := rule _ hr
    have := h4 hop
    exact ⟨by dsimp only; omega, by dsimp only; omega, this.2, .inl (h3 (.inl hop))⟩
  | push2 hr hop _ ih =>
    obtain ⟨h1, h2, h3, h4⟩ := rule _ hr
    exact ⟨(h4 hop).2, ih.2.1, ih.2.2.1, .inl h2⟩
  | eps _ _ ih1 ih2 =>
    refine ⟨ih1.1, ih2.2.1, ih2.2.2.1, ?_⟩
    rcases ih2.2.2.2 with h1 | h1
    · exact .inl h1
    · have := ih1.2.1
      have := h1.2
      dsimp only at *
      omega

/-- The traces of post* are in order. -/
structure PostTr (p : Pda W) (val : W → T) (a0 : Aut (Trace × T)) (qp : List ((Nat × Nat) × Nat)) (s : FPost T) : Prop where
  traced : Traced (FPostD p val a0 qp) (PostJW p val qp) (· ∈ keys a0.edges) s
  qpEq : s.x.qPrime = qp

omit [IsOrderedAddMonoid T] in
theorem PostTr.congr {s s' : FPost T} (h : PostTr p val a0 qp s) (h1 : s'.aut = s.aut) (h2 : s'.x.qPrime = s.x.qPrime) :
    PostTr p val a0 qp s' :=
  ⟨h.traced.congr (by rw [h1]), h2.trans h.qpEq⟩

omit [IsOrderedAddMonoid T] in
theorem PostTr.sound {s : FPost T} (h : PostTr p val a0 qp s) {u : Tr} {x : T} (hx : s.wt u = some x) : FPostD p val a0 qp u x := by
  obtain ⟨prem, h⟩ := h.traced
  exact h.sound u x hx

variable [OrderBot T]

/-- While `t` is processed, whose weight was `w` at the start. -/
def PostTrAt (p : Pda W) (val : W → T) (a0 : Aut (Trace × T)) (qp : List ((Nat × Nat) × Nat)) (t : Tr) (w : T) (s : FPost T) :
    Prop :=
  PostTr p val a0 qp s ∧ s.Bound t w

variable {t : Tr} {w : T}

omit [IsOrderedAddMonoid T] [AddCommMonoid T] [LinearOrder W] in
theorem fpostUpdate_less (n : Nat) (s : FPost T) (u : Tr) (x : T) (tr : Trace) {v : Tr} {y : T} (h : s.Bound v y) :
    (fpostUpdate n false s u x tr).1.Bound v y :=
  (fixUpdate_spec (fpostRel n) (fun t => decide (t.src < n)) s u x tr).1.less _ _ h

theorem PostTrAt.update (hB : NoPump (FPostD p val a0 qp)) {s : FPost T} (h : PostTrAt p val a0 qp t w s) {u : Tr} {x : T}
    {tr : Trace} (hd : FPostD p val a0 qp u x) (hj : PostJW p val qp (fun v y => FPostD p val a0 qp v y ∧ s.Bound v y) u tr x) :
    PostTrAt p val a0 qp t w (fpostUpdate p.size false s u x tr).1 := by
  refine ⟨⟨h.1.traced.update (postJ_ok p val a0 qp) hB _ _ hd hj, ?_⟩, fpostUpdate_less _ _ _ _ _ h.2⟩
  rw [← h.1.qpEq]
  unfold fpostUpdate fixUpdate
  split
  · split <;> rfl
  · split <;> rfl

theorem PostTrAt.rule (hc : PostCtx p a0 qp N) (hB : NoPump (FPostD p val a0 qp)) {s : FPost T}
    (h : PostTrAt p val a0 qp t w s) (ht : FPostD p val a0 qp t w) (hne : t.label ≠ epsilon)
    {id : Nat} {r : Rule W} {l : Labels} (hr : (p.st t.src).rules[id]? = some (r, l)) :
    PostTrAt p val a0 qp t w (fpostRule val p.size false t w s ((r, l), id)) := by
  have hv := fpostDer_valid hc ht
  have hlab : t.label < p.nLabels := by
    rcases hv.2.2.2 with h1 | h1
    · exact h1
    · exact absurd h1.1 hne
  unfold fpostRule
  by_cases hl : l.contains t.label = true
  · simp only [hl, Bool.not_true, Bool.false_eq_true, if_false]
    have hg : t.label ∈ p.expand l := (hc.wf.mem_expand (List.mem_of_getElem? hr) _).2 ⟨hl, hlab⟩
    have hhas := has_of_rule hr hg
    cases hop : r.op <;> simp only [hop]
    · unfold fpostPush
      simp only
      rw [h.1.qpEq]
      have a1 := h.update hB (FPostDer.push1 hhas hop ht) (.push1 hr hg hop)
      dsimp only at a1
      generalize hmq : qFind qp (r.to, r.opLabel) = m at *
      generalize (fpostUpdate p.size false s ⟨r.to, r.opLabel, m⟩ 0 (Trace.post t.src id t.label)).1 = s1 at *
      have d2 : FPostD p val a0 qp ⟨m, t.label, t.dst⟩ (w + val r.weight) := by
        rw [← hmq]
        exact FPostDer.push2 hhas hop ht
      have b1 := a1.update hB (tr := Trace.post t.src id t.label) d2 (by
        rw [← hmq]
        exact .push2 hr hg hop ⟨ht, a1.2⟩)
      have b2 := (fixUpdate_spec (fpostRel p.size) (fun t => decide (t.src < p.size)) s1 ⟨m, t.label, t.dst⟩
        (w + val r.weight) (Trace.post t.src id t.label)).2.1
      change (fpostUpdate p.size false s1 ⟨m, t.label, t.dst⟩ (w + val r.weight) (Trace.post t.src id t.label)).1.Bound _ _ at b2
      generalize fpostUpdate p.size false s1 ⟨m, t.label, t.dst⟩ (w + val r.weight) (Trace.post t.src id t.label) = u2 at *
      obtain ⟨s2, b⟩ := u2
      dsimp only at *
      cases b
      · simp only [Bool.false_eq_true, if_false]
        exact b1
      · simp only [if_true]
        refine (foldl_keep (fun s' => PostTrAt p val a0 qp t w s' ∧ s'.Bound ⟨m, t.label, t.dst⟩ (w + val r.weight))
          _ _ ?_ s2 ⟨b1, b2⟩).1
        intro s' f hf hs'
        obtain ⟨i1, i2⟩ := hs'
        unfold fpostRel2
        rcases hy : s'.wt ⟨f, epsilon, m⟩ with _ | y
        · exact ⟨⟨i1.1.congr rfl rfl, i1.2⟩, i2⟩
        · dsimp only
          refine ⟨i1.update hB (FPostDer.eps (i1.1.sound hy) d2) ?_, fpostUpdate_less _ _ _ _ _ i2⟩
          rw [add_comm]
          exact .eps ⟨i1.1.sound hy, FixSt.wt_bound hy⟩ ⟨d2, i2⟩
    · exact h.update hB (FPostDer.pop hhas hop ht) (.pop hr hg hop ⟨ht, h.2⟩)
    · exact h.update hB (FPostDer.swap hhas hop ht) (.swap hr hg hop ⟨ht, h.2⟩)
    · exact h.update hB (FPostDer.noop hhas hop ht) (.noop hr hg hop ⟨ht, h.2⟩)
  · have : (!l.contains t.label) = true := by simpa using hl
    simp only [this, if_true]
    exact h

/-- Processing a transition. -/
theorem PostTr.stepWith (hc : PostCtx p a0 qp N) (hB : NoPump (FPostD p val a0 qp)) {s : FPost T} (h : PostTr p val a0 qp s)
    (t : Tr) : PostTr p val a0 qp (fpostStepWith val p false s t) := by
  unfold fpostStepWith
  rcases hw : s.wt t with _ | w
  · exact h.congr rfl rfl
  · have ht := h.sound hw
    have h0 : PostTrAt p val a0 qp t w s := ⟨h, FixSt.wt_bound hw⟩
    dsimp only
    by_cases hne : t.label = epsilon
    · rw [if_neg (by simpa using hne)]
      refine (foldl_keep (PostTrAt p val a0 qp t w) _ _ ?_ _ h0).1
      intro s' u hu hs'
      unfold FPostX.rel1At at hu
      rw [List.mem_filter] at hu
      have husrc : u.src = t.dst := by simpa using hu.2
      unfold fpostRel1
      rcases hy : s'.wt u with _ | y
      · exact ⟨hs'.1.congr rfl rfl, hs'.2⟩
      · dsimp only
        have e1 : (⟨t.src, epsilon, t.dst⟩ : Tr) = t := by rw [← hne]
        have e2 : (⟨t.dst, u.label, u.dst⟩ : Tr) = u := by rw [← husrc]
        refine hs'.update hB (FPostDer.eps (m := t.dst) (by rw [e1]; exact ht) (by rw [e2]; exact hs'.1.sound hy)) ?_
        rw [add_comm]
        exact .eps (by rw [e1]; exact ⟨ht, hs'.2⟩) (by rw [e2]; exact ⟨hs'.1.sound hy, FixSt.wt_bound hy⟩)
    · rw [if_pos hne]
      refine (foldl_keep (PostTrAt p val a0 qp t w) _ _ ?_ _ h0).1
      rintro s' ⟨⟨r, l⟩, id⟩ hy hs'
      have hr : (p.st t.src).rules[id]? = some (r, l) := by
        have := List.mem_zipIdx_iff_getElem?.1 hy
        simpa using this
      exact hs'.rule hc hB ht hne hr

/-- A step of the loop. -/
theorem PostTr.step (hc : PostCtx p a0 qp N) (hB : NoPump (FPostD p val a0 qp)) {s : FPost T} (h : PostTr p val a0 qp s) :
    PostTr p val a0 qp (fixStep (fpostStepWith val p) false s) :=
  fixStep_keep (PostTr p val a0 qp) _ _ (fun s s' h1 h2 _ h => h.congr h1 (by rw [h2]))
    (fun s t h => h.stepWith hc hB t) s h

omit [OrderBot T] [IsOrderedAddMonoid T] in
/-- At the start. -/
theorem PostTr.start (h0 : ∀ e ∈ a0.edges, e.2.2 = (Trace.null, 0)) (h : HashOrder) :
    PostTr p val a0 (fpostQ p a0) (fpostInit h p a0) := by
  unfold fpostInit
  dsimp only
  have haut : ∀ (l : List Tr) (s : FPost T), (l.foldl (fpostInitEdge p.size) s).aut = s.aut ∧
      (l.foldl (fpostInitEdge p.size) s).x.qPrime = s.x.qPrime := by
    intro l
    induction l with
    | nil => exact fun s => ⟨rfl, rfl⟩
    | cons t l ih =>
      intro s
      rw [List.foldl_cons, (ih _).1, (ih _).2]
      unfold fpostInitEdge fpostRel
      split <;> exact ⟨rfl, rfl⟩
  refine PostTr.congr (s := ({ aut := { acc := (qInit p ({ acc := a0.acc } : Aut W)).1.acc, edges := a0.edges }, x := { nQ := a0.n, qPrime := (qInit p ({ acc := a0.acc } : Aut W)).2 } } : FPost T)) ?_ (haut _ _).1 (haut _ _).2
  refine ⟨Traced.start ?_ ?_, rfl⟩
  · intro t tr1 tr2 w hg
    have hm := mem_of_getEdge hg
    have := h0 _ hm
    dsimp only at this
    cases this
    exact ⟨List.mem_map_of_mem hm, rfl, rfl⟩
  · exact fun t ht => FPostDer.init ht

/-- A state added for a PUSH rule is reached with weight 0. -/
def PostReady (p : Pda W) (qp : List ((Nat × Nat) × Nat)) (s : FPost T) : Prop :=
  ∀ e ∈ keys s.aut.edges, ∀ (i : Nat) (r : Rule W) (l : Labels), (r, l) ∈ (p.st i).rules → r.op = .push →
    e.dst = qFind qp (r.to, r.opLabel) → s.Bound ⟨r.to, r.opLabel, qFind qp (r.to, r.opLabel)⟩ 0

/-- The invariant of the loop. -/
structure FPostT (p : Pda W) (val : W → T) (a0 : Aut (Trace × T)) (s : FPost T) : Prop extends FPostH p val a0 s where
  tr : PostTr p val a0 (fpostQ p a0) s
  ready : PostReady p (fpostQ p a0) s

theorem FPostT.step (hc : PostCtx p a0 (fpostQ p a0) (fpostN p a0)) (hB : NoPump (FPostD p val a0 (fpostQ p a0))) {s : FPost T}
    (hs : FPostT p val a0 s) (hd : s.isDone = false) : FPostT p val a0 (fixStep (fpostStepWith val p) false s) := by
  have h1 := hs.toFPostH.step hc hB hd
  refine ⟨h1, hs.tr.step hc hB, ?_⟩
  rcases fixStep_split (fpostStepWith val p) false s with ⟨k1, k2, k3⟩ | hne
  · rw [k3]
    exact hs.ready
  · cases hdone : (fixStep (fpostStepWith val p) false s).done with
    | false =>
      obtain ⟨g, _, m2⟩ := h1.hist hdone
      exact fun e he i r l hm hop hdst => m2.ready e he i r l hm hop (.inr hdst)
    | true =>
      exfalso
      unfold FixSt.isDone at hd
      rw [Bool.or_eq_false_iff] at hd
      have hfr : ∀ (s0 : FPost T) (t : Tr), s0.done = s.done → (fpostStepWith val p false s0 t).done = false := by
        intro s0 t e
        rw [(fpostStepWith_frame (val := val) hc false s0 t).2.2.1, e]
        exact hd.1
      rcases hne with ⟨t, ws, _, _, _, k3⟩ | ⟨t, ws, _, _, k3⟩
      · have e := hfr { s with rounds := s.rounds + 1, workset := ws, next := [] } t rfl
        rw [k3, e] at hdone
        cases hdone
      · have e := hfr { s with workset := ws } t rfl
        rw [k3, e] at hdone
        cases hdone

theorem fpostInit_traced (hc : PostCtx p a0 (fpostQ p a0) (fpostN p a0)) (h0 : ∀ e ∈ a0.edges, e.2.2 = (Trace.null, 0))
    (h : HashOrder) : FPostT p val a0 (fpostInit h p a0) := by
  have h1 := fpostInit_hist (val := val) hc h
  refine ⟨h1, PostTr.start h0 h, ?_⟩
  obtain ⟨g, _, m2⟩ := h1.hist (fpostInit_inv (val := val) h hc).2.2
  exact fun e he i r l hm hop hdst => m2.ready e he i r l hm hop (.inr hdst)

/-- The order of the traces when nothing waits. -/
theorem FPostT.built (hc : PostCtx p a0 (fpostQ p a0) (fpostN p a0)) {s : FPost T} (hs : FPostT p val a0 s)
    (h1 : s.workset = []) (h2 : s.next = []) :
    ∃ E0 L : List (AEdge T), BuiltW (PostJW p val (fpostQ p a0)) E0 L ∧ (keys E0).Nodup ∧
      (∀ e ∈ E0, e.1 ∈ keys a0.edges ∧ e.2.1 = Trace.null ∧ e.2.2 = 0) ∧
      (∀ e ∈ L, ∃ tr1, s.aut.getEdge e.1 = some (tr1, e.2.1, e.2.2)) ∧ ∀ t ∈ keys s.aut.edges, t ∈ keys L := by
  have hq : ∀ t, ¬ s.Queued t := by
    intro t ht
    unfold FixSt.Queued at ht
    rw [h1, h2] at ht
    simp at ht
  have hlab := hc.lab
  refine hs.tr.traced.built (postJ_ok p val a0 _) ?_
  have fin : ∀ {t : Tr} {x w : T}, s.wt t = some x → s.Bound t w → x ≤ w := by
    rintro t x w hx ⟨y, hy, hyw⟩
    rw [hx] at hy
    cases hy
    exact hyw
  have done : ∀ {a g q id : Nat} {r : Rule W} {l : Labels} {x : T}, (p.st a).rules[id]? = some (r, l) → g ∈ p.expand l →
      s.wt ⟨a, g, q⟩ = some x → FPostDone val (fpostQ p a0) s r ⟨a, g, q⟩ x := by
    intro a g q id r l x k1 k2 k3
    have hg := (hc.wf.mem_expand (List.mem_of_getElem? k1) _).1 k2
    exact hs.ruleC _ _ k3 (Pda.lt_size_of_rule k1) (by have := hg.2; dsimp only; omega) (hq _) id r l k1 hg.1
  intro t tr w x hj hx
  refine fin hx ?_
  cases hj with
  | pop k1 k2 k3 k4 =>
    have := done k1 k2 k4
    unfold FPostDone at this
    rw [k3] at this
    exact this
  | swap k1 k2 k3 k4 =>
    have := done k1 k2 k4
    unfold FPostDone at this
    rw [k3] at this
    exact this
  | noop k1 k2 k3 k4 =>
    have := done k1 k2 k4
    unfold FPostDone at this
    rw [k3] at this
    exact this
  | push1 k1 k2 k3 => exact hs.ready _ (s.wt_some hx) _ _ _ (List.mem_of_getElem? k1) k3 rfl
  | push2 k1 k2 k3 k4 =>
    have := done k1 k2 k4
    unfold FPostDone at this
    rw [k3] at this
    exact this.2
  | eps k1 k2 =>
    rw [add_comm]
    exact hs.epsC _ _ _ _ _ _ k1 (hq _) k2 (fun hf => hf)

omit [LinearOrder T] [IsOrderedAddMonoid T] [OrderBot T] in
/-- The trace of an accepting path. -/
theorem postLast_trace (hc : PostCtx p a0 qp N) (hl : p.nLabels < epsilon) (hN : N ≤ sizeMax)
    {A : Aut (Trace × T)} (hA : ∀ t ∈ keys A.edges, PValid p N t) (hacc : ∀ q, A.isAcc q = a0.isAcc q)
    {E0 L : List (AEdge T)} (hb : BuiltW (PostJW p val qp) E0 L)
    (hE0 : ∀ e ∈ E0, e.1 ∈ keys a0.edges ∧ e.2.1 = Trace.null ∧ e.2.2 = 0) (hn : (keys E0).Nodup)
    (hh : ∀ e ∈ L, ∃ tr1, A.getEdge e.1 = some (tr1, e.2.1, e.2.2)) (hall : ∀ t ∈ keys A.edges, t ∈ keys L)
    (path : APath Nat) (hE : ∀ t ∈ path.trs, t ∈ keys A.edges) (hfr : path.frontState < p.size) (hfin : A.isAcc path.fin = true) :
    ∃ cs c', getTrace p A.lastTraces path = some cs ∧ CostTrace p.Has val cs (sumW A.lastTraces path.trs) ∧
      cs.head? = some c' ∧ c'.1 < p.size ∧ Accepted (· ∈ keys a0.edges) (fun q => a0.isAcc q = true) c' ∧
      cs.getLast? = some (confE path) := by
  have hLA : ∀ t ∈ keys L, t ∈ keys A.edges := by
    intro t ht
    obtain ⟨e, he, rfl⟩ := List.mem_map.1 ht
    obtain ⟨tr1, hg⟩ := hh e he
    exact List.mem_map_of_mem (mem_of_getEdge hg)
  have hkE0 : ∀ t ∈ keys E0, t ∈ keys a0.edges := by
    intro t ht
    obtain ⟨e, he, rfl⟩ := List.mem_map.1 ht
    exact (hE0 e he).1
  have hv : ∀ t ∈ keys L, PValid p N t := fun t ht => hA t (hLA t ht)
  have hfin' : a0.isAcc path.fin = true := (hacc _).symm.trans hfin
  have hlt := Aut.isAcc_lt hfin'
  have hold := holds_last hh
  have hround := postTBW_round hc.wf hb hold hc.ok.size_le (fun t ht => hc.ok.valid t (hkE0 t ht))
    (fun t ht => hc.noInto t (hkE0 t ht)) hv hc.qok hl hN (fun e he => (hE0 e he).2.1) path.fin hlt
  have hdec : ∀ tb, PostTBW p L path.fin tb → decodeEdges p tb.path = (confE tb.path, sumW A.lastTraces tb.path.trs).1 := by
    intro tb htb
    unfold decodeEdges confE
    congr 1
    apply List.filter_congr
    intro g hg
    have := Props.trs_labels (P := fun g => g < p.nLabels ∨ g = epsilon)
      (fun t ht => by
        rcases (hv t (htb.edges t ht)).2.2.2 with h1 | h1
        · exact .inl h1
        · exact .inr h1.1) g hg
    rw [decide_eq_decide]
    omega
  have hE' : ∀ t ∈ path.trs, t ∈ keys L := fun t ht => hall t (hE t ht)
  have hm := fuel_last (hb.nodup hn) hh hE'
  have hi0 : PostTBW p L path.fin ⟨path, false⟩ := ⟨hE', hfr, rfl⟩
  obtain ⟨rs, cs, tb', h1, h2, h3, h4, h5, h6⟩ := tbAll_specC Prod.fst hround hdec _ _ ⟨path, false⟩ hi0 hm hm
  obtain ⟨x, h7, h8, h9⟩ := h5.costTrace_rev
  dsimp only at h8 h9
  have hz : sumW A.lastTraces tb'.path.trs = 0 := sumW_zero _ _ fun t ht => by
    obtain ⟨⟨t, tr, y⟩, he, rfl⟩ := List.mem_map.1 (h4 t ht)
    have := (hE0 _ he).2.2
    dsimp only at this
    subst this
    exact hold.wt (hb.suffix.subset he)
  rw [hz, zero_add] at h8
  subst h8
  have heps : ∀ g ∈ tb'.path.stack, g ≠ epsilon := by
    refine Props.trs_labels (P := fun g => g ≠ epsilon) fun t ht => ?_
    have := (hc.ok.valid t (hkE0 t (h4 t ht))).2.1
    omega
  have hce : confE tb'.path = (tb'.path.frontState, tb'.path.stack) := by
    unfold confE
    congr 1
    rw [List.filter_eq_self]
    intro g hg
    simpa using heps g hg
  have hnn : path.isNull = false := by
    have := hc.le
    unfold APath.isNull
    rw [beq_eq_false_iff_ne]
    omega
  refine ⟨_, _, ?_, h7, h9, ?_, ?_, ?_⟩
  · unfold getTrace
    rw [h2, hnn]
    simp only [Bool.false_eq_true, if_false, Option.map_some]
    rw [hdec ⟨path, false⟩ hi0]
    rcases h6 with ⟨rfl, h6⟩ | ⟨_, h6⟩
    · have hcs : cs = [] := by
        generalize (confE path, sumW A.lastTraces path.trs) = c at h5
        generalize (confE tb'.path, sumW A.lastTraces tb'.path.trs) = c' at h5
        cases h5
        rfl
      simp [hcs, h6]
    · simp [h6]
  · rw [hce]; exact h3.front
  · rw [hce]
    refine ⟨tb'.path.fin, ?_, by rw [h3.fin]; exact hfin'⟩
    exact ((trs_spells (· ∈ keys a0.edges) tb'.path.fin tb'.path.edges).2 fun t ht => hkE0 t (h4 t ht)).path
      tb'.path.head_states tb'.path.last_states
  · simp

end

end Verif
