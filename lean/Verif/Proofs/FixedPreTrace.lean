import Verif.Proofs.FixedTrace
import Verif.Proofs.FixedPreRounds
import Verif.Proofs.WeightedTraceBack
import Verif.Model.FixedProduct

/-! # Fixed-point pre*: the last traces -/

namespace Verif

variable {W T : Type}

section
variable [LinearOrder W] [LinearOrder T] [AddCommMonoid T] [IsOrderedAddMonoid T]
  {p : Pda W} {val : W → T} {a0 : Aut (Trace × T)}

/-- The reasons of pre* are of the required form. -/
theorem preJ_ok (p : Pda W) (val : W → T) (a0 : Aut (Trace × T)) : JOK (FPreD p val a0) (PreJW p val) := by
  refine ⟨?_, ?_, fun P Q h t tr w hj => PreJW.mono p val P Q h t tr w hj⟩
  · intro P Q h t tr w hj
    cases hj with
    | pop h1 h2 h3 => exact ⟨_, le_rfl, .pop h1 h2 h3⟩
    | swap h1 h2 h3 h4 =>
      obtain ⟨x', k1, k2⟩ := h _ _ h4
      exact ⟨_, add_le_add le_rfl k1, .swap h1 h2 h3 k2⟩
    | noop h1 h2 h3 h4 =>
      obtain ⟨x', k1, k2⟩ := h _ _ h4
      exact ⟨_, add_le_add le_rfl k1, .noop h1 h2 h3 k2⟩
    | push h1 h2 h3 h4 h5 =>
      obtain ⟨x', k1, k2⟩ := h _ _ h4
      obtain ⟨y', k3, k4⟩ := h _ _ h5
      exact ⟨_, add_le_add le_rfl (add_le_add k1 k3), .push h1 h2 h3 k2 k4⟩
  · intro P hP t tr w hj
    cases hj with
    | pop h1 h2 h3 => exact ⟨[], .pop h1 h2 h3, fun _ _ hu => by cases hu⟩
    | @swap a g q id r l x h1 h2 h3 h4 =>
      refine ⟨[(⟨r.to, r.opLabel, q⟩, x)], .swap h1 h2 h3 (List.mem_singleton.2 rfl), ?_⟩
      intro u y hu
      cases List.mem_singleton.1 hu
      exact ⟨h4, val r.weight, rfl, fun y hy => PreDer.swap (has_of_rule h1 h2) h3 hy⟩
    | @noop a g q id r l x h1 h2 h3 h4 =>
      refine ⟨[(⟨r.to, g, q⟩, x)], .noop h1 h2 h3 (List.mem_singleton.2 rfl), ?_⟩
      intro u y hu
      cases List.mem_singleton.1 hu
      exact ⟨h4, val r.weight, rfl, fun y hy => PreDer.noop (has_of_rule h1 h2) h3 hy⟩
    | @push a g q m id r l x y h1 h2 h3 h4 h5 =>
      refine ⟨[(⟨r.to, r.opLabel, m⟩, x), (⟨m, g, q⟩, y)], .push h1 h2 h3 (List.mem_cons_self ..)
        (List.mem_cons_of_mem _ (List.mem_singleton.2 rfl)), ?_⟩
      intro u z hu
      rcases List.mem_cons.1 hu with hu | hu
      · cases hu
        refine ⟨h4, val r.weight + y, by rw [add_assoc, add_comm y x], fun z hz => ?_⟩
        rw [add_right_comm]
        exact PreDer.push (has_of_rule h1 h2) h3 hz (hP _ _ h5)
      · cases List.mem_singleton.1 hu
        refine ⟨h5, val r.weight + x, by rw [add_assoc], fun z hz => ?_⟩
        exact PreDer.push (has_of_rule h1 h2) h3 (hP _ _ h4) hz

omit [IsOrderedAddMonoid T] [LinearOrder T] in
/-- Derived transitions are in range. -/
theorem preDer_valid (hp : p.WF) (ha : p.size ≤ a0.n) (hv : ∀ t ∈ keys a0.edges, Valid p a0.n t) {t : Tr} {x : T}
    (h : PreDer p.Has val (· ∈ keys a0.edges) t x) : Valid p a0.n t := by
  have rule : ∀ r, p.Has r → r.src < p.size ∧ r.pre < p.nLabels ∧ r.dst < p.size := by
    intro r hr
    rw [Pda.Has_iff] at hr
    obtain ⟨l, hm, hg⟩ := hr
    obtain ⟨id, hid⟩ := List.mem_iff_getElem?.1 hm
    exact ⟨Pda.lt_size_of_rule hid, ((hp.mem_expand hm r.pre).1 hg).2, hp.toLt _ _ hm⟩
  induction h with
  | init ht => exact hv _ ht
  | pop hr _ =>
    obtain ⟨h1, h2, h3⟩ := rule _ hr
    exact ⟨Nat.lt_of_lt_of_le h1 ha, h2, Nat.lt_of_lt_of_le h3 ha⟩
  | swap hr _ _ ih =>
    obtain ⟨h1, h2, h3⟩ := rule _ hr
    exact ⟨Nat.lt_of_lt_of_le h1 ha, h2, ih.2.2⟩
  | noop hr _ _ ih =>
    obtain ⟨h1, h2, h3⟩ := rule _ hr
    exact ⟨Nat.lt_of_lt_of_le h1 ha, h2, ih.2.2⟩
  | push hr _ _ _ _ ih =>
    obtain ⟨h1, h2, h3⟩ := rule _ hr
    exact ⟨Nat.lt_of_lt_of_le h1 ha, h2, ih.2.2⟩

/-- The traces of pre* are in order, and `_delta_prime` refers to PUSH rules. -/
structure PreTr (p : Pda W) (val : W → T) (a0 : Aut (Trace × T)) (s : FPre T) : Prop where
  traced : Traced (FPreD p val a0) (PreJW p val) (· ∈ keys a0.edges) s
  dp : ∀ q st id, (q, st, id) ∈ s.x.dp → ∃ r l, (p.st st).rules[id]? = some (r, l) ∧ r.op = .push

omit [IsOrderedAddMonoid T] in
theorem PreTr.congr {s s' : FPre T} (h : PreTr p val a0 s) (h1 : s'.aut = s.aut) (h2 : s'.x.dp = s.x.dp) : PreTr p val a0 s' :=
  ⟨h.traced.congr (by rw [h1]), by rw [h2]; exact h.dp⟩

omit [IsOrderedAddMonoid T] in
theorem PreTr.sound {s : FPre T} (h : PreTr p val a0 s) {u : Tr} {x : T} (hx : s.wt u = some x) : FPreD p val a0 u x := by
  obtain ⟨prem, h⟩ := h.traced
  exact h.sound u x hx

variable [OrderBot T]

theorem PreTr.update (hB : NoPump (FPreD p val a0)) {s : FPre T} (h : PreTr p val a0 s) {u : Tr} {x : T} {tr : Trace}
    (hd : FPreD p val a0 u x) (hj : PreJW p val (fun v y => FPreD p val a0 v y ∧ s.Bound v y) u tr x) :
    PreTr p val a0 (fpreUpdate false s u x tr) := by
  refine ⟨h.traced.update (preJ_ok p val a0) hB _ _ hd hj, ?_⟩
  have : (fpreUpdate false s u x tr).x.dp = s.x.dp := by
    unfold fpreUpdate fixUpdate
    split
    · split <;> rfl
    · split <;> rfl
  rw [this]
  exact h.dp

/-- While `t` is processed, whose weight was `w` at the start. -/
def PreTrAt (p : Pda W) (val : W → T) (a0 : Aut (Trace × T)) (t : Tr) (w : T) (s : FPre T) : Prop :=
  PreTr p val a0 s ∧ s.Bound t w

variable {t : Tr} {w : T}

theorem PreTrAt.update (hB : NoPump (FPreD p val a0)) {s : FPre T} (h : PreTrAt p val a0 t w s) {u : Tr} {x : T} {tr : Trace}
    (hd : FPreD p val a0 u x) (hj : PreJW p val (fun v y => FPreD p val a0 v y ∧ s.Bound v y) u tr x) :
    PreTrAt p val a0 t w (fpreUpdate false s u x tr) :=
  ⟨h.1.update hB hd hj, (fixUpdate_spec (fun (x : FPreX) t => { x with rel := x.rel ++ [t] }) (fun _ => true) s u x tr).1.less
    _ _ h.2⟩

omit [IsOrderedAddMonoid T] in
theorem PreTrAt.bulk {s : FPre T} (h : PreTrAt p val a0 t w s) {src : Nat} {l : Labels} {dst : Nat} {x : T} (tr : Trace)
    (hu : ∀ s', PreTrAt p val a0 t w s' → ∀ g ∈ p.expand l, PreTrAt p val a0 t w (fpreUpdate false s' ⟨src, g, dst⟩ x tr)) :
    PreTrAt p val a0 t w (fpreBulk p false s src l dst x tr) := by
  unfold fpreBulk
  exact foldl_keep (PreTrAt p val a0 t w) _ _ (fun s' g hg hs' => hu s' hs' g hg) s h

variable [Zero W]

omit [Zero W] in
theorem PreTrAt.delta (hp : p.WF) (hB : NoPump (FPreD p val a0)) {s : FPre T} (h : PreTrAt p val a0 t w s)
    (ht : FPreD p val a0 t w) (hv : Valid p a0.n t) (d : Nat × Nat)
    (hdp : ∃ r l, (p.st d.1).rules[d.2]? = some (r, l) ∧ r.op = .push) :
    PreTrAt p val a0 t w (fpreDelta val p false t w s d) := by
  obtain ⟨r, l, hr, hop⟩ := hdp
  unfold fpreDelta
  simp only [hr]
  by_cases hc : l.contains t.label = true
  · rw [if_pos hc]
    rcases hy : s.wt ⟨r.to, r.opLabel, t.src⟩ with _ | y
    · exact ⟨h.1.congr rfl rfl, h.2⟩
    · have hg : t.label ∈ p.expand l := (hp.mem_expand (List.mem_of_getElem? hr) _).2 ⟨hc, hv.2.1⟩
      have hj := PreJW.push (val := val) (P := fun v y => FPreD p val a0 v y ∧ s.Bound v y) (q := t.dst) hr hg hop
        ⟨h.1.sound hy, FixSt.wt_bound hy⟩ ⟨ht, h.2⟩
      rw [← add_assoc] at hj
      exact h.update hB (PreDer.push (has_of_rule hr hg) hop (h.1.sound hy) ht) hj
  · rw [if_neg hc]; exact h

omit [Zero W] in
theorem PreTrAt.rel (hp : p.WF) (ha : p.size ≤ a0.n) (hva : ∀ t ∈ keys a0.edges, Valid p a0.n t) (hB : NoPump (FPreD p val a0))
    {s : FPre T} (h : PreTrAt p val a0 t w s) (ht : FPreD p val a0 t w) {pre id : Nat} {r : Rule W} {l : Labels}
    (hr : (p.st pre).rules[id]? = some (r, l)) (hop : r.op = .push) (hto : r.to = t.src) (hl : r.opLabel = t.label)
    (u : Tr) (hsrc : u.src = t.dst) : PreTrAt p val a0 t w (fpreRel false t pre id l (val r.weight + w) s u) := by
  unfold fpreRel
  by_cases hc : l.contains u.label = true
  · rw [if_pos hc]
    rcases hy : s.wt u with _ | y
    · exact ⟨h.1.congr rfl rfl, h.2⟩
    · have hv := preDer_valid hp ha hva (h.1.sound hy)
      have hg : u.label ∈ p.expand l := (hp.mem_expand (List.mem_of_getElem? hr) _).2 ⟨hc, hv.2.1⟩
      have e1 : (⟨r.to, r.opLabel, t.dst⟩ : Tr) = t := by rw [hto, hl]
      have e2 : (⟨t.dst, u.label, u.dst⟩ : Tr) = u := by rw [← hsrc]
      have hj := PreJW.push (val := val) (P := fun v y => FPreD p val a0 v y ∧ s.Bound v y) (q := u.dst) (m := t.dst) hr hg hop
        (x := w) (y := y) (by rw [e1]; exact ⟨ht, h.2⟩) (by rw [e2]; exact ⟨h.1.sound hy, FixSt.wt_bound hy⟩)
      rw [← add_assoc] at hj
      exact h.update hB (PreDer.push (has_of_rule hr hg) hop (m := t.dst) (by dsimp only; rw [e1]; exact ht)
        (by dsimp only; rw [e2]; exact h.1.sound hy)) hj
  · rw [if_neg hc]; exact h

omit [Zero W] in
theorem PreTrAt.rule (hp : p.WF) (ha : p.size ≤ a0.n) (hva : ∀ t ∈ keys a0.edges, Valid p a0.n t) (hB : NoPump (FPreD p val a0))
    {s : FPre T} (h : PreTrAt p val a0 t w s) (ht : FPreD p val a0 t w) (hv : Valid p a0.n t)
    {pre id : Nat} {r : Rule W} {l : Labels} (hr : (p.st pre).rules[id]? = some (r, l)) (hto : r.to = t.src) :
    PreTrAt p val a0 t w (fpreRule val p false t w pre s (id, r, l)) := by
  unfold fpreRule
  cases hop : r.op <;> simp only [hop]
  · -- push
    by_cases hl : r.opLabel = t.label
    · rw [if_pos hl]
      refine foldl_keep (PreTrAt p val a0 t w) _ _ ?_ _ ?_
      · intro s' u hu hs'
        unfold FPreX.relAt at hu
        rw [List.mem_filter] at hu
        exact hs'.rel hp ha hva hB ht hr hop hto hl u (by simpa using hu.2)
      · refine ⟨⟨h.1.traced.congr rfl, ?_⟩, h.2⟩
        intro q st id' hm
        dsimp only at hm
        split at hm
        · exact h.1.dp q st id' hm
        · rw [(insertBy_perm dpLt (t.dst, pre, id) s.x.dp).mem_iff, List.mem_cons] at hm
          rcases hm with hm | hm
          · cases hm; exact ⟨r, l, hr, hop⟩
          · exact h.1.dp q st id' hm
    · rw [if_neg hl]; exact h
  · -- pop
    by_cases hpop : s.x.popped.contains t.src = true
    · rw [if_pos hpop]; exact h
    · rw [if_neg hpop, ← hto]
      exact h.bulk _ fun s' hs' g hg => hs'.update hB (PreDer.pop (has_of_rule hr hg) hop) (.pop hr hg hop)
  · -- swap
    by_cases hl : r.opLabel = t.label
    · rw [if_pos hl]
      have e : (⟨r.to, r.opLabel, t.dst⟩ : Tr) = t := by rw [hto, hl]
      exact h.bulk _ fun s' hs' g hg => hs'.update hB
        (PreDer.swap (has_of_rule hr hg) hop (by dsimp only; rw [e]; exact ht))
        (.swap hr hg hop (by rw [e]; exact ⟨ht, hs'.2⟩))
    · rw [if_neg hl]; exact h
  · -- noop
    by_cases hc : l.contains t.label = true
    · rw [if_pos hc]
      have hg : t.label ∈ p.expand l := (hp.mem_expand (List.mem_of_getElem? hr) _).2 ⟨hc, hv.2.1⟩
      have e : (⟨r.to, t.label, t.dst⟩ : Tr) = t := by rw [hto]
      exact h.update hB (PreDer.noop (has_of_rule hr hg) hop (by dsimp only; rw [e]; exact ht))
        (.noop hr hg hop (by rw [e]; exact ⟨ht, h.2⟩))
    · rw [if_neg hc]; exact h

/-- Processing a transition. -/
theorem PreTr.stepWith (hp : p.WF) (ha : p.size ≤ a0.n) (hva : ∀ t ∈ keys a0.edges, Valid p a0.n t)
    (hB : NoPump (FPreD p val a0)) {s : FPre T} (h : PreTr p val a0 s) (t : Tr) :
    PreTr p val a0 (fpreStepWith val p false s t) := by
  unfold fpreStepWith
  rcases hw : s.wt t with _ | w
  · exact h.congr rfl rfl
  · have ht := h.sound hw
    have hv := preDer_valid hp ha hva ht
    dsimp only
    unfold fpreBody
    have h2 : PreTrAt p val a0 t w ((s.x.dpAt t.src).foldl (fpreDelta val p false t w) s) := by
      refine foldl_keep (PreTrAt p val a0 t w) _ _ ?_ _ ⟨h, FixSt.wt_bound hw⟩
      intro s1 d hd hs1
      unfold FPreX.dpAt at hd
      rw [List.mem_map] at hd
      obtain ⟨⟨q, st, id⟩, hd1, rfl⟩ := hd
      rw [List.mem_filter] at hd1
      exact hs1.delta hp hB ht hv _ (h.dp q st id hd1.1)
    generalize (s.x.dpAt t.src).foldl (fpreDelta val p false t w) s = s1 at h2
    by_cases hsz : t.src ≥ p.size
    · rw [if_pos hsz]; exact h2.1
    · rw [if_neg hsz, foldl_into]
      have h3 : PreTrAt p val a0 t w
          (((p.st t.src).preStates.flatMap fun pre => (p.rulesInto pre t.src).flatMap fun y => [(pre, y)]).foldl
            (fun s z => fpreRule val p false t w z.1 s z.2) s1) := by
        refine foldl_keep (PreTrAt p val a0 t w) _ _ ?_ _ h2
        rintro s' ⟨pre, id, r, l⟩ hz hs'
        have hz' := (mem_into hp t.src (fun pre y => [(pre, y)]) _).1 hz
        simp only [List.mem_singleton, Prod.mk.injEq] at hz'
        obtain ⟨_, _, _, _, k1, k2, k3, rfl, rfl, rfl, rfl⟩ := hz'
        exact hs'.rule hp ha hva hB ht hv k1 k2
      exact h3.1.congr rfl rfl

/-- A step of the loop. -/
theorem PreTr.step (hp : p.WF) (ha : p.size ≤ a0.n) (hva : ∀ t ∈ keys a0.edges, Valid p a0.n t)
    (hB : NoPump (FPreD p val a0)) {s : FPre T} (h : PreTr p val a0 s) :
    PreTr p val a0 (fixStep (fpreStepWith val p) false s) :=
  fixStep_keep (PreTr p val a0) _ _ (fun s s' h1 h2 _ h => h.congr h1 (by rw [h2]))
    (fun s t h => h.stepWith hp ha hva hB t) s h

/-- At the start. -/
theorem PreTr.start (hp : p.WF) (hB : NoPump (FPreD p val a0)) (hn : (keys a0.edges).Nodup)
    (h0 : ∀ e ∈ a0.edges, e.2.2 = (Trace.null, 0)) (h : HashOrder) : PreTr p val a0 (fpreInit val h p a0) := by
  unfold fpreInit
  dsimp only
  obtain ⟨e1, _, e3, _⟩ := fpreInitEdges ((List.range a0.n).flatMap fun i => a0.out h i) ({ aut := a0, x := {} } : FPre T)
  generalize ((List.range a0.n).flatMap fun i => a0.out h i).foldl fpreInitEdge ({ aut := a0, x := {} } : FPre T) = s0 at e1 e3
  refine PreTr.congr (s := (List.range a0.n).foldl (fun s i => if s.aut.isAcc i then fpreAddPop val p s i else s) s0) ?_ rfl rfl
  refine foldl_keep (PreTr p val a0) _ _ ?_ s0 ⟨Traced.start ?_ ?_, ?_⟩
  · intro s i _ hs
    split
    · unfold fpreAddPop
      split
      · exact hs
      · split
        · exact hs
        · rw [foldl_into]
          refine foldl_keep (PreTr p val a0) _ _ ?_ _ (hs.congr rfl rfl)
          rintro s' ⟨pre, id, r, l⟩ hz hs'
          have hz' := (mem_into hp i (fun pre y => [(pre, y)]) _).1 hz
          simp only [List.mem_singleton, Prod.mk.injEq] at hz'
          obtain ⟨_, _, _, _, k1, k2, k3, rfl, rfl, rfl, rfl⟩ := hz'
          unfold fpreAddPopRule
          split
          · rename_i hop
            unfold fpreBulk
            refine foldl_keep (PreTr p val a0) _ _ ?_ _ hs'
            intro s2 g hg hs2
            subst k2
            exact hs2.update hB (PreDer.pop (has_of_rule k1 hg) hop) (.pop k1 hg hop)
          · exact hs'
    · exact hs
  · intro t tr1 tr2 w hg
    rw [e1] at hg
    have hm := mem_of_getEdge hg
    have := h0 _ hm
    dsimp only at this
    cases this
    exact ⟨List.mem_map_of_mem hm, rfl, rfl⟩
  · exact fun t ht => PreDer.init ht
  · intro q st id hm
    rw [e3] at hm
    cases hm

/-- The order of the traces when nothing waits. -/
theorem PreTr.built (hp : p.WF) (hk : p.LookupOK) {s : FPre T} (h : PreTr p val a0 s) (hs : FPreR p val a0 s)
    (h1 : s.workset = []) (h2 : s.next = []) :
    ∃ E0 L : List (AEdge T), BuiltW (PreJW p val) E0 L ∧ (keys E0).Nodup ∧
      (∀ e ∈ E0, e.1 ∈ keys a0.edges ∧ e.2.1 = Trace.null ∧ e.2.2 = 0) ∧
      (∀ e ∈ L, ∃ tr1, s.aut.getEdge e.1 = some (tr1, e.2.1, e.2.2)) ∧ ∀ t ∈ keys s.aut.edges, t ∈ keys L := by
  have hq : ∀ t, ¬ s.Queued t := by
    intro t ht
    unfold FixSt.Queued at ht
    rw [h1, h2] at ht
    simp at ht
  refine h.traced.built (preJ_ok p val a0) ?_
  have fin : ∀ {t : Tr} {x w : T}, s.wt t = some x → s.Bound t w → x ≤ w := by
    rintro t x w hx ⟨y, hy, hyw⟩
    rw [hx] at hy
    cases hy
    exact hyw
  intro t tr w x hj hx
  refine fin hx ?_
  cases hj with
  | @pop a g id r l k1 k2 k3 =>
    have hto : r.to < p.size := hp.toLt _ _ (List.mem_of_getElem? k1)
    exact hs.popC r.to (hs.into _ (s.wt_some hx) hto) a id r l k1 rfl k3 g k2
  | swap k1 k2 k3 k4 => exact hs.swapC _ _ k4 (hq _) _ _ _ _ k1 rfl k3 rfl _ k2
  | noop k1 k2 k3 k4 => exact hs.noopC _ _ k4 (hq _) _ _ _ _ k1 rfl k3 ((hp.mem_expand (List.mem_of_getElem? k1) _).1 k2).1
  | push k1 k2 k3 k4 k5 =>
    rw [← add_assoc]
    exact hs.pushC _ _ _ _ k4 k5 (hq _) (hq _) rfl _ _ _ _ k1 rfl k3 rfl (hk.missed (List.mem_of_getElem? k1))
      ((hp.mem_expand (List.mem_of_getElem? k1) _).1 k2).1

/-- The invariant of the loop. -/
structure FPreT (p : Pda W) (val : W → T) (a0 : Aut (Trace × T)) (s : FPre T) : Prop extends FPreH p val a0 s where
  tr : PreTr p val a0 s

theorem FPreT.step (hp : p.WF) (ha : FAutOK p a0) (hB : NoPump (FPreD p val a0)) {s : FPre T} (hs : FPreT p val a0 s)
    (hd : s.isDone = false) : FPreT p val a0 (fixStep (fpreStepWith val p) false s) :=
  ⟨hs.toFPreH.step hp ha hB hd, hs.tr.step hp ha.size_le ha.valid hB⟩

theorem fpreInit_traced (hp : p.WF) (ha : FAutOK p a0) (hno : ∀ t ∈ keys a0.edges, p.size ≤ t.dst)
    (hB : NoPump (FPreD p val a0)) (h0 : ∀ e ∈ a0.edges, e.2.2 = (Trace.null, 0)) (h : HashOrder) :
    FPreT p val a0 (fpreInit val h p a0) :=
  ⟨fpreInit_hist hp ha hno h, PreTr.start hp hB ha.nodup h0 h⟩

omit [LinearOrder T] [IsOrderedAddMonoid T] [OrderBot T] [Zero W] in
/-- The trace of an accepting path. -/
theorem preLast_trace (hp : p.WF) (hl : p.nLabels ≤ epsilon) (ha : FAutOK p a0) (hno : ∀ t ∈ keys a0.edges, p.size ≤ t.dst)
    (hsz : a0.n ≤ sizeMax) {A : Aut (Trace × T)} (hA : ∀ t ∈ keys A.edges, Valid p a0.n t) (hacc : ∀ q, A.isAcc q = a0.isAcc q)
    {E0 L : List (AEdge T)} (hb : BuiltW (PreJW p val) E0 L)
    (hE0 : ∀ e ∈ E0, e.1 ∈ keys a0.edges ∧ e.2.1 = Trace.null ∧ e.2.2 = 0) (hn : (keys E0).Nodup)
    (hh : ∀ e ∈ L, ∃ tr1, A.getEdge e.1 = some (tr1, e.2.1, e.2.2)) (hall : ∀ t ∈ keys A.edges, t ∈ keys L)
    (path : APath Nat) (hE : ∀ t ∈ path.trs, t ∈ keys A.edges) (hfr : path.frontState < p.size) (hfin : A.isAcc path.fin = true) :
    ∃ cs c', getTrace p A.lastTraces path = some cs ∧ CostTrace p.Has val cs (sumW A.lastTraces path.trs) ∧
      cs.head? = some (path.frontState, path.stack) ∧ cs.getLast? = some c' ∧
      Accepted (· ∈ keys a0.edges) (fun q => a0.isAcc q = true) c' := by
  have hLA : ∀ t ∈ keys L, t ∈ keys A.edges := by
    intro t ht
    obtain ⟨e, he, rfl⟩ := List.mem_map.1 ht
    obtain ⟨tr1, hg⟩ := hh e he
    exact List.mem_map_of_mem (mem_of_getEdge hg)
  have hkE0 : ∀ t ∈ keys E0, t ∈ keys a0.edges := by
    intro t ht
    obtain ⟨e, he, rfl⟩ := List.mem_map.1 ht
    exact (hE0 e he).1
  have hold := holds_last hh
  have hround := preTBW_round hp hb hold (fun e he => (hE0 e he).2.1) (fun t ht => hno t (hkE0 t ht)) path.fin
  have hdec : ∀ tb, PreTBW p L path.fin tb →
      decodeEdges p tb.path = ((tb.path.frontState, tb.path.stack), sumW A.lastTraces tb.path.trs).1 := by
    intro tb htb
    unfold decodeEdges
    congr 1
    rw [List.filter_eq_self]
    intro g hg
    simpa using Props.trs_labels (P := (· < p.nLabels)) (fun t ht => (hA t (hLA t (htb.edges t ht))).2.1) g hg
  have hE' : ∀ t ∈ path.trs, t ∈ keys L := fun t ht => hall t (hE t ht)
  have hm := fuel_last (hb.nodup hn) hh hE'
  have hi : PreTBW p L path.fin ⟨path, false⟩ := ⟨hE', hfr, rfl, rfl⟩
  obtain ⟨rs, cs, tb', h1, h2, h3, h4, h5, h6⟩ := tbAll_specC Prod.fst hround hdec _ _ ⟨path, false⟩ hi hm hm
  obtain ⟨x, h7, h8, h9⟩ := h5.costTrace
  dsimp only at h8 h9
  have hz : sumW A.lastTraces tb'.path.trs = 0 := sumW_zero _ _ fun t ht => by
    obtain ⟨⟨t, tr, y⟩, he, rfl⟩ := List.mem_map.1 (h4 t ht)
    have := (hE0 _ he).2.2
    dsimp only at this
    subst this
    exact hold.wt (hb.suffix.subset he)
  rw [hz, add_zero] at h8
  subst h8
  have hfin' : a0.isAcc path.fin = true := (hacc _).symm.trans hfin
  have hlt := Aut.isAcc_lt hfin'
  have hnn : path.isNull = false := by
    unfold APath.isNull
    rw [beq_eq_false_iff_ne]
    omega
  refine ⟨_, _, ?_, h7, ?_, h9, ?_⟩
  · unfold getTrace
    rw [h2, hnn]
    simp only [Bool.false_eq_true, if_false, Option.map_some, h3.post]
    rw [hdec ⟨path, false⟩ hi, List.map_cons]
  · rfl
  · refine ⟨tb'.path.fin, ?_, by rw [h3.fin]; exact hfin'⟩
    exact ((trs_spells (· ∈ keys a0.edges) tb'.path.fin tb'.path.edges).2 fun t ht => hkE0 t (h4 t ht)).path
      tb'.path.head_states tb'.path.last_states

end

end Verif
