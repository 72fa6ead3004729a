import Verif.Proofs.FixedPre

/-! # Fixed-point pre*: the loop, soundness and completeness -/

namespace Verif

variable {W T : Type}

section
variable [LinearOrder T] [AddCommMonoid T] [LinearOrder W] [Zero W]

/-- All consequences of the transitions that are not pending are there. -/
structure FPreC (p : Pda W) (val : W → T) (s : FPre T) (pend : Tr → Prop) : Prop where
  swapC : ∀ t x, s.wt t = some x → ¬ pend t → ∀ (pre id : Nat) (r : Rule W) (l : Labels),
    (p.st pre).rules[id]? = some (r, l) → r.to = t.src → r.op = .swap → r.opLabel = t.label →
    ∀ g ∈ p.expand l, s.Bound ⟨pre, g, t.dst⟩ (val r.weight + x)
  noopC : ∀ t x, s.wt t = some x → ¬ pend t → ∀ (pre id : Nat) (r : Rule W) (l : Labels),
    (p.st pre).rules[id]? = some (r, l) → r.to = t.src → r.op = .noop → l.contains t.label = true →
    s.Bound ⟨pre, t.label, t.dst⟩ (val r.weight + x)
  dpC : ∀ t x, s.wt t = some x → ¬ pend t → ∀ (pre id : Nat) (r : Rule W) (l : Labels),
    (p.st pre).rules[id]? = some (r, l) → r.to = t.src → r.op = .push → r.opLabel = t.label → ¬ r.Missed →
    (t.dst, pre, id) ∈ s.x.dp
  pushC : ∀ t u x y, s.wt t = some x → s.wt u = some y → ¬ pend t → ¬ pend u → u.src = t.dst →
    ∀ (pre id : Nat) (r : Rule W) (l : Labels),
    (p.st pre).rules[id]? = some (r, l) → r.to = t.src → r.op = .push → r.opLabel = t.label → ¬ r.Missed →
    l.contains u.label = true → s.Bound ⟨pre, u.label, u.dst⟩ (val r.weight + x + y)
  popR : ∀ t x, s.wt t = some x → ¬ pend t → t.src < p.size → t.src ∈ s.x.popped
  popC : ∀ q ∈ s.x.popped, ∀ (pre id : Nat) (r : Rule W) (l : Labels), (p.st pre).rules[id]? = some (r, l) →
    r.to = q → r.op = .pop → ∀ g ∈ p.expand l, s.Bound ⟨pre, g, q⟩ (val r.weight)

/-- The invariant of the first phase. -/
structure FPreL (p : Pda W) (val : W → T) (a0 : Aut (Trace × T)) (s : FPre T) : Prop extends FPreI p val a0 s,
    FPreC p val s s.Queued where
  acc : s.aut.acc = a0.acc
  limit : s.limit = s.count
  init : ∀ t ∈ keys a0.edges, s.Bound t 0
  accDone : ∀ q, q < p.size → s.aut.isAcc q = true → q ∈ s.x.popped
  fin : s.done = true → s.workset = [] ∧ s.next = []

variable [OrderBot T] {p : Pda W} {val : W → T} {a0 : Aut (Trace × T)}

/-- The nested loops over the rules into a state as one loop. -/
theorem foldl_into {S : Type} (p : Pda W) (q : Nat) (f : Nat → S → Nat × Rule W × Labels → S) (s : S) :
    (p.st q).preStates.foldl (fun s pre => (p.rulesInto pre q).foldl (f pre) s) s =
      ((p.st q).preStates.flatMap fun pre => (p.rulesInto pre q).flatMap fun y => [(pre, y)]).foldl
        (fun s z => f z.1 s z.2) s := by
  rw [List.foldl_flatMap]
  congr 1
  funext s pre
  rw [List.foldl_flatMap]
  rfl

/-- Processing a transition. -/
theorem fpreStepWith_spec (hp : p.WF) (hN : p.size ≤ a0.n) {s : FPre T} {t : Tr} (h : FPreI p val a0 s)
    (hc : FPreC p val s fun u => u = t ∨ s.Queued u) (htk : t ∈ keys s.aut.edges) :
    FPreI p val a0 (fpreStepWith val p false s t) ∧
      FPreC p val (fpreStepWith val p false s t) (fpreStepWith val p false s t).Queued ∧
      Adv (fun _ => true) s (fpreStepWith val p false s t) ∧
      ∀ q ∈ s.x.popped, q ∈ (fpreStepWith val p false s t).x.popped := by
  obtain ⟨w, hw⟩ := s.exists_wt htk
  have ht := h.sound t w hw
  have hv := h.valid t htk
  have hkeysmono : ∀ s s' : FPre T, FPreAdv s s' → ∀ u, u ∈ keys s.aut.edges → u ∈ keys s'.aut.edges := by
    intro s s' hr u hu
    obtain ⟨x, hx⟩ := s.exists_wt hu
    exact (hr.adv.less _ _ (FixSt.wt_bound hx)).mem
  unfold fpreStepWith
  simp only [hw]
  unfold fpreBody
  -- the loop over delta prime
  obtain ⟨h1, h2, h3⟩ := foldl_adv (R := FPreAdv) FPreAdv.refl FPreAdv.trans
    (fun s' => FPreI p val a0 s' ∧ FPreAdv s s') (fpreDelta val p false t w)
    (fun d s' => ∀ r l, (p.st d.1).rules[d.2]? = some (r, l) → l.contains t.label = true → ∀ y,
      s'.wt ⟨r.to, r.opLabel, t.src⟩ = some y → ¬ s'.Queued ⟨r.to, r.opLabel, t.src⟩ →
      s'.Bound ⟨d.1, t.label, t.dst⟩ (val r.weight + y + w))
    (fun d s1 s2 hr hP r l h1 h2 y hy hq => by
      have hb := hr.adv.back rfl hq
      exact hr.adv.less _ _ (hP r l h1 h2 y (hb.1.trans hy) hb.2))
    (s.x.dpAt t.src)
    (fun s1 d hd hs1 => by
      unfold FPreX.dpAt at hd
      rw [List.mem_map] at hd
      obtain ⟨⟨q, st, id⟩, hd1, rfl⟩ := hd
      rw [List.mem_filter] at hd1
      have hq : q = t.src := by simpa using hd1.2
      subst hq
      have := fpreDelta_spec hp hN ht hv s1 hs1.1 st id (hs1.2.dp _ hd1.1)
      exact ⟨⟨this.1, FPreAdv.trans _ _ _ hs1.2 this.2.1⟩, this.2.1, this.2.2⟩)
    s ⟨h, FPreAdv.refl s⟩
  generalize (s.x.dpAt t.src).foldl (fpreDelta val p false t w) s = s1 at h1 h2 h3
  -- the transitions other than `t` in the final state
  have hpd : ∀ {s' : FPre T}, Adv (fun _ => true) s s' → ∀ {u : Tr} {x : T}, s'.wt u = some x → ¬ s'.Queued u → u ≠ t →
      s.wt u = some x ∧ ¬ (u = t ∨ s.Queued u) := by
    intro s' ha u x hx hq hne
    have := ha.back rfl hq
    exact ⟨this.1.trans hx, fun h => h.elim hne this.2⟩
  have hw' : ∀ {s' : FPre T}, Adv (fun _ => true) s s' → ∀ {x : T}, s'.wt t = some x → ¬ s'.Queued t → x = w := by
    intro s' ha x hx hq
    have := (ha.back rfl hq).1
    rw [hw, hx] at this
    exact (Option.some.inj this).symm
  have hdelta : ∀ {s' : FPre T}, FPreAdv s1 s' → ∀ {t1 : Tr} {x : T}, s'.wt t1 = some x → ¬ s'.Queued t1 → t1 ≠ t →
      t.src = t1.dst → ∀ (pre id : Nat) (r : Rule W) (l : Labels),
      (p.st pre).rules[id]? = some (r, l) → r.to = t1.src → r.op = .push → r.opLabel = t1.label → ¬ r.Missed →
      l.contains t.label = true → s'.Bound ⟨pre, t.label, t.dst⟩ (val r.weight + x + w) := by
    intro s' ha t1 x hx hq hne hsrc pre id r l hr hto hop hl hmi hcn
    have hb := hpd (h2.adv.trans ha.adv) hx hq hne
    have hdp := hc.dpC t1 x hb.1 hb.2 pre id r l hr hto hop hl hmi
    have hmem : (pre, id) ∈ s.x.dpAt t.src := by
      unfold FPreX.dpAt
      rw [List.mem_map]
      refine ⟨(t1.dst, pre, id), List.mem_filter.2 ⟨hdp, by simpa using hsrc.symm⟩, rfl⟩
    have hb' := ha.adv.back rfl hq
    have ht1 : (⟨r.to, r.opLabel, t.src⟩ : Tr) = t1 := by rw [hto, hl, hsrc]
    exact ha.adv.less _ _ (h3 (pre, id) hmem r l hr hcn x (by rw [ht1]; exact hb'.1.trans hx) (by rw [ht1]; exact hb'.2))
  by_cases hsz : t.src ≥ p.size
  · rw [if_pos hsz]
    have hno : ∀ {pre id : Nat} {r : Rule W} {l : Labels}, (p.st pre).rules[id]? = some (r, l) → r.to ≠ t.src := by
      intro pre id r l hr he
      have := hp.toLt _ _ (List.mem_of_getElem? hr)
      dsimp only at this
      omega
    refine ⟨h1.1, ⟨?_, ?_, ?_, ?_, ?_, ?_⟩, h2.adv, fun q hq => h2.popped ▸ hq⟩
    · intro u x hx hq pre id r l hr hto hop hl g hg
      by_cases hut : u = t
      · subst hut; exact absurd hto (hno hr)
      · have hb := hpd h2.adv hx hq hut
        exact h2.adv.less _ _ (hc.swapC u x hb.1 hb.2 pre id r l hr hto hop hl g hg)
    · intro u x hx hq pre id r l hr hto hop hl
      by_cases hut : u = t
      · subst hut; exact absurd hto (hno hr)
      · have hb := hpd h2.adv hx hq hut
        exact h2.adv.less _ _ (hc.noopC u x hb.1 hb.2 pre id r l hr hto hop hl)
    · intro u x hx hq pre id r l hr hto hop hl hmi
      by_cases hut : u = t
      · subst hut; exact absurd hto (hno hr)
      · have hb := hpd h2.adv hx hq hut
        exact h2.dp _ (hc.dpC u x hb.1 hb.2 pre id r l hr hto hop hl hmi)
    · intro u v x y hx hy hqu hqv huv pre id r l hr hto hop hl hmi hcn
      by_cases hut : u = t
      · subst hut; exact absurd hto (hno hr)
      · by_cases hvt : v = t
        · subst hvt
          rw [hw' h2.adv hy hqv]
          exact hdelta (FPreAdv.refl s1) hx hqu hut huv pre id r l hr hto hop hl hmi hcn
        · have hb := hpd h2.adv hx hqu hut
          have hb' := hpd h2.adv hy hqv hvt
          exact h2.adv.less _ _ (hc.pushC u v x y hb.1 hb'.1 hb.2 hb'.2 huv pre id r l hr hto hop hl hmi hcn)
    · intro u x hx hq hlt
      by_cases hut : u = t
      · subst hut; omega
      · have hb := hpd h2.adv hx hq hut
        rw [h2.popped]; exact hc.popR u x hb.1 hb.2 hlt
    · intro q hq pre id r l hr hto hop g hg
      rw [h2.popped] at hq
      exact h2.adv.less _ _ (hc.popC q hq pre id r l hr hto hop g hg)
  · rw [if_neg hsz]
    rw [foldl_into]
    have hmem : ∀ z, z ∈ ((p.st t.src).preStates.flatMap fun pre => (p.rulesInto pre t.src).flatMap fun y => [(pre, y)]) ↔
        (p.st z.1).rules[z.2.1]? = some (z.2.2.1, z.2.2.2) ∧ z.2.2.1.to = t.src ∧ ¬ z.2.2.1.Missed := by
      rintro ⟨pre, id, r, l⟩
      rw [mem_into hp t.src (fun pre y => [(pre, y)])]
      simp only [List.mem_singleton, Prod.mk.injEq]
      constructor
      · rintro ⟨_, _, _, _, h1, h2, h3, rfl, rfl, rfl, rfl⟩; exact ⟨h1, h2, h3⟩
      · rintro ⟨h1, h2, h3⟩; exact ⟨pre, id, r, l, h1, h2, h3, rfl, rfl, rfl, rfl⟩
    obtain ⟨h4, h5, h6⟩ := foldl_adv (R := FPreAdv) FPreAdv.refl FPreAdv.trans
      (fun s' => FPreI p val a0 s' ∧ FPreAdv s s') (fun s z => fpreRule val p false t w z.1 s z.2)
      (fun z s' => FRuleDone p val t w z.1 z.2.1 z.2.2.1 z.2.2.2 s')
      (fun z s1 s2 hr hP => by exact FRuleDone.mono hr hP)
      ((p.st t.src).preStates.flatMap fun pre => (p.rulesInto pre t.src).flatMap fun y => [(pre, y)])
      (fun s' z hz hs' => by
        obtain ⟨hz1, hz2, hz3⟩ := (hmem z).1 hz
        have := fpreRule_spec hp hN ht hv s' hs'.1 (hkeysmono _ _ hs'.2 t htk) hz1 hz2
        exact ⟨⟨this.1, FPreAdv.trans _ _ _ hs'.2 this.2.1⟩, this.2.1, this.2.2⟩)
      s1 ⟨h1.1, h2⟩
    generalize ((p.st t.src).preStates.flatMap fun pre => (p.rulesInto pre t.src).flatMap fun y => [(pre, y)]).foldl
      (fun s z => fpreRule val p false t w z.1 s z.2) s1 = s2 at h4 h5 h6
    have h6' : ∀ {pre id : Nat} {r : Rule W} {l : Labels}, (p.st pre).rules[id]? = some (r, l) → r.to = t.src →
        ¬ r.Missed → FRuleDone p val t w pre id r l s2 := by
      intro pre id r l a b c
      exact h6 (pre, id, r, l) ((hmem _).2 ⟨a, b, c⟩)
    have hnm : ∀ {r : Rule W}, r.op ≠ .push → ¬ r.Missed := fun hn hm => hn hm.1
    have hI : FPreI p val a0 { s2 with x := { s2.x with popped := t.src :: s2.x.popped } } :=
      ⟨h4.1.nodup, h4.1.sound, h4.1.valid, h4.1.rel, h4.1.dpOK, h4.1.undef, h4.1.count, h4.1.queued⟩
    have hA : Adv (fun _ => true) s { s2 with x := { s2.x with popped := t.src :: s2.x.popped } } :=
      ⟨h4.2.adv.less, h4.2.adv.change, h4.2.adv.queued, h4.2.adv.acc, h4.2.adv.limit, h4.2.adv.count,
        h4.2.adv.rounds, h4.2.adv.work, h4.2.adv.done⟩
    refine ⟨hI, ?_, hA, fun q hq => List.mem_cons_of_mem _ (h4.2.popped ▸ hq)⟩
    have hC : FPreC p val s2 s2.Queued ∨ True := .inr trivial
    clear hC
    refine ⟨?_, ?_, ?_, ?_, ?_, ?_⟩
    · intro u x hx hq pre id r l hr hto hop hl g hg
      by_cases hut : u = t
      · subst hut
        rw [hw' hA hx hq]
        exact (h6' hr hto (hnm (by rw [hop]; decide))).2.1 hop hl g hg
      · have hb := hpd hA hx hq hut
        exact hA.less _ _ (hc.swapC u x hb.1 hb.2 pre id r l hr hto hop hl g hg)
    · intro u x hx hq pre id r l hr hto hop hl
      by_cases hut : u = t
      · subst hut
        rw [hw' hA hx hq]
        exact (h6' hr hto (hnm (by rw [hop]; decide))).2.2.1 hop hl
      · have hb := hpd hA hx hq hut
        exact hA.less _ _ (hc.noopC u x hb.1 hb.2 pre id r l hr hto hop hl)
    · intro u x hx hq pre id r l hr hto hop hl hmi
      by_cases hut : u = t
      · subst hut
        exact ((h6' hr hto hmi).2.2.2 hop hl).1
      · have hb := hpd hA hx hq hut
        exact h4.2.dp _ (hc.dpC u x hb.1 hb.2 pre id r l hr hto hop hl hmi)
    · intro u v x y hx hy hqu hqv huv pre id r l hr hto hop hl hmi hcn
      by_cases hut : u = t
      · subst hut
        rw [hw' hA hx hqu]
        exact ((h6' hr hto hmi).2.2.2 hop hl).2 v huv hcn y hy hqv
      · by_cases hvt : v = t
        · subst hvt
          rw [hw' hA hy hqv]
          exact hdelta h5 hx hqu hut huv pre id r l hr hto hop hl hmi hcn
        · have hb := hpd hA hx hqu hut
          have hb' := hpd hA hy hqv hvt
          exact hA.less _ _ (hc.pushC u v x y hb.1 hb'.1 hb.2 hb'.2 huv pre id r l hr hto hop hl hmi hcn)
    · intro u x hx hq hlt
      by_cases hut : u = t
      · subst hut; exact List.mem_cons_self ..
      · have hb := hpd hA hx hq hut
        exact List.mem_cons_of_mem _ (h4.2.popped ▸ hc.popR u x hb.1 hb.2 hlt)
    · intro q hq pre id r l hr hto hop g hg
      have old : q ∈ s.x.popped → s2.Bound ⟨pre, g, q⟩ (val r.weight) := fun hq =>
        h4.2.adv.less _ _ (hc.popC q hq pre id r l hr hto hop g hg)
      rcases List.mem_cons.1 hq with rfl | hq
      · rcases (h6' hr hto (hnm (by rw [hop]; decide))).1 hop with hq | hq
        · exact old (h4.2.popped ▸ hq)
        · exact hq g hg
      · exact old (h4.2.popped ▸ hq)

/-- The invariant is kept by `step`. -/
theorem FPreL.step (hp : p.WF) (ha : FAutOK p a0) {s : FPre T} (h : FPreL p val a0 s) (hd : s.isDone = false) :
    FPreL p val a0 (fixStep (fpreStepWith val p) false s) := by
  have hdone : s.done = false := by
    unfold FixSt.isDone at hd
    rw [Bool.or_eq_false_iff] at hd
    exact hd.1
  have key : ∀ (s0 : FPre T) (t : Tr), s0.aut = s.aut → s0.x = s.x → s0.count = s.count → s0.limit = s.limit →
      s0.undef = s.undef → s0.done = s.done → (∀ u, s.Queued u ↔ u = t ∨ s0.Queued u) →
      FPreL p val a0 (fpreStepWith val p false s0 t) := by
    intro s0 t e1 e2 e3 e4 e5 e6 hq
    have hwt : ∀ u, s0.wt u = s.wt u := by intro u; unfold FixSt.wt; rw [e1]
    have hbd : ∀ u x, s0.Bound u x ↔ s.Bound u x := by intro u x; unfold FixSt.Bound; rw [hwt]
    have htk : t ∈ keys s0.aut.edges := by rw [e1]; exact h.queued t ((hq t).2 (.inl rfl))
    have hI : FPreI p val a0 s0 := by
      refine ⟨e1 ▸ h.nodup, ?_, e1 ▸ h.valid, ?_, ?_, e5.trans h.undef, ?_, ?_⟩
      · intro u x hx; exact h.sound u x (hwt u ▸ hx)
      · rw [e1, e2]; exact h.rel
      · rw [e1, e2]; exact h.dpOK
      · rw [e1, e3]; exact h.count
      · intro u hu; rw [e1]; exact h.queued u ((hq u).2 (.inr hu))
    have hC : FPreC p val s0 fun u => u = t ∨ s0.Queued u := by
      have hpe : (fun u => u = t ∨ s0.Queued u) = s.Queued := funext fun u => propext (hq u).symm
      rw [hpe]
      refine ⟨?_, ?_, ?_, ?_, ?_, ?_⟩
      · simp only [hwt, hbd]; exact h.swapC
      · simp only [hwt, hbd]; exact h.noopC
      · simp only [hwt, e2]; exact h.dpC
      · simp only [hwt, hbd]; exact h.pushC
      · simp only [hwt, e2]; exact h.popR
      · simp only [hbd, e2]; exact h.popC
    obtain ⟨h1, h2, h3, h4⟩ := fpreStepWith_spec hp ha.size_le hI hC htk
    refine { toFPreI := h1, toFPreC := h2, acc := ?_, limit := ?_, init := ?_, accDone := ?_, fin := ?_ }
    · rw [h3.acc, e1, h.acc]
    · exact h3.limit (by rw [e4, e3, h.limit])
    · intro u hu; exact h3.less _ _ ((hbd _ _).2 (h.init u hu))
    · intro q hq1 hq2
      apply h4
      rw [e2]
      apply h.accDone q hq1
      unfold Aut.isAcc at hq2 ⊢
      rw [h3.acc, e1] at hq2
      exact hq2
    · intro hf
      rw [h3.done, e6, hdone] at hf
      cases hf
  rcases fixStep_cases (fpreStepWith val p) false s with ⟨h1, h2, h3⟩ | ⟨t, ws, hq, ⟨h1, h3⟩ | ⟨h1, h2, h3⟩⟩
  · rw [h3]
    exact { toFPreI := ⟨h.nodup, h.sound, h.valid, h.rel, h.dpOK, h.undef, h.count, h.queued⟩, toFPreC := ⟨h.swapC, h.noopC, h.dpC, h.pushC, h.popR, h.popC⟩, acc := h.acc, limit := h.limit, init := h.init, accDone := h.accDone, fin := fun _ => ⟨h1, h2⟩ }
  · rw [h3]
    refine key _ t rfl rfl rfl rfl rfl rfl ?_
    intro u
    rw [hq u]
    unfold FixSt.Queued
    simp [h1]
  · rw [h3]
    refine key _ t rfl rfl rfl rfl rfl rfl ?_
    intro u
    rw [hq u]
    unfold FixSt.Queued
    simp [h1]

/-! ## Initialisation -/

theorem fpreAddPop_spec (hp : p.WF) (hN : p.size ≤ a0.n) {s : FPre T} (h : FPreI p val a0 s) (q : Nat)
    (hpop : ∀ q' ∈ s.x.popped, ∀ (pre id : Nat) (r : Rule W) (l : Labels), (p.st pre).rules[id]? = some (r, l) →
      r.to = q' → r.op = .pop → ∀ g ∈ p.expand l, s.Bound ⟨pre, g, q'⟩ (val r.weight)) :
    FPreI p val a0 (fpreAddPop val p s q) ∧ Adv (fun _ => true) s (fpreAddPop val p s q) ∧
      (∀ q' ∈ s.x.popped, q' ∈ (fpreAddPop val p s q).x.popped) ∧
      (q < p.size → q ∈ (fpreAddPop val p s q).x.popped) ∧
      (∀ q' ∈ (fpreAddPop val p s q).x.popped, ∀ (pre id : Nat) (r : Rule W) (l : Labels),
        (p.st pre).rules[id]? = some (r, l) → r.to = q' → r.op = .pop → ∀ g ∈ p.expand l,
        (fpreAddPop val p s q).Bound ⟨pre, g, q'⟩ (val r.weight)) := by
  unfold fpreAddPop
  split
  · rename_i hq
    exact ⟨h, Adv.refl _ s, fun _ h => h, fun hlt => by omega, hpop⟩
  · split
    · rename_i hc
      exact ⟨h, Adv.refl _ s, fun _ h => h, fun _ => by simpa using hc, hpop⟩
    · rename_i hq _
      rw [foldl_into]
      have hmem : ∀ z, z ∈ ((p.st q).preStates.flatMap fun pre => (p.rulesInto pre q).flatMap fun y => [(pre, y)]) ↔
          (p.st z.1).rules[z.2.1]? = some (z.2.2.1, z.2.2.2) ∧ z.2.2.1.to = q ∧ ¬ z.2.2.1.Missed := by
        rintro ⟨pre, id, r, l⟩
        rw [mem_into hp q (fun pre y => [(pre, y)])]
        simp only [List.mem_singleton, Prod.mk.injEq]
        constructor
        · rintro ⟨_, _, _, _, h1, h2, h3, rfl, rfl, rfl, rfl⟩; exact ⟨h1, h2, h3⟩
        · rintro ⟨h1, h2, h3⟩; exact ⟨pre, id, r, l, h1, h2, h3, rfl, rfl, rfl, rfl⟩
      obtain ⟨h4, h5, h6⟩ := foldl_adv (R := FPreAdv) FPreAdv.refl FPreAdv.trans
        (fun s' => FPreI p val a0 s') (fun s z => fpreAddPopRule val p q z.1 s z.2)
        (fun z s' => z.2.2.1.op = .pop → ∀ g ∈ p.expand z.2.2.2, s'.Bound ⟨z.1, g, q⟩ (val z.2.2.1.weight))
        (fun z s1 s2 hr hP => by intro ho g hg; exact hr.adv.less _ _ (hP ho g hg))
        ((p.st q).preStates.flatMap fun pre => (p.rulesInto pre q).flatMap fun y => [(pre, y)])
        (fun s' z hz hs' => by
          obtain ⟨hz1, hz2, hz3⟩ := (hmem z).1 hz
          unfold fpreAddPopRule
          by_cases hop : z.2.2.1.op = .pop
          · rw [if_pos hop]
            have := fpreBulk_spec hN hs' (src := z.1) (l := z.2.2.2) (dst := q) (w := val z.2.2.1.weight)
              (Trace.pre z.2.1) (fun g hg => hz2 ▸ der_pop hp hN hz1 hop hg)
            exact ⟨this.1, this.2.1, fun _ => this.2.2⟩
          · rw [if_neg hop]
            exact ⟨hs', FPreAdv.refl _, fun h => absurd h hop⟩)
        { s with x := { s.x with popped := q :: s.x.popped } }
        ⟨h.nodup, h.sound, h.valid, h.rel, h.dpOK, h.undef, h.count, h.queued⟩
      have hb : Adv (fun _ => true) s { s with x := { s.x with popped := q :: s.x.popped } } :=
        ⟨fun _ _ h => h, fun _ _ => .inr rfl, fun _ h => h, rfl, fun h => h, Nat.le_refl _, rfl, rfl, rfl⟩
      refine ⟨h4, hb.trans h5.adv, ?_, ?_, ?_⟩
      · intro q' hq'; rw [h5.popped]; exact List.mem_cons_of_mem _ hq'
      · intro _; rw [h5.popped]; exact List.mem_cons_self ..
      · intro q' hq' pre id r l hr hto hop g hg
        rw [h5.popped] at hq'
        rcases List.mem_cons.1 hq' with rfl | hq'
        · exact h6 (pre, id, r, l) ((hmem _).2 ⟨hr, hto, fun hm => by cases hop.symm.trans hm.1⟩) hop g hg
        · exact h5.adv.less _ _ (hb.less _ _ (hpop q' hq' pre id r l hr hto hop g hg))

omit [LinearOrder T] [LinearOrder W] [Zero W] [OrderBot T] [AddCommMonoid T] in
theorem fpreInitEdges (l : List Tr) (s : FPre T) :
    (l.foldl fpreInitEdge s).aut = s.aut ∧ (l.foldl fpreInitEdge s).x.rel = s.x.rel ++ l ∧
      (l.foldl fpreInitEdge s).x.dp = s.x.dp ∧ (l.foldl fpreInitEdge s).x.popped = s.x.popped ∧
      (l.foldl fpreInitEdge s).next = s.next ++ l ∧ (l.foldl fpreInitEdge s).count = s.count + l.length ∧
      (l.foldl fpreInitEdge s).undef = s.undef ∧ (l.foldl fpreInitEdge s).workset = s.workset ∧
      (l.foldl fpreInitEdge s).done = s.done ∧ (l.foldl fpreInitEdge s).rounds = s.rounds := by
  induction l generalizing s with
  | nil => simp
  | cons t l ih =>
    obtain ⟨h1, h2, h3, h4, h5, h6, h7, h8, h9, h10⟩ := ih (fpreInitEdge s t)
    rw [List.foldl_cons]
    refine ⟨h1, ?_, h3, h4, ?_, ?_, h7, h8, h9, h10⟩
    · rw [h2]; simp [fpreInitEdge]
    · rw [h5]; simp [fpreInitEdge]
    · rw [h6]; simp [fpreInitEdge]; omega

omit [LinearOrder T] [LinearOrder W] [Zero W] [OrderBot T] [AddCommMonoid T] in
/-- The transitions visited by the first loop of `initialize`. -/
theorem out_all (h : HashOrder) (a : Aut T) (hv : ∀ t ∈ keys a.edges, t.src < a.n) :
    ((List.range a.n).flatMap fun i => a.out h i).Perm (keys a.edges) := by
  have h1 : ((List.range a.n).flatMap fun i => a.out h i).Perm
      ((List.range a.n).flatMap fun i => (keys a.edges).filter fun t => t.src == i) :=
    List.Perm.flatMap_left _ fun i _ => Aut.out_perm h a i
  refine h1.trans ?_
  generalize keys a.edges = l at hv
  generalize a.n = n at hv
  induction l with
  | nil =>
    have : ((List.range n).flatMap fun i => ([] : List Tr).filter fun t => t.src == i) = [] := by
      induction List.range n with
      | nil => rfl
      | cons a l ih => simp [List.flatMap_cons]
    rw [this]
  | cons t l ih =>
    have ht := hv t (List.mem_cons_self ..)
    have hl := ih fun u hu => hv u (List.mem_cons_of_mem _ hu)
    refine List.Perm.trans ?_ (List.Perm.cons t hl)
    have gen : ∀ r : List Nat, r.Nodup → (r.flatMap fun i => (t :: l).filter fun u => u.src == i).Perm
        (if t.src ∈ r then t :: (r.flatMap fun i => l.filter fun u => u.src == i)
          else r.flatMap fun i => l.filter fun u => u.src == i) := by
      intro r hr
      induction r with
      | nil => simp
      | cons i r ihr =>
        obtain ⟨hi, hr⟩ := List.nodup_cons.1 hr
        have ihr := ihr hr
        simp only [List.flatMap_cons]
        by_cases hti : t.src = i
        · subst hti
          rw [if_neg hi] at ihr
          rw [if_pos (List.mem_cons_self ..), List.filter_cons_of_pos (by simp)]
          exact List.Perm.cons t (List.Perm.append_left _ ihr)
        · rw [List.filter_cons_of_neg (by simpa using hti)]
          by_cases htr : t.src ∈ r
          · rw [if_pos htr] at ihr
            rw [if_pos (List.mem_cons_of_mem _ htr)]
            refine (List.Perm.append_left _ ihr).trans ?_
            exact List.perm_middle
          · rw [if_neg htr] at ihr
            rw [if_neg (by simp [hti, htr])]
            exact List.Perm.append_left _ ihr
    have := gen (List.range n) List.nodup_range
    rwa [if_pos (List.mem_range.2 ht)] at this

omit [LinearOrder T] [LinearOrder W] [Zero W] [OrderBot T] in
theorem FAutOK.wt_zero {a : Aut (Trace × T)} (ha : FAutOK p a) {X : Type} {s : FixSt T X} (hs : s.aut.edges = a.edges) {t : Tr}
    (ht : t ∈ keys a.edges) : s.wt t = some 0 := by
  have h1 : t ∈ keys s.aut.edges := by rw [hs]; exact ht
  obtain ⟨x, hx⟩ := s.exists_wt h1
  rw [hx]
  unfold FixSt.wt Aut.getEdge at hx
  rw [hs] at hx
  simp only [Option.map_map, Option.map_eq_some_iff] at hx
  obtain ⟨e, he, rfl⟩ := hx
  simp only [Function.comp_apply]
  rw [ha.zero e (List.mem_of_find?_eq_some he)]

/-- The state after the constructor satisfies the invariant. -/
theorem fpreInit_inv (h : HashOrder) (hp : p.WF) (ha : FAutOK p a0) :
    FPreL p val a0 (fpreInit val h p a0) ∧ (fpreInit val h p a0).rounds = 0 ∧ (fpreInit val h p a0).done = false := by
  unfold fpreInit
  simp only
  have hperm := out_all h a0 fun t ht => (ha.valid t ht).1
  obtain ⟨e1, e2, e3, e4, e5, e6, e7, e8, e9, e10⟩ := fpreInitEdges ((List.range a0.n).flatMap fun i => a0.out h i)
    ({ aut := a0, x := {} } : FPre T)
  generalize hs0 : ((List.range a0.n).flatMap fun i => a0.out h i).foldl fpreInitEdge ({ aut := a0, x := {} } : FPre T) = s0
    at e1 e2 e3 e4 e5 e6 e7 e8 e9 e10
  simp only [List.nil_append, Nat.zero_add] at e1 e2 e3 e4 e5 e6 e7 e8 e9 e10
  have hq0 : ∀ t ∈ keys a0.edges, s0.Queued t := by
    intro t ht; right; rw [e5]; exact hperm.mem_iff.2 ht
  have hw0 : ∀ t x, s0.wt t = some x → x = 0 ∧ t ∈ keys a0.edges := by
    intro t x hx
    have ht : t ∈ keys a0.edges := by have := s0.wt_some hx; rwa [e1] at this
    have := ha.wt_zero (s := s0) (by rw [e1]) ht
    rw [this] at hx
    exact ⟨(Option.some.inj hx).symm, ht⟩
  have hI0 : FPreI p val a0 s0 := by
    refine ⟨by rw [e1]; exact ha.nodup, ?_, by rw [e1]; exact ha.valid, ?_, ?_, e7, ?_, ?_⟩
    · intro t x hx
      obtain ⟨rfl, ht⟩ := hw0 t x hx
      exact PreDer.init ht
    · intro t; rw [e1, e2, hperm.mem_iff]
    · intro q st id hm; rw [e3] at hm; cases hm
    · rw [e6, e1, hperm.length_eq]; exact List.length_map ..
    · rintro t (ht | ht)
      · rw [e8] at ht; cases ht
      · rw [e5, hperm.mem_iff] at ht; rw [e1]; exact ht
  -- the loop over the accepting states
  let J : FPre T → Prop := fun s => FPreI p val a0 s ∧ Adv (fun _ => true) s0 s ∧
    (∀ q' ∈ s.x.popped, ∀ (pre id : Nat) (r : Rule W) (l : Labels), (p.st pre).rules[id]? = some (r, l) →
      r.to = q' → r.op = .pop → ∀ g ∈ p.expand l, s.Bound ⟨pre, g, q'⟩ (val r.weight))
  obtain ⟨h1, h2, h3⟩ := foldl_adv (R := fun s s' : FPre T => ∀ q ∈ s.x.popped, q ∈ s'.x.popped)
    (fun _ _ h => h) (fun a b c h h' q hq => h' q (h q hq)) J
    (fun s i => if s.aut.isAcc i then fpreAddPop val p s i else s)
    (fun i s => i < p.size → a0.isAcc i = true → i ∈ s.x.popped)
    (fun i s s' hr hP h1 h2 => hr i (hP h1 h2)) (List.range a0.n)
    (fun s i _ hs => by
      have hacc : s.aut.isAcc i = a0.isAcc i := by unfold Aut.isAcc; rw [hs.2.1.acc, e1]
      rw [hacc]
      by_cases hi : a0.isAcc i = true
      · simp only [hi, if_true]
        obtain ⟨a, b, c, d, e⟩ := fpreAddPop_spec hp ha.size_le hs.1 i hs.2.2
        exact ⟨⟨a, hs.2.1.trans b, e⟩, c, fun hlt _ => d hlt⟩
      · simp only [hi, Bool.false_eq_true, if_false]
        exact ⟨hs, fun _ h => h, fun _ h => h.elim⟩)
    s0 ⟨hI0, Adv.refl _ _, fun q' hq' => by rw [e4] at hq'; cases hq'⟩
  generalize (List.range a0.n).foldl (fun s i => if s.aut.isAcc i then fpreAddPop val p s i else s) s0 = s1 at h1 h2 h3
  obtain ⟨hI, hA, hpop⟩ := h1
  have hq1 : ∀ t x, s1.wt t = some x → s1.Queued t := by
    intro t x hx
    by_contra hn
    have hb := hA.back rfl hn
    rw [← hb.1] at hx
    exact hb.2 (hq0 t (hw0 t x hx).2)
  refine ⟨{ toFPreI := ⟨hI.nodup, hI.sound, hI.valid, hI.rel, hI.dpOK, hI.undef, hI.count, hI.queued⟩, toFPreC := ⟨?_, ?_, ?_, ?_, ?_, hpop⟩, acc := hA.acc.trans (by rw [e1]), limit := rfl, init := ?_, accDone := ?_, fin := ?_ }, hA.rounds.trans e10, hA.done.trans e9⟩
  · intro t x hx hn; exact absurd (hq1 t x hx) hn
  · intro t x hx hn; exact absurd (hq1 t x hx) hn
  · intro t x hx hn; exact absurd (hq1 t x hx) hn
  · intro t u x y hx hy hn; exact absurd (hq1 t x hx) hn
  · intro t x hx hn; exact absurd (hq1 t x hx) hn
  · intro t ht
    exact hA.less _ _ (FixSt.wt_bound (ha.wt_zero (s := s0) (by rw [e1]) ht))
  · intro q hq hacc
    have hacc' : a0.isAcc q = true := by
      unfold Aut.isAcc at hacc ⊢
      dsimp only at hacc
      rwa [hA.acc, e1] at hacc
    exact h3 q (List.mem_range.2 (by have := ha.size_le; omega)) hq hacc'
  · intro hf
    have : s1.done = true := hf
    rw [hA.done, e9] at this; cases this

end

/-! ## Soundness -/

section
variable [AddCommMonoid T]

theorem CostRun.trans {R : URule W → Prop} {val : W → T} {c d e : Config} {x y : T} (h : CostRun R val c x d)
    (h' : CostRun R val d y e) : CostRun R val c (x + y) e := by
  induction h with
  | nil => rw [zero_add]; exact h'
  | cons r w x c hr _ ih => rw [add_assoc]; exact .cons r w _ _ hr (ih h')

theorem CostRun.snoc {R : URule W → Prop} {val : W → T} {c : Config} {x : T} {r : URule W} {w : List Nat}
    (h : CostRun R val c x (r.src, r.pre :: w)) (hr : R r) :
    CostRun R val c (x + val r.weight) (r.dst, effect r.op r.pre r.opLabel w) := by
  have := h.trans (CostRun.cons r w 0 _ hr (.nil _))
  rwa [add_zero] at this

/-- What a path from state `q` that reads `v` with weight `y` stands for. -/
def FPreSem (R : URule W → Prop) (val : W → T) (n : Nat) (E0 : Tr → Prop) (F : Nat → Prop) (q : Nat) (v : List Nat)
    (y : T) : Prop :=
  if q < n then ∃ c, CostRun R val (q, v) y c ∧ Accepted E0 F c else y = 0 ∧ ∃ f, Path E0 q v f ∧ F f

theorem fpreSem_step {R : URule W → Prop} {val : W → T} {n : Nat} {E0 : Tr → Prop} {F : Nat → Prop} (r : URule W)
    (hr : R r) (h1 : r.src < n) (h2 : r.dst < n) (v : List Nat) {y : T}
    (h : FPreSem R val n E0 F r.dst (effect r.op r.pre r.opLabel v) y) :
    FPreSem R val n E0 F r.src (r.pre :: v) (val r.weight + y) := by
  unfold FPreSem at *
  rw [if_pos h2] at h
  rw [if_pos h1]
  obtain ⟨c, hc, ha⟩ := h
  exact ⟨c, CostRun.cons r v y c hr hc, ha⟩

theorem preDer_sem {R : URule W → Prop} {val : W → T} {n : Nat} {E0 : Tr → Prop} {F : Nat → Prop}
    (hR : ∀ r, R r → r.src < n ∧ r.dst < n) (h0 : ∀ t, E0 t → n ≤ t.dst) {t : Tr} {x : T} (h : PreDer R val E0 t x) :
    ∀ v y, FPreSem R val n E0 F t.dst v y → FPreSem R val n E0 F t.src (t.label :: v) (x + y) := by
  induction h with
  | @init t ht =>
    intro v y hv
    unfold FPreSem at *
    rw [if_neg (by have := h0 t ht; omega)] at hv
    obtain ⟨rfl, f, hf, hF⟩ := hv
    have hpath : Path E0 t.src (t.label :: v) f := Path.cons ht hf
    rw [add_zero]
    split
    · exact ⟨_, CostRun.nil _, f, hpath, hF⟩
    · exact ⟨rfl, f, hpath, hF⟩
  | @pop r hr hop =>
    intro v y hv
    refine fpreSem_step r hr (hR r hr).1 (hR r hr).2 v ?_
    simpa [hop, effect] using hv
  | @swap r q x hr hop _ ih =>
    intro v y hv
    rw [add_assoc]
    refine fpreSem_step r hr (hR r hr).1 (hR r hr).2 v ?_
    simpa [hop, effect] using ih v y hv
  | @noop r q x hr hop _ ih =>
    intro v y hv
    rw [add_assoc]
    refine fpreSem_step r hr (hR r hr).1 (hR r hr).2 v ?_
    simpa [hop, effect] using ih v y hv
  | @push r m q x x' hr hop _ _ ih ih' =>
    intro v y hv
    rw [add_assoc, add_assoc]
    refine fpreSem_step r hr (hR r hr).1 (hR r hr).2 v ?_
    simpa [hop, effect] using ih _ _ (ih' v y hv)

/-- Every accepting path has the weight of a run. -/
theorem fpre_sound {R : URule W → Prop} {val : W → T} {n : Nat} {E0 : Tr → Prop} {F : Nat → Prop} {E : Tr → T → Prop}
    (hR : ∀ r, R r → r.src < n ∧ r.dst < n) (h0 : ∀ t, E0 t → n ≤ t.dst) (hE : ∀ t x, E t x → PreDer R val E0 t x)
    {q f : Nat} {w : List Nat} {x : T} (h : CostPath E q w x f) (hF : F f) : FPreSem R val n E0 F q w x := by
  induction h with
  | nil q =>
    unfold FPreSem
    split
    · exact ⟨_, .nil _, q, .nil q, hF⟩
    · exact ⟨rfl, q, .nil q, hF⟩
  | cons he _ ih => exact preDer_sem hR h0 (hE _ _ he) _ _ (ih hF)

end

/-! ## Completeness -/

section
variable [LinearOrder T] [AddCommMonoid T] [IsOrderedAddMonoid T]

/-- The weights are closed under the saturation rules. -/
def FPreClosed (R : URule W → Prop) (val : W → T) (F : Nat → Prop) (E : Tr → T → Prop) : Prop :=
  ∀ r, R r → match r.op with
    | .pop => (F r.dst ∨ ∃ g q x, E ⟨r.dst, g, q⟩ x) → ∃ z, E ⟨r.src, r.pre, r.dst⟩ z ∧ z ≤ val r.weight
    | .swap => ∀ q x, E ⟨r.dst, r.opLabel, q⟩ x → ∃ z, E ⟨r.src, r.pre, q⟩ z ∧ z ≤ val r.weight + x
    | .noop => ∀ q x, E ⟨r.dst, r.pre, q⟩ x → ∃ z, E ⟨r.src, r.pre, q⟩ z ∧ z ≤ val r.weight + x
    | .push => ∀ m q x y, E ⟨r.dst, r.opLabel, m⟩ x → E ⟨m, r.pre, q⟩ y →
      ∃ z, E ⟨r.src, r.pre, q⟩ z ∧ z ≤ val r.weight + x + y

theorem FPreClosed.step {R : URule W → Prop} {val : W → T} {F : Nat → Prop} {E : Tr → T → Prop}
    (hE : FPreClosed R val F E) {r : URule W} (hr : R r) {w : List Nat} {x : T}
    (hx : x ∈ PathWeights E F (r.dst, effect r.op r.pre r.opLabel w)) :
    ∃ y ∈ PathWeights E F (r.src, r.pre :: w), y ≤ val r.weight + x := by
  have h := hE r hr
  obtain ⟨f, hp, hF⟩ := hx
  dsimp only at hp
  cases hop : r.op <;> simp only [hop, effect] at h hp
  · cases hp with
    | @cons _ _ m _ _ x1 _ he1 hp' =>
      cases hp' with
      | @cons _ _ q _ _ x2 x3 he2 hp'' =>
        obtain ⟨z, hz, hle⟩ := h _ _ _ _ he1 he2
        refine ⟨z + x3, ⟨f, .cons hz hp'', hF⟩, ?_⟩
        rw [← add_assoc, ← add_assoc]
        exact add_le_add hle le_rfl
  · have : F r.dst ∨ ∃ g q x, E ⟨r.dst, g, q⟩ x := by
      cases hp with
      | nil => exact .inl hF
      | cons he _ => exact .inr ⟨_, _, _, he⟩
    obtain ⟨z, hz, hle⟩ := h this
    exact ⟨z + x, ⟨f, .cons hz hp, hF⟩, add_le_add hle le_rfl⟩
  · cases hp with
    | @cons _ _ q _ _ x1 x2 he1 hp' =>
      obtain ⟨z, hz, hle⟩ := h _ _ he1
      refine ⟨z + x2, ⟨f, .cons hz hp', hF⟩, ?_⟩
      rw [← add_assoc]
      exact add_le_add hle le_rfl
  · cases hp with
    | @cons _ _ q _ _ x1 x2 he1 hp' =>
      obtain ⟨z, hz, hle⟩ := h _ _ he1
      refine ⟨z + x2, ⟨f, .cons hz hp', hF⟩, ?_⟩
      rw [← add_assoc]
      exact add_le_add hle le_rfl

/-- Every run is dominated by an accepting path. -/
theorem FPreClosed.run {R : URule W → Prop} {val : W → T} {F : Nat → Prop} {E : Tr → T → Prop}
    (hE : FPreClosed R val F E) {c c' : Config} {x : T} (hs : CostRun R val c x c') {b : T}
    (hb : ∃ y ∈ PathWeights E F c', y ≤ b) : ∃ y ∈ PathWeights E F c, y ≤ x + b := by
  induction hs with
  | nil c => rw [zero_add]; exact hb
  | cons r w x c hr _ ih =>
    obtain ⟨y, hy, hle⟩ := ih hb
    obtain ⟨z, hz, hle'⟩ := hE.step hr hy
    refine ⟨z, hz, le_trans hle' ?_⟩
    rw [add_assoc]
    exact add_le_add le_rfl hle

variable [LinearOrder W] [Zero W] [OrderBot T] {p : Pda W} {val : W → T} {a0 : Aut (Trace × T)}

omit [IsOrderedAddMonoid T] [OrderBot T] in
/-- When nothing is queued, the weights are closed. -/
theorem FPreL.closed (hp : p.WF) (hk : p.LookupOK) {s : FPre T}
    (h : FPreL p val a0 s) (h1 : s.workset = []) (h2 : s.next = []) :
    FPreClosed p.Has val (fun q => s.aut.isAcc q = true) (fun t x => s.wt t = some x) := by
  have hq : ∀ t, ¬ s.Queued t := by
    intro t ht
    unfold FixSt.Queued at ht
    rw [h1, h2] at ht
    simp at ht
  intro r hr
  rw [Pda.Has_iff] at hr
  obtain ⟨l, hm, hg⟩ := hr
  obtain ⟨id, hid⟩ := List.mem_iff_getElem?.1 hm
  have hto : r.dst < p.size := hp.toLt _ _ hm
  have hc := (hp.mem_expand hm r.pre).1 hg
  cases hop : r.op <;> simp only
  · intro m q x y hx hy
    exact h.pushC _ _ x y hx hy (hq _) (hq _) rfl r.src id _ l hid rfl hop rfl (hk.missed hm) hc.1
  · intro h3
    refine h.popC r.dst ?_ r.src id _ l hid rfl hop _ hg
    rcases h3 with h3 | ⟨g, q, x, h3⟩
    · exact h.accDone r.dst hto h3
    · exact h.popR _ x h3 (hq _) hto
  · intro q x hx
    exact h.swapC _ x hx (hq _) r.src id _ l hid rfl hop rfl _ hg
  · intro q x hx
    exact h.noopC _ x hx (hq _) r.src id _ l hid rfl hop hc.1

end

end Verif
