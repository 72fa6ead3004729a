import Verif.Proofs.ShortestPre

/-! # Shortest pre*: the loop, termination and closedness -/

namespace Verif

variable {W T σ : Type}
variable [LinearOrder T] [AddCommMonoid T] [LinearOrder W] [Zero W]

/-- All consequences of the transitions that are not pending are there. -/
structure SPreC (p : Pda W) (val : W → T) (s : SPreSt T σ) (pend : Tr → Prop) : Prop where
  swapC : ∀ t x, s.aut.wt t = some x → ¬ pend t → ∀ (pre id : Nat) (r : Rule W) (l : Labels),
    (p.st pre).rules[id]? = some (r, l) → r.to = t.src → r.op = .swap → r.opLabel = t.label →
    ∀ g ∈ p.expand l, s.Bound ⟨pre, g, t.dst⟩ (val r.weight + x)
  noopC : ∀ t x, s.aut.wt t = some x → ¬ pend t → ∀ (pre id : Nat) (r : Rule W) (l : Labels),
    (p.st pre).rules[id]? = some (r, l) → r.to = t.src → r.op = .noop → l.contains t.label = true →
    s.Bound ⟨pre, t.label, t.dst⟩ (val r.weight + x)
  dpC : ∀ t x, s.aut.wt t = some x → ¬ pend t → ∀ (pre id : Nat) (r : Rule W) (l : Labels),
    (p.st pre).rules[id]? = some (r, l) → r.to = t.src → r.op = .push → r.opLabel = t.label → ¬ r.Missed →
    (t.dst, pre, id) ∈ s.dp
  pushC : ∀ t u x y, s.aut.wt t = some x → s.aut.wt u = some y → ¬ pend t → ¬ pend u → u.src = t.dst →
    ∀ (pre id : Nat) (r : Rule W) (l : Labels),
    (p.st pre).rules[id]? = some (r, l) → r.to = t.src → r.op = .push → r.opLabel = t.label → ¬ r.Missed →
    l.contains u.label = true → s.Bound ⟨pre, u.label, u.dst⟩ (val r.weight + x + y)
  popC : ∀ q ∈ s.popped, ∀ (pre id : Nat) (r : Rule W) (l : Labels), (p.st pre).rules[id]? = some (r, l) →
    r.to = q → r.op = .pop → ∀ g ∈ p.expand l, s.Bound ⟨pre, g, q⟩ (val r.weight)

/-- The invariant between two steps. -/
def SPreL (p : Pda W) (val : W → T) (a0 : Aut T) (s : SPreSt T σ) : Prop :=
  (∃ κ, SPreI p val a0 (fun _ => False) κ s) ∧ SPreC p val s s.Pend

variable [IsOrderedCancelAddMonoid T]
variable {p : Pda W} {val : W → T} {a0 : Aut T} {cur : Nat → Prop} {κ : WithTop T}

/-- Processing a transition. -/
theorem spreBody_spec (hcx : SPreCtx p val a0) {s : SPreSt T σ} {t : Tr} {w : T}
    (h : SPreI p val a0 (· = t.src) κ { s with rel := s.rel ++ [t] }) (ht : SPreCur p val a0 (· = t.src) κ s t w)
    (hc : SPreC p val s fun u => u = t ∨ s.Pend u) :
    SPreI p val a0 (fun _ => False) κ (spreBody val p t w s) ∧ SPreC p val (spreBody val p t w s) (spreBody val p t w s).Pend ∧
      (∀ u x, s.aut.wt u = some x → ¬ s.Pend u → (spreBody val p t w s).aut.wt u = some x ∧ ¬ (spreBody val p t w s).Pend u) ∧
      (∀ u y, s.Bound u y → (spreBody val p t w s).Bound u y) ∧
      (spreBody val p t w s).ext = s.ext ∧ (spreBody val p t w s).found = s.found ∧
      (∀ u x, (spreBody val p t w s).aut.wt u = some x → ¬ (spreBody val p t w s).Pend u → s.aut.wt u = some x ∧ ¬ s.Pend u) ∧
      ∀ q, s.Fix p (· = t.src) q → (spreBody val p t w s).minpath q = s.minpath q := by
  unfold spreBody
  dsimp only
  generalize hs0 : ({ s with rel := s.rel ++ [t] } : SPreSt T σ) = s0 at h
  have hpd0 : ∀ u, s0.Pend u ↔ s.Pend u := by intro u; rw [← hs0]; exact Iff.rfl
  have hb0 : ∀ u y, s0.Bound u y ↔ s.Bound u y := by intro u; rw [← hs0]; exact fun _ => Iff.rfl
  have hw0 : ∀ u, s0.aut.wt u = s.aut.wt u := by intro u; rw [← hs0]
  have hdp0 : s0.dp = s.dp := by rw [← hs0]
  have hpp0 : s0.popped = s.popped := by rw [← hs0]
  have he0 : s0.ext = s.ext ∧ s0.found = s.found := by rw [← hs0]; exact ⟨rfl, rfl⟩
  have hm0 : s0.minpath = s.minpath := by rw [← hs0]
  have ht0 : SPreCur p val a0 (· = t.src) κ s0 t w := by
    rw [← hs0]; exact ⟨ht.here, ht.done, ht.key, ht.cur, ht.src⟩
  have hft := h.fix t w ht0.here
  clear hs0
  -- the loop over delta prime
  obtain ⟨h1, h2, h3⟩ := foldl_track (SPreAdv p (· = t.src)) (SPreAdv.refl p _) (fun _ _ _ => SPreAdv.trans)
    (SPreI p val a0 (· = t.src) κ)
    (fun s' d => ∀ r l, (p.st d.1).rules[d.2]? = some (r, l) → l.contains t.label = true → ∀ y,
      s'.aut.wt ⟨r.to, r.opLabel, t.src⟩ = some y → ¬ s'.Pend ⟨r.to, r.opLabel, t.src⟩ →
      s'.Bound ⟨d.1, t.label, t.dst⟩ (val r.weight + y + w))
    (fun s1 s2 d hr hP r l h1 h2 y hy hq => by
      have hb := hr.back _ _ hy hq
      exact hr.less _ _ (hP r l h1 h2 y hb.1 hb.2))
    (spreDelta val p t w) (s0.dpAt t.src) s0 h
    (fun s1 hr1 hs1 d hd => by
      unfold SPreSt.dpAt at hd
      rw [List.mem_map] at hd
      obtain ⟨⟨q, st, id⟩, hd1, rfl⟩ := hd
      rw [List.mem_filter] at hd1
      have hq : q = t.src := by simpa using hd1.2
      subst hq
      exact spreDelta_spec hcx s1 hs1 (ht0.mono hr1 hft) st id (hr1.dp _ hd1.1))
  generalize hs1 : (s0.dpAt t.src).foldl (spreDelta val p t w) s0 = s1 at h1 h2 h3
  -- the transitions other than `t` in the final state
  have hpd : ∀ {s' : SPreSt T σ}, SPreAdv p (· = t.src) s0 s' → ∀ {u : Tr} {x : T}, s'.aut.wt u = some x → ¬ s'.Pend u → u ≠ t →
      s.aut.wt u = some x ∧ ¬ (u = t ∨ s.Pend u) := by
    intro s' ha u x hx hq hne
    have := ha.back _ _ hx hq
    rw [hw0, hpd0] at this
    exact ⟨this.1, fun h => h.elim hne this.2⟩
  have hw' : ∀ {s' : SPreSt T σ}, SPreAdv p (· = t.src) s0 s' → ∀ {x : T}, s'.aut.wt t = some x → x = w := by
    intro s' ha x hx
    have := (ha.keep _ _ ht0.here ht0.done).1
    rw [hx] at this
    exact Option.some.inj this
  have hless : ∀ {s' : SPreSt T σ}, SPreAdv p (· = t.src) s0 s' → ∀ u y, s.Bound u y → s'.Bound u y := by
    intro s' ha u y hb
    exact ha.less _ _ ((hb0 _ _).2 hb)
  have hkeep : ∀ {s' : SPreSt T σ}, SPreAdv p (· = t.src) s0 s' → ∀ u x, s.aut.wt u = some x → ¬ s.Pend u →
      s'.aut.wt u = some x ∧ ¬ s'.Pend u := by
    intro s' ha u x hx hn
    exact ha.keep u x ((hw0 u).trans hx) fun hp => hn ((hpd0 u).1 hp)
  have hback : ∀ {s' : SPreSt T σ}, SPreAdv p (· = t.src) s0 s' → ∀ u x, s'.aut.wt u = some x → ¬ s'.Pend u →
      s.aut.wt u = some x ∧ ¬ s.Pend u := by
    intro s' ha u x hx hn
    have := ha.back u x hx hn
    rwa [hw0, hpd0] at this
  have hmin : ∀ {s' : SPreSt T σ}, SPreAdv p (· = t.src) s0 s' → ∀ q, s.Fix p (· = t.src) q → s'.minpath q = s.minpath q := by
    intro s' ha q hq
    rw [ha.mp q (by unfold SPreSt.Fix; rw [hpp0]; exact hq), hm0]
  have hdelta : ∀ {s' : SPreSt T σ}, SPreAdv p (· = t.src) s1 s' → ∀ {t1 : Tr} {x : T}, s'.aut.wt t1 = some x → ¬ s'.Pend t1 → t1 ≠ t →
      t.src = t1.dst → ∀ (pre id : Nat) (r : Rule W) (l : Labels),
      (p.st pre).rules[id]? = some (r, l) → r.to = t1.src → r.op = .push → r.opLabel = t1.label → ¬ r.Missed →
      l.contains t.label = true → s'.Bound ⟨pre, t.label, t.dst⟩ (val r.weight + x + w) := by
    intro s' ha t1 x hx hq hne hsrc pre id r l hr hto hop hl hmi hcn
    have hb := hpd (h2.trans ha) hx hq hne
    have hdp := hc.dpC t1 x hb.1 hb.2 pre id r l hr hto hop hl hmi
    have hmem : (pre, id) ∈ s0.dpAt t.src := by
      unfold SPreSt.dpAt
      rw [List.mem_map]
      refine ⟨(t1.dst, pre, id), List.mem_filter.2 ⟨by rw [hdp0]; exact hdp, by simpa using hsrc.symm⟩, rfl⟩
    have hb' := ha.back _ _ hx hq
    have ht1 : (⟨r.to, r.opLabel, t.src⟩ : Tr) = t1 := by rw [hto, hl, hsrc]
    exact ha.less _ _ (h3 (pre, id) hmem r l hr hcn x (by rw [ht1]; exact hb'.1) (by rw [ht1]; exact hb'.2))
  by_cases hsz : t.src ≥ p.size
  · rw [if_pos hsz]
    have hno : ∀ {pre id : Nat} {r : Rule W} {l : Labels}, (p.st pre).rules[id]? = some (r, l) → r.to ≠ t.src := by
      intro pre id r l hr he
      have := hcx.wf.toLt _ _ (List.mem_of_getElem? hr)
      dsimp only at this
      omega
    refine ⟨?_, ⟨?_, ?_, ?_, ?_, ?_⟩, hkeep h2, hless h2, h2.ext.trans he0.1, h2.found.trans he0.2, hback h2, hmin h2⟩
    · have hf : ∀ q, s1.Fix p (fun _ => False) q ↔ s1.Fix p (· = t.src) q := by
        intro q
        unfold SPreSt.Fix
        constructor
        · rintro (h | h | h)
          · exact .inl h
          · exact .inr (.inl h)
          · exact h.elim
        · rintro (h | h | h)
          · exact .inl h
          · exact .inr (.inl h)
          · exact .inl (h ▸ hsz)
      exact ⟨h1.nodup, h1.undef, h1.failed, h1.acc, h1.kpos, h1.kne, h1.mpos, h1.der, h1.valid, h1.pos, h1.input, fun t x hx => (hf _).2 (h1.fix t x hx),
        h1.bigDst, h1.bigSrc, fun q hq hp => h1.low q hq (hp.imp_right False.elim), fun t x hx hh => h1.tri t x hx ((hf _).1 hh), h1.entry, h1.entNodup,
        fun u x hx hn => ⟨(h1.settled u x hx hn).1, (h1.settled u x hx hn).2.1, fun hlt => ((h1.settled u x hx hn).2.2 hlt).imp_right fun he => by omega⟩, h1.rel, h1.dpOK⟩
    · intro u x hx hq pre id r l hr hto hop hl g hg
      by_cases hut : u = t
      · subst hut; exact absurd hto (hno hr)
      · have hb := hpd h2 hx hq hut
        exact hless h2 _ _ (hc.swapC u x hb.1 hb.2 pre id r l hr hto hop hl g hg)
    · intro u x hx hq pre id r l hr hto hop hl
      by_cases hut : u = t
      · subst hut; exact absurd hto (hno hr)
      · have hb := hpd h2 hx hq hut
        exact hless h2 _ _ (hc.noopC u x hb.1 hb.2 pre id r l hr hto hop hl)
    · intro u x hx hq pre id r l hr hto hop hl hmi
      by_cases hut : u = t
      · subst hut; exact absurd hto (hno hr)
      · have hb := hpd h2 hx hq hut
        exact h2.dp _ (hdp0 ▸ hc.dpC u x hb.1 hb.2 pre id r l hr hto hop hl hmi)
    · intro u v x y hx hy hqu hqv huv pre id r l hr hto hop hl hmi hcn
      by_cases hut : u = t
      · subst hut; exact absurd hto (hno hr)
      · by_cases hvt : v = t
        · subst hvt
          rw [hw' h2 hy]
          exact hdelta (SPreAdv.refl p _ s1) hx hqu hut huv pre id r l hr hto hop hl hmi hcn
        · have hb := hpd h2 hx hqu hut
          have hb' := hpd h2 hy hqv hvt
          exact hless h2 _ _ (hc.pushC u v x y hb.1 hb'.1 hb.2 hb'.2 huv pre id r l hr hto hop hl hmi hcn)
    · intro q hq pre id r l hr hto hop g hg
      rw [h2.popped, hpp0] at hq
      exact hless h2 _ _ (hc.popC q hq pre id r l hr hto hop g hg)
  · rw [if_neg hsz]
    rw [foldl_into]
    have hmem : ∀ z, z ∈ ((p.st t.src).preStates.flatMap fun pre => (p.rulesInto pre t.src).flatMap fun y => [(pre, y)]) ↔
        (p.st z.1).rules[z.2.1]? = some (z.2.2.1, z.2.2.2) ∧ z.2.2.1.to = t.src ∧ ¬ z.2.2.1.Missed := by
      rintro ⟨pre, id, r, l⟩
      rw [mem_into hcx.wf t.src (fun pre y => [(pre, y)])]
      simp only [List.mem_singleton, Prod.mk.injEq]
      constructor
      · rintro ⟨_, _, _, _, h1, h2, h3, rfl, rfl, rfl, rfl⟩; exact ⟨h1, h2, h3⟩
      · rintro ⟨h1, h2, h3⟩; exact ⟨pre, id, r, l, h1, h2, h3, rfl, rfl, rfl, rfl⟩
    obtain ⟨h4, h5, h6⟩ := foldl_track (SPreAdv p (· = t.src)) (SPreAdv.refl p _) (fun _ _ _ => SPreAdv.trans)
      (SPreI p val a0 (· = t.src) κ)
      (fun s' z => SRuleDone p val t w z.1 z.2.1 z.2.2.1 z.2.2.2 s')
      (fun s1 s2 z hr hP => by exact SRuleDone.mono hr hP)
      (fun s z => spreRule val p t w z.1 s z.2)
      ((p.st t.src).preStates.flatMap fun pre => (p.rulesInto pre t.src).flatMap fun y => [(pre, y)]) s1 h1
      (fun s' hr' hs' z hz => by
        obtain ⟨hz1, hz2, hz3⟩ := (hmem z).1 hz
        exact spreRule_spec hcx s' hs' (ht0.mono (h2.trans hr') hft) (by omega) hz1 hz2)
    generalize ((p.st t.src).preStates.flatMap fun pre => (p.rulesInto pre t.src).flatMap fun y => [(pre, y)]).foldl
      (fun s z => spreRule val p t w z.1 s z.2) s1 = s2 at h4 h5 h6
    have hA := h2.trans h5
    have h6' : ∀ {pre id : Nat} {r : Rule W} {l : Labels}, (p.st pre).rules[id]? = some (r, l) → r.to = t.src →
        ¬ r.Missed → SRuleDone p val t w pre id r l s2 := by
      intro pre id r l a b c
      exact h6 (pre, id, r, l) ((hmem _).2 ⟨a, b, c⟩)
    have hnm : ∀ {r : Rule W}, r.op ≠ .push → ¬ r.Missed := fun hn hm => hn hm.1
    refine ⟨?_, ?_, fun u x a b => hkeep (s' := s2) hA u x a b, fun u y a => hless (s' := s2) hA u y a, hA.ext.trans he0.1, hA.found.trans he0.2, fun u x a b => hback (s' := s2) hA u x a b, fun q hq => hmin (s' := s2) hA q hq⟩
    · have hf : ∀ q, ({ s2 with popped := t.src :: s2.popped } : SPreSt T σ).Fix p (fun _ => False) q ↔ s2.Fix p (· = t.src) q := by
        intro q
        unfold SPreSt.Fix
        dsimp only
        rw [List.mem_cons]
        constructor
        · rintro (h | (h | h) | h)
          · exact .inl h
          · exact .inr (.inr h)
          · exact .inr (.inl h)
          · exact h.elim
        · rintro (h | h | h)
          · exact .inl h
          · exact .inr (.inl (.inr h))
          · exact .inr (.inl (.inl h))
      refine ⟨h4.nodup, h4.undef, h4.failed, h4.acc, h4.kpos, h4.kne, h4.mpos, h4.der, h4.valid, h4.pos, h4.input, fun t x hx => (hf _).2 (h4.fix t x hx),
        h4.bigDst, h4.bigSrc, ?_, fun t x hx hh => h4.tri t x hx ((hf _).1 hh), h4.entry, h4.entNodup, ?_, h4.rel, h4.dpOK⟩
      · intro q hq hp
        rcases hp with hp | hp
        · rcases List.mem_cons.1 hp with hp | hp
          · exact h4.low q hq (.inr hp)
          · exact h4.low q hq (.inl hp)
        · exact hp.elim
      · intro u x hx hn
        obtain ⟨a, b, c⟩ := h4.settled u x hx hn
        refine ⟨a, b, fun hlt => .inl ?_⟩
        rcases c hlt with c | c
        · exact List.mem_cons_of_mem _ c
        · exact List.mem_cons.2 (.inl c)
    refine ⟨?_, ?_, ?_, ?_, ?_⟩
    · intro u x hx hq pre id r l hr hto hop hl g hg
      by_cases hut : u = t
      · subst hut
        rw [hw' hA hx]
        exact (h6' hr hto (hnm (by rw [hop]; decide))).2.1 hop hl g hg
      · have hb := hpd hA hx hq hut
        exact hless hA _ _ (hc.swapC u x hb.1 hb.2 pre id r l hr hto hop hl g hg)
    · intro u x hx hq pre id r l hr hto hop hl
      by_cases hut : u = t
      · subst hut
        rw [hw' hA hx]
        exact (h6' hr hto (hnm (by rw [hop]; decide))).2.2.1 hop hl
      · have hb := hpd hA hx hq hut
        exact hless hA _ _ (hc.noopC u x hb.1 hb.2 pre id r l hr hto hop hl)
    · intro u x hx hq pre id r l hr hto hop hl hmi
      by_cases hut : u = t
      · subst hut
        exact ((h6' hr hto hmi).2.2.2 hop hl).1
      · have hb := hpd hA hx hq hut
        exact hA.dp _ (hdp0 ▸ hc.dpC u x hb.1 hb.2 pre id r l hr hto hop hl hmi)
    · intro u v x y hx hy hqu hqv huv pre id r l hr hto hop hl hmi hcn
      by_cases hut : u = t
      · subst hut
        rw [hw' hA hx]
        exact ((h6' hr hto hmi).2.2.2 hop hl).2 v huv hcn y hy hqv
      · by_cases hvt : v = t
        · subst hvt
          rw [hw' hA hy]
          exact hdelta h5 hx hqu hut huv pre id r l hr hto hop hl hmi hcn
        · have hb := hpd hA hx hqu hut
          have hb' := hpd hA hy hqv hvt
          exact hless hA _ _ (hc.pushC u v x y hb.1 hb'.1 hb.2 hb'.2 huv pre id r l hr hto hop hl hmi hcn)
    · intro q hq pre id r l hr hto hop g hg
      have old : q ∈ s.popped → s2.Bound ⟨pre, g, q⟩ (val r.weight) := fun hq =>
        hless hA _ _ (hc.popC q hq pre id r l hr hto hop g hg)
      rcases List.mem_cons.1 hq with rfl | hq
      · rcases (h6' hr hto (hnm (by rw [hop]; decide))).1 hop with hq | hq
        · exact old (hpp0 ▸ hA.popped ▸ hq)
        · exact hq g hg
      · exact old (hpp0 ▸ hA.popped ▸ hq)


/-! ## One step -/

/-- `_minpath` after the first lines of `step()`. -/
theorem spreSeen_minpath (junk : Nat → Bool) {s : SPreSt T σ} (h : SPreI p val a0 (fun _ => False) κ s) {e : ShElem T}
    {r : List (ShElem T)} (hp : (e :: r).Perm s.ws) :
    (e.edge.src < p.size ∧ e.edge.src ∉ s.popped ∧
        (spreSeen junk p { s with ws := r } e).minpath = setMin s.minpath e.edge.src e.key) ∨
      ((p.size ≤ e.edge.src ∨ e.edge.src ∈ s.popped) ∧ (spreSeen junk p { s with ws := r } e).minpath = s.minpath) := by
  have hin : e ∈ s.ws := hp.mem_iff.1 (List.mem_cons_self ..)
  obtain ⟨_, _, ⟨x, hx, _⟩, hb⟩ := h.entry e hin
  unfold spreSeen SPreSt.isPopped
  dsimp only
  by_cases hl : e.edge.src < p.size
  · rw [if_pos hl]
    by_cases hpp : e.edge.src ∈ s.popped
    · right
      refine ⟨.inr hpp, ?_⟩
      rw [if_pos (by simpa using hpp)]
    · left
      refine ⟨hl, hpp, ?_⟩
      rw [if_neg (by simpa using hpp)]
  · right
    refine ⟨.inl (by omega), ?_⟩
    rw [if_neg hl]
    split
    · rfl
    · funext q
      unfold setMin
      split
      · rename_i hq
        rw [hq, hb (by omega), h.bigSrc _ _ hx (by omega)]
      · rfl

/-- What holds when an element has been taken from the queue. -/
theorem SPreI.seen (junk : Nat → Bool) {s : SPreSt T σ} (h : SPreI p val a0 (fun _ => False) κ s) {e : ShElem T}
    {r : List (ShElem T)} (hp : (e :: r).Perm s.ws) (hle : ∀ u ∈ r, e.key ≤ u.key) {w : T} (hw : s.aut.wt e.edge = some w)
    {s1 : SPreSt T σ} (hs1 : s1 = spreSeen junk p { s with ws := r } e) :
    (∀ q, s.Fix p (fun _ => False) q → s1.minpath q = s.minpath q) ∧
    ((s1.key e.edge w < e.key ∧ SPreI p val a0 (fun _ => False) e.key s1 ∧ ∀ u, s1.Pend u ↔ s.Pend u) ∨
     (s1.key e.edge w = e.key ∧ SPreI p val a0 (· = e.edge.src) e.key { s1 with rel := s1.rel ++ [e.edge] } ∧
      SPreCur p val a0 (· = e.edge.src) e.key s1 e.edge w ∧ ∀ u, u ≠ e.edge → (s1.Pend u ↔ s.Pend u))) := by
  have hin : e ∈ s.ws := hp.mem_iff.1 (List.mem_cons_self ..)
  have hmem : ∀ u, u ∈ s.ws ↔ u = e ∨ u ∈ r := fun u => by rw [← hp.mem_iff, List.mem_cons]
  obtain ⟨hκ, hne, ⟨w', hw', hkle⟩, hbig⟩ := h.entry e hin
  rw [hw] at hw'
  cases hw'
  have hkpos : 0 ≤ e.key := le_trans h.kpos hκ
  have hmin := spreSeen_minpath junk h hp
  rw [← hs1] at hmin
  have f1 : s1.aut = s.aut := by rw [hs1]; rfl
  have f2 : s1.ws = r := by rw [hs1]; rfl
  have f3 : s1.rel = s.rel := by rw [hs1]; rfl
  have f4 : s1.dp = s.dp := by rw [hs1]; rfl
  have f5 : s1.popped = s.popped := by rw [hs1]; rfl
  have f6 : s1.undef = s.undef := by rw [hs1]; rfl
  have f7 : s1.failed = s.failed := by
    rw [hs1]; unfold spreSeen; dsimp only; simp [hne]
  clear hs1
  have hmp : ∀ q, s.Fix p (fun _ => False) q → s1.minpath q = s.minpath q := by
    intro q hq
    rcases hmin with ⟨m1, m2, m3⟩ | ⟨_, m3⟩
    · rw [m3]
      unfold setMin
      rw [if_neg]
      rintro rfl
      rcases hq with hq | hq | hq
      · omega
      · exact m2 hq
      · exact hq
    · rw [m3]
  have hkey : ∀ u x, s.aut.wt u = some x → ∀ y, s1.key u y = s.key u y := by
    intro u x hx y
    unfold SPreSt.key
    rw [hmp _ (h.fix u x hx)]
  have hmpos : ∀ q, 0 ≤ s1.minpath q := by
    intro q
    rcases hmin with ⟨m1, m2, m3⟩ | ⟨_, m3⟩
    · rw [m3]
      unfold setMin
      split
      · exact hkpos
      · exact h.mpos q
    · rw [m3]; exact h.mpos q
  have hperm : (s.ws.map fun e => (e.edge, e.key)).Nodup := h.entNodup
  rw [← (hp.map _).nodup_iff, List.map_cons, List.nodup_cons] at hperm
  have hpend : ∀ u, u ≠ e.edge → (s1.Pend u ↔ s.Pend u) := by
    intro u hu
    constructor
    · rintro ⟨x, e', h1, h2, h3, h4⟩
      rw [f1] at h1
      rw [f2] at h2
      exact ⟨x, e', h1, (hmem _).2 (.inr h2), h3, by rw [h4, hkey u x h1]⟩
    · rintro ⟨x, e', h1, h2, h3, h4⟩
      rcases (hmem e').1 h2 with rfl | h2
      · exact absurd h3.symm hu
      · exact ⟨x, e', by rw [f1]; exact h1, by rw [f2]; exact h2, h3, by rw [h4, hkey u x h1]⟩
  have hent : ∀ e' ∈ s1.ws, e.key ≤ e'.key ∧ e'.key ≠ ⊤ ∧ (∃ x, s1.aut.wt e'.edge = some x ∧ s1.key e'.edge x ≤ e'.key) ∧
      (p.size ≤ e'.edge.src → e'.key = 0) := by
    intro e' he'
    rw [f2] at he'
    obtain ⟨g1, g2, ⟨x, g3, g4⟩, g5⟩ := h.entry e' ((hmem _).2 (.inr he'))
    exact ⟨hle e' he', g2, ⟨x, by rw [f1]; exact g3, by rw [hkey _ x g3]; exact g4⟩, g5⟩
  refine ⟨hmp, ?_⟩
  by_cases hst : s.key e.edge w < e.key
  · left
    have hold : (p.size ≤ e.edge.src ∨ e.edge.src ∈ s.popped) ∧ s1.minpath = s.minpath := by
      rcases hmin with ⟨m1, m2, m3⟩ | hmin
      · exfalso
        have hpe : s.Pend e.edge := by
          by_contra hn
          rcases (h.settled _ _ hw hn).2.2 m1 with hh | hh
          · exact m2 hh
          · exact hh
        obtain ⟨x, e', g1, g2, g3, g4⟩ := hpe
        rw [hw] at g1
        cases g1
        rcases (hmem e').1 g2 with rfl | g2
        · rw [g4] at hst; exact lt_irrefl _ hst
        · have := hle e' g2
          rw [g4] at this
          exact absurd hst (not_lt.2 this)
      · exact hmin
    obtain ⟨ho, hmm⟩ := hold
    have hfx : ∀ q, s1.Fix p (fun _ => False) q ↔ s.Fix p (fun _ => False) q := by intro q; unfold SPreSt.Fix; rw [f5]
    have hk' : ∀ u x, s1.key u x = s.key u x := by intro u x; unfold SPreSt.key; rw [hmm]
    have hpe : ∀ u, s1.Pend u ↔ s.Pend u := by
      intro u
      by_cases hu : u = e.edge
      · subst hu
        constructor
        · rintro ⟨x, e', h1, h2, h3, h4⟩
          rw [f1] at h1
          rw [f2] at h2
          exact ⟨x, e', h1, (hmem _).2 (.inr h2), h3, by rw [h4, hk']⟩
        · rintro ⟨x, e', h1, h2, h3, h4⟩
          rcases (hmem e').1 h2 with rfl | h2
          · rw [hw] at h1
            cases h1
            rw [h4] at hst
            exact absurd hst (lt_irrefl _)
          · exact ⟨x, e', by rw [f1]; exact h1, by rw [f2]; exact h2, h3, by rw [h4, hk']⟩
      · exact hpend u hu
    refine ⟨by rw [hk']; exact hst, ⟨?_, f6.trans h.undef, f7.trans h.failed, by rw [f1]; exact h.acc, hkpos, hne, hmpos, ?_, ?_, ?_, ?_, ?_, ?_, ?_, ?_, ?_, hent, ?_, ?_, ?_, ?_⟩, hpe⟩
    · rw [f1]; exact h.nodup
    · rw [f1]; exact h.der
    · rw [f1]; exact h.valid
    · rw [f1]; exact h.pos
    · rw [f1]; exact h.input
    · rw [f1]; intro t x hx; exact (hfx _).2 (h.fix t x hx)
    · rw [f1, hmm]; exact h.bigDst
    · rw [f1, hmm]; exact h.bigSrc
    · rw [f5, hmm]; intro q hq hh; exact le_trans (h.low q hq hh) hκ
    · rw [f1, hmm]; intro t x hx hf; rw [hk']; exact h.tri t x hx ((hfx _).1 hf)
    · rw [f2]; exact hperm.2
    · intro u x hx hn
      rw [f1] at hx
      rw [f3, f5, hk']
      obtain ⟨g1, g2⟩ := h.settled u x hx fun hh => hn ((hpe u).2 hh)
      exact ⟨le_trans g1 hκ, g2⟩
    · rw [f1, f3]; exact h.rel
    · rw [f1, f4]; exact h.dpOK
  · right
    have hke : s.key e.edge w = e.key := le_antisymm hkle (not_lt.1 hst)
    have hnp : ¬ s1.Pend e.edge := by
      rintro ⟨x, e', h1, h2, h3, h4⟩
      rw [f1, hw] at h1
      cases h1
      rw [f2] at h2
      rw [hkey _ _ hw, hke] at h4
      exact hperm.1 (List.mem_map.2 ⟨e', h2, by rw [h3, h4]⟩)
    have hfx : ∀ q, s1.Fix p (· = e.edge.src) q ↔ s.Fix p (fun _ => False) q ∨ q = e.edge.src := by
      intro q
      unfold SPreSt.Fix
      rw [f5]
      constructor
      · rintro (hh | hh | hh)
        · exact .inl (.inl hh)
        · exact .inl (.inr (.inl hh))
        · exact .inr hh
      · rintro ((hh | hh | hh) | hh)
        · exact .inl hh
        · exact .inr (.inl hh)
        · exact hh.elim
        · exact .inr (.inr hh)
    have hsrc : e.edge.src < p.size → e.edge.src ∉ s.popped → s1.minpath e.edge.src = e.key := by
      intro hl hn
      rcases hmin with ⟨_, _, m3⟩ | ⟨m1 | m1, _⟩
      · rw [m3]; unfold setMin; rw [if_pos rfl]
      · omega
      · exact absurd m1 hn
    have hcur : SPreCur p val a0 (· = e.edge.src) e.key s1 e.edge w :=
      ⟨by rw [f1]; exact hw, hnp, by rw [hkey _ _ hw, hke], rfl, fun hl hn => hsrc hl (f5 ▸ hn)⟩
    refine ⟨hcur.key, ⟨?_, f6.trans h.undef, f7.trans h.failed, by dsimp only; rw [f1]; exact h.acc, hkpos, hne, hmpos, ?_, ?_, ?_, ?_, ?_, ?_, ?_, ?_, ?_, hent, ?_, ?_, ?_, ?_⟩, hcur, hpend⟩
    · dsimp only; rw [f1]; exact h.nodup
    · dsimp only; rw [f1]; exact h.der
    · dsimp only; rw [f1]; exact h.valid
    · dsimp only; rw [f1]; exact h.pos
    · dsimp only; rw [f1]; exact h.input
    · dsimp only; rw [f1]; intro t x hx; exact (hfx _).2 (.inl (h.fix t x hx))
    · dsimp only; rw [f1]; intro t x hx hb; rw [hmp _ (.inl hb)]; exact h.bigDst t x hx hb
    · dsimp only; rw [f1]; intro t x hx hb; rw [hmp _ (.inl hb)]; exact h.bigSrc t x hx hb
    · dsimp only
      rw [f5]
      intro q hq hh
      by_cases hq1 : q ∈ s.popped
      · rw [hmp _ (.inr (.inl hq1))]
        exact le_trans (h.low q hq (.inl hq1)) hκ
      · rcases hh with hh | rfl
        · exact absurd hh hq1
        · rw [hsrc hq hq1]
    · intro t x hx hf
      dsimp only at hx
      rw [f1] at hx
      show s1.minpath t.src ≤ s1.key t x
      rw [hkey t x hx]
      rcases (hfx t.src).1 hf with hh | hh
      · rw [hmp _ hh]
        exact h.tri t x hx hh
      · by_cases hff : s.Fix p (fun _ => False) t.src
        · rw [hmp _ hff]
          exact h.tri t x hx hff
        · have hl : t.src < p.size := by
            by_contra hn
            exact hff (.inl (by omega))
          have hn : t.src ∉ s.popped := fun hn => hff (.inr (.inl hn))
          rw [hh, hsrc (hh ▸ hl) (hh ▸ hn)]
          have hpe : s.Pend t := by
            by_contra hnp
            rcases (h.settled t x hx hnp).2.2 hl with g | g
            · exact hn g
            · exact g
          obtain ⟨x', e', g1, g2, g3, g4⟩ := hpe
          rw [hx] at g1
          cases g1
          rw [← g4]
          rcases (hmem e').1 g2 with rfl | g2
          · exact le_refl _
          · exact hle e' g2
    · dsimp only; rw [f2]; exact hperm.2
    · intro u x hx hn
      dsimp only at hx
      rw [f1] at hx
      show s1.key u x ≤ e.key ∧ u ∈ s1.rel ++ [e.edge] ∧ (u.src < p.size → u.src ∈ s1.popped ∨ u.src = e.edge.src)
      rw [f3, f5, hkey u x hx]
      by_cases hu : u = e.edge
      · subst hu
        rw [hw] at hx
        cases hx
        exact ⟨hkle, List.mem_append_right _ (List.mem_singleton.2 rfl), fun _ => .inr rfl⟩
      · obtain ⟨g1, g2, g3⟩ := h.settled u x hx fun hh => hn ((hpend u hu).2 hh)
        exact ⟨le_trans g1 hκ, List.mem_append_left _ g2, fun hl => .inl ((g3 hl).resolve_right id)⟩
    · intro u hu
      show ∃ x, s1.aut.wt u = some x
      rw [f1]
      have hu : u ∈ s1.rel ++ [e.edge] := hu
      rw [f3] at hu
      rcases List.mem_append.1 hu with hu | hu
      · exact h.rel u hu
      · rw [List.mem_singleton.1 hu]
        exact ⟨w, hw⟩
    · dsimp only; rw [f1, f4]; exact h.dpOK

omit [Zero W] [IsOrderedCancelAddMonoid T] in
theorem SPreI.withExt {s : SPreSt T σ} (h : SPreI p val a0 cur κ s) (e : σ) (f : Bool) :
    SPreI p val a0 cur κ { s with ext := e, found := f } :=
  ⟨h.nodup, h.undef, h.failed, h.acc, h.kpos, h.kne, h.mpos, h.der, h.valid, h.pos, h.input, h.fix, h.bigDst, h.bigSrc,
    h.low, h.tri, h.entry, h.entNodup, h.settled, h.rel, h.dpOK⟩

omit [IsOrderedCancelAddMonoid T] in
theorem SPreC.withExt {s : SPreSt T σ} {pend : Tr → Prop} (h : SPreC p val s pend) (e : σ) (f : Bool) :
    SPreC p val { s with ext := e, found := f } pend :=
  ⟨h.swapC, h.noopC, h.dpC, h.pushC, h.popC⟩

/-- The transition is there and not waiting. -/
def SPreSt.Settled (s : SPreSt T σ) (t : Tr) : Prop := (∃ x, s.aut.wt t = some x) ∧ ¬ s.Pend t

/-- One step in detail: an element that is out of date is dropped; otherwise the callback is called, the transition is
settled, and the callback is called once more if the queue is empty. -/
theorem SPreL.step_cases (hcx : SPreCtx p val a0) (cb : SCallback T σ) (junk : Nat → Bool) {s : SPreSt T σ} (hL : SPreL p val a0 s)
    {e : ShElem T} {r : List (ShElem T)} (hp : (e :: r).Perm s.ws) (hle : ∀ u ∈ r, e.key ≤ u.key)
    {s' : SPreSt T σ} (hs' : s' = spreStepWith val cb true junk p { s with ws := r } e) :
    ∃ w, s.aut.wt e.edge = some w ∧ s.key e.edge w ≤ e.key ∧ 0 ≤ e.key ∧ SPreI p val a0 (fun _ => False) e.key s' ∧
      SPreC p val s' s'.Pend ∧ (∀ q, s.Fix p (fun _ => False) q → s'.minpath q = s.minpath q) ∧
      ((s.key e.edge w < e.key ∧ s'.aut = s.aut ∧ s'.ws = r ∧ s'.ext = s.ext ∧ s'.found = s.found ∧ ∀ u, s'.Pend u ↔ s.Pend u) ∨
       (s.key e.edge w = e.key ∧ s.Pend e.edge ∧
        (∀ u x, (s.aut.wt u = some x ∧ ¬ s.Pend u) ∨ (u = e.edge ∧ x = w) ↔ s'.aut.wt u = some x ∧ ¬ s'.Pend u) ∧
        (∀ u y, s.Bound u y → s'.Bound u y) ∧
        let c := cb s.aut s.ext e.edge (e.trace, w) e.key
        let c2 := cb s'.aut c.1 e.edge (e.trace, w) ⊤
        if e.edge.src < p.size ∧ s'.ws = [] then s'.ext = c2.1 ∧ s'.found = c2.2
        else s'.ext = c.1 ∧ s'.found = (c.2 || s.found))) := by
  obtain ⟨⟨κ, h⟩, hC⟩ := hL
  have hin : e ∈ s.ws := hp.mem_iff.1 (List.mem_cons_self ..)
  obtain ⟨hκ, hne, ⟨w, hw, hkle⟩, hbig⟩ := h.entry e hin
  refine ⟨w, hw, hkle, le_trans h.kpos hκ, ?_⟩
  unfold spreStepWith at hs'
  simp only [if_true, hw] at hs'
  generalize hs1 : spreSeen junk p { s with ws := r } e = s1 at hs'
  obtain ⟨hmp, hcase⟩ := h.seen junk hp hle hw hs1.symm
  have hck : (w : WithTop T) + s1.minpath e.edge.dst = s1.key e.edge w := add_comm _ _
  have f1 : s1.aut = s.aut := by rw [← hs1]; rfl
  have f2 : s1.ws = r := by rw [← hs1]; rfl
  have f4 : s1.dp = s.dp := by rw [← hs1]; rfl
  have f5 : s1.popped = s.popped := by rw [← hs1]; rfl
  have f6 : s1.ext = s.ext := by rw [← hs1]; rfl
  have f7 : s1.found = s.found := by rw [← hs1]; rfl
  rw [hck] at hs'
  have hbd : ∀ u y, s1.Bound u y ↔ s.Bound u y := by intro u y; unfold SPreSt.Bound; rw [f1]
  have hk1 : s1.key e.edge w = s.key e.edge w := by
    unfold SPreSt.key
    rw [hmp _ (h.fix _ _ hw)]
  rcases hcase with ⟨c1, c2, c3⟩ | ⟨c1, c2, c3, c4⟩
  · rw [if_pos c1] at hs'
    have e1 : s1.Pend = s.Pend := funext fun u => propext (c3 u)
    rw [hs']
    refine ⟨c2, ?_, hmp, .inl ⟨hk1 ▸ c1, f1, f2, f6, f7, c3⟩⟩
    · rw [e1]
      refine ⟨?_, ?_, ?_, ?_, ?_⟩
      · simp only [f1, hbd]; exact hC.swapC
      · simp only [f1, hbd]; exact hC.noopC
      · simp only [f1, f4]; exact hC.dpC
      · simp only [f1, hbd]; exact hC.pushC
      · simp only [f5, hbd]; exact hC.popC
  · rw [if_neg (by rw [c1]; exact lt_irrefl _)] at hs'
    generalize hs2 : spreCall cb true s1 e w = s2 at hs'
    obtain ⟨ex, fo, h2e, hex, hfo⟩ : ∃ ex fo, s2 = { s1 with ext := ex, found := fo } ∧
        ex = (cb s.aut s.ext e.edge (e.trace, w) e.key).1 ∧ fo = ((cb s.aut s.ext e.edge (e.trace, w) e.key).2 || s.found) := by
      rw [← hs2, ← f1, ← f6, ← f7]; exact ⟨_, _, rfl, rfl, rfl⟩
    have d2 : SPreI p val a0 (· = e.edge.src) e.key { s2 with rel := s2.rel ++ [e.edge] } := by
      rw [h2e]; exact c2.withExt ex fo
    have d3 : SPreCur p val a0 (· = e.edge.src) e.key s2 e.edge w := by
      rw [h2e]; exact ⟨c3.here, c3.done, c3.key, c3.cur, c3.src⟩
    have g1 : s2.aut = s.aut := by rw [h2e]; exact f1
    have g4 : s2.dp = s.dp := by rw [h2e]; exact f4
    have g5 : s2.popped = s.popped := by rw [h2e]; exact f5
    have gb : ∀ u y, s2.Bound u y ↔ s.Bound u y := by intro u y; unfold SPreSt.Bound; rw [g1]
    have d4 : SPreC p val s2 fun u => u = e.edge ∨ s2.Pend u := by
      have hpe : ∀ u, ¬ (u = e.edge ∨ s2.Pend u) → ¬ s.Pend u := by
        intro u hn hp
        refine hn (.inr ?_)
        rw [h2e]
        exact (c4 u fun hu => hn (.inl hu)).2 hp
      refine ⟨?_, ?_, ?_, ?_, ?_⟩
      · simp only [g1, gb]; intro t x hx hn; exact hC.swapC t x hx (hpe t hn)
      · simp only [g1, gb]; intro t x hx hn; exact hC.noopC t x hx (hpe t hn)
      · simp only [g1, g4]; intro t x hx hn; exact hC.dpC t x hx (hpe t hn)
      · simp only [g1, gb]; intro t u x y hx hy hn hn'; exact hC.pushC t u x y hx hy (hpe t hn) (hpe u hn')
      · simp only [g5, gb]; exact hC.popC
    obtain ⟨i1, i2, i3, i4, i5, i6, i7, i8⟩ := spreBody_spec hcx d2 d3 d4
    generalize spreBody val p e.edge w s2 = s3 at i1 i2 i3 i4 i5 i6 i7 i8 hs'
    have hpe : s.Pend e.edge := ⟨w, e, hw, hin, rfl, by rw [← hk1, c1]⟩
    have hset : ∀ u x, (s.aut.wt u = some x ∧ ¬ s.Pend u) ∨ (u = e.edge ∧ x = w) ↔ s3.aut.wt u = some x ∧ ¬ s3.Pend u := by
      intro u x
      have hs2' : (s.aut.wt u = some x ∧ ¬ s.Pend u) ∨ (u = e.edge ∧ x = w) ↔ s2.aut.wt u = some x ∧ ¬ s2.Pend u := by
        by_cases hu : u = e.edge
        · subst hu
          constructor
          · rintro (⟨_, hn⟩ | ⟨_, rfl⟩)
            · exact absurd hpe hn
            · exact ⟨d3.here, d3.done⟩
          · rintro ⟨hx, _⟩
            have := d3.here
            rw [hx] at this
            cases this
            exact .inr ⟨rfl, rfl⟩
        · have : s2.Pend u ↔ s.Pend u := by rw [h2e]; exact c4 u hu
          rw [g1, this]
          constructor
          · rintro (hh | ⟨hh, _⟩)
            · exact hh
            · exact absurd hh hu
          · exact .inl
      rw [hs2']
      constructor
      · rintro ⟨a, b⟩; exact i3 u x a b
      · rintro ⟨a, b⟩; exact i7 u x a b
    have hmp3 : ∀ q, s.Fix p (fun _ => False) q → s3.minpath q = s.minpath q := by
      intro q hq
      rw [i8 q (by unfold SPreSt.Fix; rw [g5]; exact hq.imp_right fun hh => hh.imp_right False.elim), h2e]
      exact hmp q hq
    have hbb : ∀ u y, s.Bound u y → s3.Bound u y := fun u y hb => i4 u y ((gb u y).2 hb)
    have fin : ∀ ex fo, s' = { s3 with ext := ex, found := fo } →
        SPreI p val a0 (fun _ => False) e.key s' ∧ SPreC p val s' s'.Pend ∧
        (∀ q, s.Fix p (fun _ => False) q → s'.minpath q = s.minpath q) ∧
        (∀ u x, (s.aut.wt u = some x ∧ ¬ s.Pend u) ∨ (u = e.edge ∧ x = w) ↔ s'.aut.wt u = some x ∧ ¬ s'.Pend u) ∧
        (∀ u y, s.Bound u y → s'.Bound u y) := by
      intro ex4 fo4 h4
      rw [h4]
      exact ⟨i1.withExt ex4 fo4, i2.withExt ex4 fo4, hmp3, hset, hbb⟩
    by_cases hfl : e.edge.src < p.size ∧ s3.ws = []
    · rw [if_neg (by omega)] at hs'
      unfold spreFlush at hs'
      rw [if_pos (by rw [hfl.2]; rfl)] at hs'
      obtain ⟨j1, j2, j3, j4, j5⟩ := fin _ _ hs'
      refine ⟨j1, j2, j3, .inr ⟨hk1 ▸ c1, hpe, j4, j5, ?_⟩⟩
      have hws' : s'.ws = s3.ws := by rw [hs']
      have haut' : s'.aut = s3.aut := by rw [hs']
      dsimp only
      rw [hws', if_pos hfl, haut', hs', ← hex]
      have h2x : s2.ext = ex := by rw [h2e]
      refine ⟨?_, ?_⟩ <;> dsimp only <;> rw [i5, h2x]
    · have hss : s' = s3 := by
        split at hs'
        · exact hs'
        · rename_i hsz
          unfold spreFlush at hs'
          rwa [if_neg] at hs'
          rw [Bool.and_eq_true, List.isEmpty_iff]
          rintro ⟨_, hh⟩
          exact hfl ⟨by omega, hh⟩
      obtain ⟨j1, j2, j3, j4, j5⟩ := fin s3.ext s3.found (by rw [hss])
      refine ⟨j1, j2, j3, .inr ⟨hk1 ▸ c1, hpe, j4, j5, ?_⟩⟩
      dsimp only
      rw [hss, if_neg hfl, i5, i6, ← hex, ← hfo]
      constructor <;> rw [h2e]

/-- The step keeps the invariant; it shortens the queue or settles a transition. -/
theorem SPreL.step (hcx : SPreCtx p val a0) (cb : SCallback T σ) (junk : Nat → Bool) {s : SPreSt T σ} (hL : SPreL p val a0 s)
    {e : ShElem T} {r : List (ShElem T)} (hp : (e :: r).Perm s.ws) (hle : ∀ u ∈ r, e.key ≤ u.key) :
    SPreL p val a0 (spreStepWith val cb true junk p { s with ws := r } e) ∧
      ((∀ t, (spreStepWith val cb true junk p { s with ws := r } e).Settled t ↔ s.Settled t) ∧
          (spreStepWith val cb true junk p { s with ws := r } e).ws.length < s.ws.length ∨
        (∀ t, s.Settled t → (spreStepWith val cb true junk p { s with ws := r } e).Settled t) ∧
          ∃ t, Valid p a0.n t ∧ ¬ s.Settled t ∧ (spreStepWith val cb true junk p { s with ws := r } e).Settled t) := by
  obtain ⟨w, hw, _, _, h1, h2, _, h4⟩ := hL.step_cases hcx cb junk hp hle rfl
  generalize spreStepWith val cb true junk p { s with ws := r } e = s' at *
  refine ⟨⟨⟨_, h1⟩, h2⟩, ?_⟩
  rcases h4 with ⟨_, g1, g2, _, _, g3⟩ | ⟨_, g1, g2, _⟩
  · left
    refine ⟨fun t => ?_, ?_⟩
    · unfold SPreSt.Settled
      rw [g1, g3]
    · rw [g2, ← hp.length_eq]; simp
  · right
    obtain ⟨⟨κ, h⟩, _⟩ := hL
    refine ⟨?_, e.edge, h.valid _ _ hw, fun hh => hh.2 g1, ⟨w, ((g2 _ _).1 (.inr ⟨rfl, rfl⟩)).1⟩, ((g2 _ _).1 (.inr ⟨rfl, rfl⟩)).2⟩
    rintro t ⟨⟨x, hx⟩, hn⟩
    obtain ⟨k1, k2⟩ := (g2 t x).1 (.inl ⟨hx, hn⟩)
    exact ⟨⟨x, k1⟩, k2⟩

/-! ## Initialisation -/

omit [LinearOrder W] [Zero W] [IsOrderedCancelAddMonoid T] [LinearOrder T] in
theorem spreInitEdges (l : List Tr) (s : SPreSt T σ) :
    (l.foldl spreInitEdge s).aut = s.aut ∧ (l.foldl spreInitEdge s).ws = s.ws ++ l.map (fun t => ⟨0, t, {}⟩) ∧
      (l.foldl spreInitEdge s).rel = s.rel ∧ (l.foldl spreInitEdge s).dp = s.dp ∧ (l.foldl spreInitEdge s).popped = s.popped ∧
      (l.foldl spreInitEdge s).found = s.found ∧ (l.foldl spreInitEdge s).ext = s.ext ∧ (l.foldl spreInitEdge s).undef = s.undef ∧
      (l.foldl spreInitEdge s).failed = s.failed ∧
      (∀ q, (l.foldl spreInitEdge s).minpath q = s.minpath q ∨ (l.foldl spreInitEdge s).minpath q = 0) ∧
      (∀ q, s.minpath q = 0 → (l.foldl spreInitEdge s).minpath q = 0) ∧
      ∀ t ∈ l, (l.foldl spreInitEdge s).minpath t.src = 0 ∧ (l.foldl spreInitEdge s).minpath t.dst = 0 := by
  induction l generalizing s with
  | nil => simp
  | cons t l ih =>
    obtain ⟨h1, h2, h3, h4, h5, h6, h7, h8, h9, h10, h11, h12⟩ := ih (spreInitEdge s t)
    rw [List.foldl_cons]
    have hm : ∀ q, (spreInitEdge s t).minpath q = if q = t.dst then 0 else if q = t.src then 0 else s.minpath q := fun q => rfl
    have hz : ∀ q, s.minpath q = 0 ∨ q = t.src ∨ q = t.dst → (spreInitEdge s t).minpath q = 0 := by
      intro q hq
      rw [hm]
      split
      · rfl
      · split
        · rfl
        · rename_i g1 g2
          rcases hq with hq | hq | hq
          · exact hq
          · exact absurd hq g2
          · exact absurd hq g1
    refine ⟨h1, ?_, h3, h4, h5, h6, h7, h8, h9, ?_, fun q hq => h11 q (hz q (.inl hq)), ?_⟩
    · rw [h2]; simp [spreInitEdge]
    · intro q
      rcases h10 q with h | h
      · rw [h, hm]
        split
        · exact .inr rfl
        · split
          · exact .inr rfl
          · exact .inl rfl
      · exact .inr h
    · intro u hu
      rcases List.mem_cons.1 hu with rfl | hu
      · exact ⟨h11 _ (hz _ (.inr (.inl rfl))), h11 _ (hz _ (.inr (.inr rfl)))⟩
      · exact h12 u hu

omit [IsOrderedCancelAddMonoid T] in
theorem spreInit_eq (h : HashOrder) (hcx : SPreCtx p val a0) (e : σ) :
    spreInit val h p a0 e = ((List.range a0.n).flatMap fun i => a0.out h i).foldl spreInitEdge { aut := a0, ext := e } := by
  unfold spreInit
  rw [List.foldl_flatMap]
  suffices hgen : ∀ (l : List Nat) (s : SPreSt T σ), s.aut = a0 →
      l.foldl (fun s i =>
        let s := (s.aut.out h i).foldl spreInitEdge s
        if s.aut.isAcc i then spreAddPop val p s i else s) s = l.foldl (fun s i => (a0.out h i).foldl spreInitEdge s) s from
    hgen _ _ rfl
  intro l
  induction l with
  | nil => intro s _; rfl
  | cons i l ih =>
    intro s hs
    rw [List.foldl_cons, List.foldl_cons]
    have h1 := (spreInitEdges (a0.out h i) s).1
    have : (let s' := (s.aut.out h i).foldl spreInitEdge s
        if s'.aut.isAcc i then spreAddPop val p s' i else s') = (a0.out h i).foldl spreInitEdge s := by
      dsimp only
      rw [hs, h1, hs]
      split
      · rename_i hacc
        unfold spreAddPop
        rw [if_pos]
        by_contra hn
        rw [hcx.noAcc i (by omega)] at hacc
        cases hacc
      · rfl
    rw [this]
    exact ih _ (h1.trans hs)

omit [IsOrderedCancelAddMonoid T] [LinearOrder W] [Zero W] in
theorem wt_of_zero {a : Aut T} (hz : ∀ e ∈ a.edges, e.2.2 = 0) (t : Tr) (x : T) :
    a.wt t = some x ↔ x = 0 ∧ t ∈ keys a.edges := by
  constructor
  · intro hx
    have ht : t ∈ keys a.edges := by
      by_contra hn
      rw [(Aut.wt_none_iff _ _).2 hn] at hx
      cases hx
    refine ⟨?_, ht⟩
    unfold Aut.wt Aut.getEdge at hx
    obtain ⟨ann, h1, h2⟩ := Option.map_eq_some_iff.1 hx
    obtain ⟨e, h3, h4⟩ := Option.map_eq_some_iff.1 h1
    have := hz e (List.mem_of_find?_eq_some h3)
    rw [h4, h2] at this
    exact this
  · rintro ⟨rfl, ht⟩
    rcases hx : a.wt t with _ | x
    · rw [Aut.wt_none_iff] at hx
      exact absurd ht hx
    · unfold Aut.wt Aut.getEdge at hx
      obtain ⟨ann, h1, h2⟩ := Option.map_eq_some_iff.1 hx
      obtain ⟨e, h3, h4⟩ := Option.map_eq_some_iff.1 h1
      have := hz e (List.mem_of_find?_eq_some h3)
      rw [h4, h2] at this
      rw [this]

/-- The state after the constructor satisfies the invariant. -/
theorem spreInit_inv (h : HashOrder) (hcx : SPreCtx p val a0) (e : σ) :
    SPreL p val a0 (spreInit val h p a0 e) ∧ (spreInit val h p a0 e).aut = a0 ∧ (spreInit val h p a0 e).found = false ∧
      (spreInit val h p a0 e).ext = e ∧ (∀ u, u ∈ (spreInit val h p a0 e).ws ↔ ∃ t ∈ keys a0.edges, u = ⟨0, t, {}⟩) ∧
      (spreInit val h p a0 e).popped = [] := by
  rw [spreInit_eq h hcx e]
  have hperm := out_all h a0 fun t ht => (hcx.valid t ht).1
  obtain ⟨e1, e2, e3, e4, e5, e6, e7, e8, e9, e10, _, e12⟩ := spreInitEdges ((List.range a0.n).flatMap fun i => a0.out h i)
    ({ aut := a0, ext := e } : SPreSt T σ)
  generalize ((List.range a0.n).flatMap fun i => a0.out h i).foldl spreInitEdge ({ aut := a0, ext := e } : SPreSt T σ) = s
    at e1 e2 e3 e4 e5 e6 e7 e8 e9 e10 e12
  simp only [List.nil_append] at e1 e2 e3 e4 e5 e6 e7 e8 e9 e10 e12
  have hws : ∀ u, u ∈ s.ws ↔ ∃ t ∈ keys a0.edges, u = ⟨0, t, {}⟩ := by
    intro u
    rw [e2, List.mem_map]
    constructor
    · rintro ⟨t, h1, rfl⟩; exact ⟨t, hperm.mem_iff.1 h1, rfl⟩
    · rintro ⟨t, h1, rfl⟩; exact ⟨t, hperm.mem_iff.2 h1, rfl⟩
  have hw : ∀ t x, s.aut.wt t = some x ↔ x = 0 ∧ t ∈ keys a0.edges := by
    intro t x; rw [e1]; exact wt_of_zero hcx.zero t x
  have hmz : ∀ t ∈ keys a0.edges, s.minpath t.src = 0 ∧ s.minpath t.dst = 0 := fun t ht => e12 t (hperm.mem_iff.2 ht)
  have hkz : ∀ t ∈ keys a0.edges, s.key t 0 = 0 := by
    intro t ht
    unfold SPreSt.key
    rw [(hmz t ht).2, WithTop.coe_zero, add_zero]
  have hpend : ∀ t x, s.aut.wt t = some x → s.Pend t := by
    intro t x hx
    obtain ⟨rfl, ht⟩ := (hw t x).1 hx
    exact ⟨0, ⟨0, t, {}⟩, hx, (hws _).2 ⟨t, ht, rfl⟩, rfl, (hkz t ht).symm⟩
  refine ⟨⟨⟨0, ⟨?_, e8, e9, by rw [e1], le_refl _, WithTop.zero_ne_top, ?_, ?_, ?_, ?_, ?_, ?_, ?_, ?_, ?_, ?_, ?_, ?_, ?_, ?_, ?_⟩⟩, ?_⟩, e1, e6, e7, hws, e5⟩
  · rw [e1]; exact hcx.nodup
  · intro q
    rcases e10 q with hh | hh <;> rw [hh]
    exact le_top
  · intro t x hx
    obtain ⟨rfl, ht⟩ := (hw t x).1 hx
    exact PreDer.init ht
  · intro t x hx; exact hcx.valid t ((hw t x).1 hx).2
  · intro t x hx; rw [((hw t x).1 hx).1]
  · intro t ht; exact (hw t 0).2 ⟨rfl, ht⟩
  · intro t x hx; exact .inl (hcx.noInto t ((hw t x).1 hx).2)
  · intro t x hx _; exact (hmz t ((hw t x).1 hx).2).2
  · intro t x hx _; exact (hmz t ((hw t x).1 hx).2).1
  · intro q _ hq
    rw [e5] at hq
    rcases hq with hq | hq
    · cases hq
    · exact hq.elim
  · intro t x hx _
    obtain ⟨rfl, ht⟩ := (hw t x).1 hx
    rw [(hmz t ht).1, hkz t ht]
  · intro u hu
    obtain ⟨t, ht, rfl⟩ := (hws u).1 hu
    exact ⟨le_refl _, WithTop.zero_ne_top, ⟨0, (hw t 0).2 ⟨rfl, ht⟩, by rw [hkz t ht]⟩, fun _ => rfl⟩
  · rw [e2, List.map_map]
    refine List.Nodup.map ?_ (hperm.nodup_iff.2 hcx.nodup)
    intro t u htu
    simpa using htu
  · intro t x hx hn; exact absurd (hpend t x hx) hn
  · intro t ht; rw [e3] at ht; cases ht
  · intro q st id hm; rw [e4] at hm; cases hm
  · refine ⟨?_, ?_, ?_, ?_, ?_⟩
    · intro t x hx hn; exact absurd (hpend t x hx) hn
    · intro t x hx hn; exact absurd (hpend t x hx) hn
    · intro t x hx hn; exact absurd (hpend t x hx) hn
    · intro t u x y hx hy hn; exact absurd (hpend t x hx) hn
    · intro q hq; rw [e5] at hq; cases hq

/-! ## Termination and closedness -/

omit [LinearOrder T] [AddCommMonoid T] [IsOrderedCancelAddMonoid T] [LinearOrder W] [Zero W] in
theorem Valid.pvalid {N n : Nat} (hn : n ≤ N) {t : Tr} (h : Valid p n t) : t.src < N ∧ t.label < p.nLabels ∧ t.dst < N :=
  ⟨by have := h.1; omega, h.2.1, by have := h.2.2; omega⟩

/-- All transitions in range. -/
def allValid (p : Pda W) (N : Nat) : List Tr :=
  (List.range N).flatMap fun q => (List.range p.nLabels).flatMap fun g => (List.range N).map fun u => ⟨q, g, u⟩

omit [LinearOrder T] [AddCommMonoid T] [IsOrderedCancelAddMonoid T] [LinearOrder W] [Zero W] in
theorem mem_allValid {N : Nat} {t : Tr} (h : Valid p N t) : t ∈ allValid p N := by
  obtain ⟨q, g, u⟩ := t
  unfold allValid
  simp only [List.mem_flatMap, List.mem_map, List.mem_range]
  exact ⟨q, h.1, g, h.2.1, u, h.2.2, rfl⟩

open Classical in
theorem spre_terminates (hcx : SPreCtx p val a0) (hp : Heap (ShElem T) (WithTop T) ShElem.key) (cb : SCallback T σ)
    (junk : Nat → Bool) {s : SPreSt T σ} (hs : SPreL p val a0 s) :
    ∃ fuel r, whileSome (spreStep val hp cb true junk p) fuel s = some r := by
  refine FP.whileSome_wf (fun s => (allValid p a0.n).countP fun t => decide (¬ s.Settled t)) (fun s => s.ws.length)
    (SPreL p val a0) ?_ s hs
  intro s s' hs hst
  unfold spreStep at hst
  split at hst
  · cases hst
  · rcases hpop : hp.pop s.ws with _ | ⟨e, r⟩
    · rw [hpop] at hst; cases hst
    · rw [hpop] at hst
      simp only [Option.map_some, Option.some.injEq] at hst
      obtain ⟨h1, h2⟩ := hp.spec _ _ _ hpop
      obtain ⟨h3, h4⟩ := hs.step hcx cb junk h1 h2
      rw [hst] at h3 h4
      refine ⟨h3, ?_⟩
      rcases h4 with ⟨h4, h5⟩ | ⟨h4, t, ht, h5, h6⟩
      · refine .inr ⟨?_, h5⟩
        simp only [h4]
      · refine .inl (countP_lt_of_imp _ _ _ ?_ (mem_allValid ht) (by simpa using h5) (by simpa using h6))
        intro u _ hu
        simp only [decide_eq_true_eq] at hu ⊢
        exact fun hh => hu (h4 u hh)

/-- The invariant holds at the end; the queue is empty or the callback has answered `true`. -/
theorem spre_inv (hcx : SPreCtx p val a0) (hp : Heap (ShElem T) (WithTop T) ShElem.key) (cb : SCallback T σ)
    (junk : Nat → Bool) {s r : SPreSt T σ} {fuel : Nat} (hs : SPreL p val a0 s)
    (hr : whileSome (spreStep val hp cb true junk p) fuel s = some r) : SPreL p val a0 r ∧ (r.found = true ∨ r.ws = []) := by
  obtain ⟨h1, h2⟩ := whileSome_inv (I := SPreL p val a0) (by
    intro s s' hs hst
    unfold spreStep at hst
    split at hst
    · cases hst
    · rcases hpop : hp.pop s.ws with _ | ⟨e, r⟩
      · rw [hpop] at hst; cases hst
      · rw [hpop] at hst
        simp only [Option.map_some, Option.some.injEq] at hst
        obtain ⟨h1, h2⟩ := hp.spec _ _ _ hpop
        rw [← hst]
        exact (hs.step hcx cb junk h1 h2).1) hs hr
  refine ⟨h1, ?_⟩
  unfold spreStep at h2
  split at h2
  · rename_i hf
    left; simpa using hf
  · right
    rw [Option.map_eq_none_iff] at h2
    exact (hp.none_iff _).1 h2

/-- When the queue is empty, the weights are closed. -/
theorem SPreL.closed (hcx : SPreCtx p val a0) (hk : p.LookupOK) {s : SPreSt T σ} (h : SPreL p val a0 s) (hws : s.ws = []) :
    FPreClosed p.Has val (fun q => a0.isAcc q = true) (fun t x => s.aut.wt t = some x) := by
  obtain ⟨⟨κ, h⟩, hC⟩ := h
  have hq : ∀ t, ¬ s.Pend t := by
    rintro t ⟨_, e, _, he, _⟩
    rw [hws] at he
    cases he
  intro r hr
  rw [Pda.Has_iff] at hr
  obtain ⟨l, hm, hg⟩ := hr
  obtain ⟨id, hid⟩ := List.mem_iff_getElem?.1 hm
  have hto : r.dst < p.size := hcx.wf.toLt _ _ hm
  have hc := (hcx.wf.mem_expand hm r.pre).1 hg
  cases hop : r.op <;> simp only
  · intro m q x y hx hy
    exact hC.pushC _ _ x y hx hy (hq _) (hq _) rfl r.src id _ l hid rfl hop rfl (hk.missed hm) hc.1
  · intro h3
    refine hC.popC r.dst ?_ r.src id _ l hid rfl hop _ hg
    rcases h3 with h3 | ⟨g, q, x, h3⟩
    · rw [hcx.noAcc _ hto] at h3; cases h3
    · exact ((h.settled _ x h3 (hq _)).2.2 hto).resolve_right fun hf => hf
  · intro q x hx
    exact hC.swapC _ x hx (hq _) r.src id _ l hid rfl hop rfl _ hg
  · intro q x hx
    exact hC.noopC _ x hx (hq _) r.src id _ l hid rfl hop hc.1

end Verif
