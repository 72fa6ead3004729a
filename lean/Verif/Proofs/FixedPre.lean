import Verif.Proofs.FixedSat
import Verif.Proofs.PreFinal
import Mathlib.Algebra.Order.Monoid.Defs

/-! # Fixed-point pre*: invariant of the first phase -/

namespace Verif

variable {W T : Type}

/-- The weights that the saturation can derive for a transition. -/
inductive PreDer [AddCommMonoid T] (R : URule W → Prop) (val : W → T) (E0 : Tr → Prop) : Tr → T → Prop where
  | init {t : Tr} : E0 t → PreDer R val E0 t 0
  | pop {r : URule W} : R r → r.op = .pop → PreDer R val E0 ⟨r.src, r.pre, r.dst⟩ (val r.weight)
  | swap {r : URule W} {q : Nat} {x : T} : R r → r.op = .swap → PreDer R val E0 ⟨r.dst, r.opLabel, q⟩ x →
      PreDer R val E0 ⟨r.src, r.pre, q⟩ (val r.weight + x)
  | noop {r : URule W} {q : Nat} {x : T} : R r → r.op = .noop → PreDer R val E0 ⟨r.dst, r.pre, q⟩ x →
      PreDer R val E0 ⟨r.src, r.pre, q⟩ (val r.weight + x)
  | push {r : URule W} {m q : Nat} {x y : T} : R r → r.op = .push → PreDer R val E0 ⟨r.dst, r.opLabel, m⟩ x →
      PreDer R val E0 ⟨m, r.pre, q⟩ y → PreDer R val E0 ⟨r.src, r.pre, q⟩ (val r.weight + x + y)

/-- The automata the fixed-point saturations are called on: in range, without repeated transitions, and with the
weight zero everywhere (asserted in internal/PdaSaturation.h:821). -/
structure FAutOK [Zero T] (p : Pda W) (a : Aut (Trace × T)) : Prop where
  size_le : p.size ≤ a.n
  valid : ∀ t ∈ keys a.edges, Valid p a.n t
  nodup : (keys a.edges).Nodup
  zero : ∀ e ∈ a.edges, e.2.2.2 = 0

section
variable [LinearOrder T] [AddCommMonoid T] [LinearOrder W] [Zero W]

/-- What every update of the first phase keeps. -/
structure FPreI (p : Pda W) (val : W → T) (a0 : Aut (Trace × T)) (s : FPre T) : Prop where
  nodup : (keys s.aut.edges).Nodup
  sound : ∀ t x, s.wt t = some x → PreDer p.Has val (· ∈ keys a0.edges) t x
  valid : ∀ t ∈ keys s.aut.edges, Valid p a0.n t
  rel : ∀ t, t ∈ s.x.rel ↔ t ∈ keys s.aut.edges
  dpOK : ∀ q st id, (q, st, id) ∈ s.x.dp → ∃ r l, (p.st st).rules[id]? = some (r, l) ∧ r.op = .push ∧
    (⟨r.to, r.opLabel, q⟩ : Tr) ∈ keys s.aut.edges
  undef : s.undef = false
  count : s.count = s.aut.edges.length
  queued : ∀ t, s.Queued t → t ∈ keys s.aut.edges

/-- Progress of pre*. -/
structure FPreAdv (s s' : FPre T) : Prop where
  adv : Adv (fun _ => true) s s'
  dp : ∀ d ∈ s.x.dp, d ∈ s'.x.dp
  popped : s'.x.popped = s.x.popped

omit [AddCommMonoid T] in
theorem FPreAdv.refl (s : FPre T) : FPreAdv s s := ⟨Adv.refl _ s, fun _ h => h, rfl⟩

omit [AddCommMonoid T] in
theorem FPreAdv.trans (a b c : FPre T) (h : FPreAdv a b) (h' : FPreAdv b c) : FPreAdv a c :=
  ⟨h.adv.trans h'.adv, fun d hd => h'.dp d (h.dp d hd), h'.popped.trans h.popped⟩

variable [OrderBot T] {p : Pda W} {val : W → T} {a0 : Aut (Trace × T)}

/-- One update with a derivable weight. -/
theorem fpreUpdate_spec (hN : p.size ≤ a0.n) {s : FPre T} (h : FPreI p val a0 s) {t : Tr} {w : T}
    (hd : PreDer p.Has val (· ∈ keys a0.edges) t w) (hv : Valid p a0.n t) (tr : Trace) :
    FPreI p val a0 (fpreUpdate false s t w tr) ∧ FPreAdv s (fpreUpdate false s t w tr) ∧
      (fpreUpdate false s t w tr).Bound t w := by
  obtain ⟨h1, h2, h3, h4, h5, h6, h7, h8⟩ :=
    fixUpdate_spec (fun (x : FPreX) t => { x with rel := x.rel ++ [t] }) (fun _ => true) s t w tr
  unfold fpreUpdate
  generalize hs' : (fixUpdate (fun (x : FPreX) t => { x with rel := x.rel ++ [t] }) (fun _ => true) false s t w tr).1 = s' at *
  have hkeys : ∀ u, u ∈ keys s'.aut.edges ↔ u = t ∨ u ∈ keys s.aut.edges := by
    intro u
    rcases h8 with ⟨_, hk, _⟩ | ⟨hk0, hk, _⟩
    · rw [hk, List.mem_cons]
    · rw [hk]
      constructor
      · exact .inr
      · rintro (rfl | h)
        · exact hk0
        · exact h
  have hdp : s'.x.dp = s.x.dp ∧ s'.x.popped = s.x.popped ∧ ∀ u, u ∈ s'.x.rel ↔ u = t ∨ u ∈ s.x.rel := by
    rcases h8 with ⟨_, _, hx, _⟩ | ⟨hk0, _, hx, _⟩ <;> rw [hx]
    · refine ⟨rfl, rfl, fun u => ?_⟩
      rw [List.mem_append, List.mem_singleton, or_comm]
    · refine ⟨rfl, rfl, fun u => ⟨.inr, ?_⟩⟩
      rintro (rfl | hu)
      · exact (h.rel _).2 hk0
      · exact hu
  refine ⟨⟨?_, ?_, ?_, ?_, ?_, h3.trans h.undef, ?_, ?_⟩, ⟨h1, ?_, hdp.2.1⟩, h2⟩
  · rcases h8 with ⟨hn, hk, _⟩ | ⟨_, hk, _⟩ <;> rw [hk]
    · exact List.nodup_cons.2 ⟨hn, h.nodup⟩
    · exact h.nodup
  · intro u x hx
    rcases h4 u x hx with hx | ⟨rfl, rfl⟩
    · exact h.sound u x hx
    · exact hd
  · intro u hu
    rcases (hkeys u).1 hu with rfl | hu
    · exact hv
    · exact h.valid u hu
  · intro u
    rw [hkeys, hdp.2.2, h.rel]
  · intro q st id hm
    rw [hdp.1] at hm
    obtain ⟨r, l, ha, hb, hc⟩ := h.dpOK q st id hm
    exact ⟨r, l, ha, hb, (hkeys _).2 (.inr hc)⟩
  · have hlen : ∀ E : List (AEdge (Trace × T)), (keys E).length = E.length := fun E => List.length_map ..
    rcases h8 with ⟨_, hk, _, hc⟩ | ⟨_, hk, _, hc⟩
    · rw [hc, h.count, ← hlen s'.aut.edges, hk, List.length_cons, hlen]
    · rw [hc, h.count, ← hlen s'.aut.edges, hk, hlen]
  · intro u hu
    rw [hkeys]
    by_cases hut : u = t
    · exact .inl hut
    · right
      have : s.Queued u := by
        rcases hu with hu | hu
        · rw [h1.work] at hu; exact .inl hu
        · rw [← hs'] at hu
          unfold fixUpdate at hu
          split at hu
          · simp only [Bool.false_eq_true, if_false, if_true, List.mem_append, List.mem_singleton] at hu
            exact .inr (hu.resolve_right hut)
          · split at hu
            · simp only [if_true, List.mem_append, List.mem_singleton] at hu
              exact .inr (hu.resolve_right hut)
            · exact .inr hu
      exact h.queued u this
  · intro d hd'; rw [hdp.1]; exact hd'

theorem fpreBulk_spec (hN : p.size ≤ a0.n) {s : FPre T} (h : FPreI p val a0 s) {src : Nat} {l : Labels} {dst : Nat}
    {w : T} (tr : Trace) (hd : ∀ g ∈ p.expand l, PreDer p.Has val (· ∈ keys a0.edges) ⟨src, g, dst⟩ w ∧
      Valid p a0.n ⟨src, g, dst⟩) :
    FPreI p val a0 (fpreBulk p false s src l dst w tr) ∧ FPreAdv s (fpreBulk p false s src l dst w tr) ∧
      ∀ g ∈ p.expand l, (fpreBulk p false s src l dst w tr).Bound ⟨src, g, dst⟩ w := by
  unfold fpreBulk
  exact foldl_adv FPreAdv.refl FPreAdv.trans (FPreI p val a0) (fun s g => fpreUpdate false s ⟨src, g, dst⟩ w tr)
    (fun g s => s.Bound ⟨src, g, dst⟩ w) (fun b s s' hr hb => hr.adv.less _ _ hb) (p.expand l)
    (fun s g hg hs => fpreUpdate_spec hN hs (hd g hg).1 (hd g hg).2 tr) s h

/-! ## Derivations by the rules of the model -/

omit [LinearOrder T] [Zero W] [OrderBot T] in
theorem der_pop {X : Type} {a0 : Aut X} (hp : p.WF) (hN : p.size ≤ a0.n) {pre id : Nat} {r : Rule W} {l : Labels}
    (hr : (p.st pre).rules[id]? = some (r, l)) (hop : r.op = .pop) {g : Nat} (hg : g ∈ p.expand l) :
    PreDer p.Has val (· ∈ keys a0.edges) ⟨pre, g, r.to⟩ (val r.weight) ∧ Valid p a0.n ⟨pre, g, r.to⟩ := by
  have hm := List.mem_of_getElem? hr
  have h1 := Pda.lt_size_of_rule hr
  have h2 := hp.toLt _ _ hm
  dsimp only at h2
  exact ⟨PreDer.pop (has_of_rule hr hg) hop, by show pre < a0.n; omega, ((hp.mem_expand hm g).1 hg).2,
    by show r.to < a0.n; omega⟩

omit [LinearOrder T] [Zero W] [OrderBot T] in
theorem der_swap {X : Type} {a0 : Aut X} (hp : p.WF) (hN : p.size ≤ a0.n) {pre id q : Nat} {r : Rule W} {l : Labels} {x : T}
    (hr : (p.st pre).rules[id]? = some (r, l)) (hop : r.op = .swap) {g : Nat} (hg : g ∈ p.expand l)
    (hx : PreDer p.Has val (· ∈ keys a0.edges) ⟨r.to, r.opLabel, q⟩ x) (hq : q < a0.n) :
    PreDer p.Has val (· ∈ keys a0.edges) ⟨pre, g, q⟩ (val r.weight + x) ∧ Valid p a0.n ⟨pre, g, q⟩ := by
  have hm := List.mem_of_getElem? hr
  have h1 := Pda.lt_size_of_rule hr
  exact ⟨PreDer.swap (has_of_rule hr hg) hop hx, by show pre < a0.n; omega, ((hp.mem_expand hm g).1 hg).2, hq⟩

omit [LinearOrder T] [Zero W] [OrderBot T] in
theorem der_noop {X : Type} {a0 : Aut X} (hp : p.WF) (hN : p.size ≤ a0.n) {pre id q : Nat} {r : Rule W} {l : Labels} {x : T}
    (hr : (p.st pre).rules[id]? = some (r, l)) (hop : r.op = .noop) {g : Nat} (hg : g ∈ p.expand l)
    (hx : PreDer p.Has val (· ∈ keys a0.edges) ⟨r.to, g, q⟩ x) (hq : q < a0.n) :
    PreDer p.Has val (· ∈ keys a0.edges) ⟨pre, g, q⟩ (val r.weight + x) ∧ Valid p a0.n ⟨pre, g, q⟩ := by
  have hm := List.mem_of_getElem? hr
  have h1 := Pda.lt_size_of_rule hr
  exact ⟨PreDer.noop (has_of_rule hr hg) hop hx, by show pre < a0.n; omega, ((hp.mem_expand hm g).1 hg).2, hq⟩

omit [LinearOrder T] [Zero W] [OrderBot T] in
theorem der_push {X : Type} {a0 : Aut X} (hp : p.WF) (hN : p.size ≤ a0.n) {pre id q m : Nat} {r : Rule W} {l : Labels} {x y : T}
    (hr : (p.st pre).rules[id]? = some (r, l)) (hop : r.op = .push) {g : Nat} (hg : g ∈ p.expand l)
    (hx : PreDer p.Has val (· ∈ keys a0.edges) ⟨r.to, r.opLabel, m⟩ x)
    (hy : PreDer p.Has val (· ∈ keys a0.edges) ⟨m, g, q⟩ y) (hq : q < a0.n) :
    PreDer p.Has val (· ∈ keys a0.edges) ⟨pre, g, q⟩ (val r.weight + x + y) ∧ Valid p a0.n ⟨pre, g, q⟩ := by
  have hm := List.mem_of_getElem? hr
  have h1 := Pda.lt_size_of_rule hr
  exact ⟨PreDer.push (has_of_rule hr hg) hop hx hy, by show pre < a0.n; omega, ((hp.mem_expand hm g).1 hg).2, hq⟩

/-! ## The loops of `step_with` -/

/-- The loop over `_delta_prime[t._from]`. -/
theorem fpreDelta_spec (hp : p.WF) (hN : p.size ≤ a0.n) {t : Tr} {w : T}
    (ht : PreDer p.Has val (· ∈ keys a0.edges) t w) (hv : Valid p a0.n t) (s : FPre T) (h : FPreI p val a0 s)
    (st id : Nat) (hd : (t.src, st, id) ∈ s.x.dp) :
    FPreI p val a0 (fpreDelta val p false t w s (st, id)) ∧ FPreAdv s (fpreDelta val p false t w s (st, id)) ∧
      ∀ r l, (p.st st).rules[id]? = some (r, l) → l.contains t.label = true → ∀ y,
        (fpreDelta val p false t w s (st, id)).wt ⟨r.to, r.opLabel, t.src⟩ = some y →
        ¬ (fpreDelta val p false t w s (st, id)).Queued ⟨r.to, r.opLabel, t.src⟩ →
        (fpreDelta val p false t w s (st, id)).Bound ⟨st, t.label, t.dst⟩ (val r.weight + y + w) := by
  obtain ⟨r, l, hr, hop, hk⟩ := h.dpOK _ _ _ hd
  obtain ⟨y, hy⟩ := s.exists_wt hk
  unfold fpreDelta
  simp only [hr, hy]
  by_cases hc : l.contains t.label = true
  · simp only [hc, if_true]
    have hm := List.mem_of_getElem? hr
    have hg : t.label ∈ p.expand l := (hp.mem_expand hm _).2 ⟨hc, hv.2.1⟩
    have hd := der_push hp hN hr hop hg (h.sound _ _ hy) (q := t.dst) (y := w) ht hv.2.2
    obtain ⟨h1, h2, h3⟩ := fpreUpdate_spec hN h hd.1 hd.2 (Trace.preTemp id t.src)
    refine ⟨h1, h2, ?_⟩
    intro r' l' hr' _ y' hy' hq'
    cases hr'
    have := h2.adv.back rfl hq'
    rw [← this.1, hy] at hy'
    cases hy'
    exact h3
  · simp only [hc, Bool.false_eq_true, if_false]
    refine ⟨h, FPreAdv.refl s, ?_⟩
    intro r' l' hr' hc' 
    cases hr'
    exact absurd hc' hc

/-- The loop over `_rel[t._to]`. -/
theorem fpreRel_spec (hp : p.WF) (hN : p.size ≤ a0.n) {t : Tr} {w : T} {pre id : Nat} {r : Rule W} {l : Labels}
    (hr : (p.st pre).rules[id]? = some (r, l)) (hop : r.op = .push) (hto : r.to = t.src) (hl : r.opLabel = t.label)
    (ht : PreDer p.Has val (· ∈ keys a0.edges) t w) (s : FPre T) (h : FPreI p val a0 s)
    (u : Tr) (hu : u ∈ keys s.aut.edges) (hsrc : u.src = t.dst) :
    FPreI p val a0 (fpreRel false t pre id l (val r.weight + w) s u) ∧
      FPreAdv s (fpreRel false t pre id l (val r.weight + w) s u) ∧
      (l.contains u.label = true → ∀ y, (fpreRel false t pre id l (val r.weight + w) s u).wt u = some y →
        ¬ (fpreRel false t pre id l (val r.weight + w) s u).Queued u →
        (fpreRel false t pre id l (val r.weight + w) s u).Bound ⟨pre, u.label, u.dst⟩ (val r.weight + w + y)) := by
  obtain ⟨y, hy⟩ := s.exists_wt hu
  unfold fpreRel
  simp only [hy]
  by_cases hc : l.contains u.label = true
  · simp only [hc, if_true]
    have hv := h.valid u hu
    have hm := List.mem_of_getElem? hr
    have hg : u.label ∈ p.expand l := (hp.mem_expand hm _).2 ⟨hc, hv.2.1⟩
    have hd := der_push hp hN hr hop hg (m := t.dst) (x := w) (q := u.dst) (y := y) (by rw [hto, hl]; exact ht)
      (by rw [← hsrc]; exact h.sound _ _ hy) hv.2.2
    obtain ⟨h1, h2, h3⟩ := fpreUpdate_spec hN h hd.1 hd.2 (Trace.preTemp id t.dst)
    refine ⟨h1, h2, ?_⟩
    intro _ y' hy' hq'
    have := h2.adv.back rfl hq'
    rw [← this.1, hy] at hy'
    cases hy'
    exact h3
  · simp only [hc, Bool.false_eq_true, if_false]
    exact ⟨h, FPreAdv.refl s, fun hf => hf.elim⟩

/-- What processing `t` with weight `w` achieves for one rule into `t._from`. -/
def FRuleDone (p : Pda W) (val : W → T) (t : Tr) (w : T) (pre id : Nat) (r : Rule W) (l : Labels) (s : FPre T) : Prop :=
  (r.op = .pop → t.src ∈ s.x.popped ∨ ∀ g ∈ p.expand l, s.Bound ⟨pre, g, t.src⟩ (val r.weight)) ∧
  (r.op = .swap → r.opLabel = t.label → ∀ g ∈ p.expand l, s.Bound ⟨pre, g, t.dst⟩ (val r.weight + w)) ∧
  (r.op = .noop → l.contains t.label = true → s.Bound ⟨pre, t.label, t.dst⟩ (val r.weight + w)) ∧
  (r.op = .push → r.opLabel = t.label → (t.dst, pre, id) ∈ s.x.dp ∧
    ∀ u, u.src = t.dst → l.contains u.label = true → ∀ y, s.wt u = some y → ¬ s.Queued u →
      s.Bound ⟨pre, u.label, u.dst⟩ (val r.weight + w + y))

omit [Zero W] [LinearOrder W] [OrderBot T] in
theorem FRuleDone.mono {t : Tr} {w : T} {pre id : Nat} {r : Rule W} {l : Labels} {s s' : FPre T} (hr : FPreAdv s s')
    (h : FRuleDone p val t w pre id r l s) : FRuleDone p val t w pre id r l s' := by
  obtain ⟨h1, h2, h3, h4⟩ := h
  refine ⟨fun ho => ?_, fun ho hl g hg => hr.adv.less _ _ (h2 ho hl g hg), fun ho hl => hr.adv.less _ _ (h3 ho hl),
    fun ho hl => ⟨hr.dp _ (h4 ho hl).1, fun u hu hc y hy hq => ?_⟩⟩
  · rcases h1 ho with h | h
    · exact .inl (hr.popped ▸ h)
    · exact .inr fun g hg => hr.adv.less _ _ (h g hg)
  · have hb := hr.adv.back rfl hq
    exact hr.adv.less _ _ ((h4 ho hl).2 u hu hc y (hb.1.trans hy) hb.2)

theorem fpreRule_spec (hp : p.WF) (hN : p.size ≤ a0.n) {t : Tr} {w : T}
    (ht : PreDer p.Has val (· ∈ keys a0.edges) t w) (hv : Valid p a0.n t)
    (s : FPre T) (h : FPreI p val a0 s) (hts : t ∈ keys s.aut.edges)
    {pre id : Nat} {r : Rule W} {l : Labels} (hr : (p.st pre).rules[id]? = some (r, l)) (hto : r.to = t.src) :
    FPreI p val a0 (fpreRule val p false t w pre s (id, r, l)) ∧
      FPreAdv s (fpreRule val p false t w pre s (id, r, l)) ∧
      FRuleDone p val t w pre id r l (fpreRule val p false t w pre s (id, r, l)) := by
  have hm := List.mem_of_getElem? hr
  unfold fpreRule
  cases hop : r.op <;> simp only [hop]
  · -- push
    by_cases hl : r.opLabel = t.label
    · rw [if_pos hl]
      have hmem : ∀ d, d ∈ (if s.x.dp.contains (t.dst, pre, id) then s.x.dp
          else insertBy dpLt (t.dst, pre, id) s.x.dp) ↔ d = (t.dst, pre, id) ∨ d ∈ s.x.dp := by
        intro d
        split
        · rename_i hc
          have hc : (t.dst, pre, id) ∈ s.x.dp := by simpa using hc
          constructor
          · exact .inr
          · rintro (rfl | h)
            · exact hc
            · exact h
        · rw [(insertBy_perm dpLt (t.dst, pre, id) s.x.dp).mem_iff, List.mem_cons]
      generalize hD : (if s.x.dp.contains (t.dst, pre, id) then s.x.dp
          else insertBy dpLt (t.dst, pre, id) s.x.dp) = D at *
      have h0 : FPreI p val a0 { s with x := { s.x with dp := D } } := by
        refine ⟨h.nodup, h.sound, h.valid, h.rel, ?_, h.undef, h.count, h.queued⟩
        intro q st id' hm'
        rcases (hmem _).1 hm' with he | hm'
        · cases he
          refine ⟨r, l, hr, hop, ?_⟩
          rw [hto, hl]; exact hts
        · exact h.dpOK _ _ _ hm'
      have hadv : FPreAdv s { s with x := { s.x with dp := D } } :=
        ⟨⟨fun _ _ h => h, fun _ _ => .inr rfl, fun _ h => h, rfl, fun h => h, Nat.le_refl _, rfl, rfl, rfl⟩,
          fun d hd => (hmem d).2 (.inr hd), rfl⟩
      have hkeysmono : ∀ s s' : FPre T, FPreAdv s s' → ∀ u, u ∈ keys s.aut.edges → u ∈ keys s'.aut.edges := by
        intro s s' hr u hu
        obtain ⟨x, hx⟩ := s.exists_wt hu
        exact (hr.adv.less _ _ (FixSt.wt_bound hx)).mem
      obtain ⟨h1, h2, h3⟩ := foldl_adv (R := FPreAdv) FPreAdv.refl FPreAdv.trans
        (fun s' => FPreI p val a0 s' ∧ FPreAdv { s with x := { s.x with dp := D } } s')
        (fpreRel false t pre id l (val r.weight + w))
        (fun u s' => l.contains u.label = true → ∀ y, s'.wt u = some y → ¬ s'.Queued u →
          s'.Bound ⟨pre, u.label, u.dst⟩ (val r.weight + w + y))
        (fun u s1 s2 hr hP hc y hy hq => by
          have hb := hr.adv.back rfl hq
          exact hr.adv.less _ _ (hP hc y (hb.1.trans hy) hb.2))
        (s.x.relAt t.dst)
        (fun s1 u hu hs1 => by
          unfold FPreX.relAt at hu
          rw [List.mem_filter] at hu
          have hu2 : u.src = t.dst := by simpa using hu.2
          have := fpreRel_spec hp hN hr hop hto hl ht s1 hs1.1 u
            (hkeysmono _ _ hs1.2 u ((h.rel u).1 hu.1)) hu2
          exact ⟨⟨this.1, FPreAdv.trans _ _ _ hs1.2 this.2.1⟩, this.2.1, this.2.2⟩)
        { s with x := { s.x with dp := D } } ⟨h0, FPreAdv.refl _⟩
      refine ⟨h1.1, FPreAdv.trans _ _ _ hadv h2, ?_, ?_, ?_, ?_⟩
      · intro ho; cases hop.symm.trans ho
      · intro ho; cases hop.symm.trans ho
      · intro ho; cases hop.symm.trans ho
      · intro _ _
        refine ⟨h2.dp _ ((hmem _).2 (.inl rfl)), ?_⟩
        intro u hu hc y hy hq
        refine h3 u ?_ hc y hy hq
        unfold FPreX.relAt
        rw [List.mem_filter]
        have hb := h2.adv.back rfl hq
        refine ⟨(h.rel u).2 (s.wt_some (hb.1.trans hy)), by simpa using hu⟩
    · rw [if_neg hl]
      refine ⟨h, FPreAdv.refl s, ?_, ?_, ?_, ?_⟩
      · intro ho; cases hop.symm.trans ho
      · intro ho; cases hop.symm.trans ho
      · intro ho; cases hop.symm.trans ho
      · intro _ hl'; exact absurd hl' hl
  · -- pop
    by_cases hpop : s.x.popped.contains t.src = true
    · rw [if_pos hpop]
      refine ⟨h, FPreAdv.refl s, ?_, ?_, ?_, ?_⟩
      · intro _; left; simpa using hpop
      · intro ho; cases hop.symm.trans ho
      · intro ho; cases hop.symm.trans ho
      · intro ho; cases hop.symm.trans ho
    · rw [if_neg hpop]
      obtain ⟨h1, h2, h3⟩ := fpreBulk_spec hN h (src := pre) (l := l) (dst := t.src) (w := val r.weight) (Trace.pre id)
        (fun g hg => hto ▸ der_pop hp hN hr hop hg)
      refine ⟨h1, h2, ?_, ?_, ?_, ?_⟩
      · intro _; right; exact h3
      · intro ho; cases hop.symm.trans ho
      · intro ho; cases hop.symm.trans ho
      · intro ho; cases hop.symm.trans ho
  · -- swap
    by_cases hl : r.opLabel = t.label
    · rw [if_pos hl]
      obtain ⟨h1, h2, h3⟩ := fpreBulk_spec hN h (src := pre) (l := l) (dst := t.dst) (w := val r.weight + w)
        (Trace.pre id) (fun g hg => der_swap hp hN hr hop hg (by rw [hto, hl]; exact ht) hv.2.2)
      refine ⟨h1, h2, ?_, ?_, ?_, ?_⟩
      · intro ho; cases hop.symm.trans ho
      · intro _ _; exact h3
      · intro ho; cases hop.symm.trans ho
      · intro ho; cases hop.symm.trans ho
    · rw [if_neg hl]
      refine ⟨h, FPreAdv.refl s, ?_, ?_, ?_, ?_⟩
      · intro ho; cases hop.symm.trans ho
      · intro _ hl'; exact absurd hl' hl
      · intro ho; cases hop.symm.trans ho
      · intro ho; cases hop.symm.trans ho
  · -- noop
    by_cases hc : l.contains t.label = true
    · rw [if_pos hc]
      have hg : t.label ∈ p.expand l := (hp.mem_expand hm _).2 ⟨hc, hv.2.1⟩
      have hd := der_noop hp hN hr hop hg (q := t.dst) (x := w) (by rw [hto]; exact ht) hv.2.2
      obtain ⟨h1, h2, h3⟩ := fpreUpdate_spec hN h hd.1 hd.2 (Trace.pre id)
      refine ⟨h1, h2, ?_, ?_, ?_, ?_⟩
      · intro ho; cases hop.symm.trans ho
      · intro ho; cases hop.symm.trans ho
      · intro _ _; exact h3
      · intro ho; cases hop.symm.trans ho
    · rw [if_neg hc]
      refine ⟨h, FPreAdv.refl s, ?_, ?_, ?_, ?_⟩
      · intro ho; cases hop.symm.trans ho
      · intro ho; cases hop.symm.trans ho
      · intro _ hl'; exact absurd hl' hc
      · intro ho; cases hop.symm.trans ho

end

end Verif
