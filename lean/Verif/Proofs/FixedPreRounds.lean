import Verif.Proofs.FixedHistory
import Verif.Proofs.FixedRun

/-! # Fixed-point pre*: if no weight can be pumped, the first phase ends with nothing left to do -/

namespace Verif

variable {W T : Type}

section
variable [LinearOrder T] [AddCommMonoid T]

/-- What the history knows about the states whose POP rules have been used, or are being used: `G`. -/
structure PreExtra (n : Nat) (s : FPre T) (g : Hist T) (G : Nat → Prop) : Prop where
  out : ∀ f, n ≤ f → g.born f = 0
  born : ∀ f, g.born f ≤ s.rounds
  into : ∀ e ∈ keys s.aut.edges, e.dst < n → G e.dst
  popped : ∀ e ∈ keys s.aut.edges, e.src < n → G e.src → g.born e.src ≤ g.ins e + 1
  waiting : ∀ e ∈ keys s.aut.edges, e.src < n → ¬ G e.src →
    e ∈ s.workset ∧ s.rounds ≤ g.ins e + 1 ∨ e ∈ s.next ∧ g.ins e = s.rounds

/-- The weights that pre* can derive. -/
abbrev FPreD [LinearOrder W] (p : Pda W) (val : W → T) (a0 : Aut (Trace × T)) : Tr → T → Prop :=
  PreDer p.Has val (· ∈ keys a0.edges)

variable [LinearOrder W] [Zero W] [OrderBot T] [IsOrderedAddMonoid T] {p : Pda W} {val : W → T} {a0 : Aut (Trace × T)}

omit [LinearOrder W] [Zero W] in
theorem fpreUpdate_extra {s : FPre T} {g g' : Hist T} {G : Nat → Prop} (hx : PreExtra p.size s g G) {t : Tr} {w : T} (tr : Trace)
    (hg : Grows s g g' t) (hG : t.dst < p.size → G t.dst) :
    PreExtra p.size (fpreUpdate false s t w tr) g' G := by
  have hk : ∀ u, u ∈ keys (fpreUpdate false s t w tr).aut.edges → u ∈ keys s.aut.edges ∨
      u = t ∧ t ∉ keys s.aut.edges ∧ t ∈ (fpreUpdate false s t w tr).next := by
    intro u hu
    by_cases huk : u ∈ keys s.aut.edges
    · exact .inl huk
    · right
      have hut : u = t := by
        rcases fixUpdate_changes (fun (x : FPreX) t => { x with rel := x.rel ++ [t] }) (fun _ => true) s t w tr with
          he | ⟨_, _, h3, _⟩
        · unfold fpreUpdate at hu; rw [he] at hu; exact absurd hu huk
        · exact ((h3 u).1 hu).resolve_right huk
      subst hut
      refine ⟨rfl, huk, ?_⟩
      unfold fpreUpdate fixUpdate
      rw [(getEdge_none_iff _ _).2 huk]
      simp
  have hw := (fixUpdate_spec (fun (x : FPreX) t => { x with rel := x.rel ++ [t] }) (fun _ => true) s t w tr).1
  have hnext : ∀ u ∈ s.next, u ∈ (fpreUpdate false s t w tr).next := by
    intro u hu
    unfold fpreUpdate fixUpdate
    split
    · simp [hu]
    · split
      · simp [hu]
      · exact hu
  have hr : (fpreUpdate false s t w tr).rounds = s.rounds := hw.rounds
  have hws : (fpreUpdate false s t w tr).workset = s.workset := hw.work
  refine ⟨by rw [hg.born]; exact hx.out, by rw [hg.born, hr]; exact hx.born, ?_, ?_, ?_⟩
  · intro e he hlt
    rcases hk e he with he | ⟨rfl, _⟩
    · exact hx.into e he hlt
    · exact hG hlt
  · intro e he hlt hGe
    rw [hg.born]
    rcases hk e he with he | ⟨rfl, hn, _⟩
    · rw [hg.ins e he]; exact hx.popped e he hlt hGe
    · rw [hg.new hn]; exact Nat.le_succ_of_le (hx.born _)
  · intro e he hlt hGe
    rw [hr, hws]
    rcases hk e he with he | ⟨rfl, hn, hm⟩
    · rw [hg.ins e he]
      rcases hx.waiting e he hlt hGe with h | h
      · exact .inl h
      · exact .inr ⟨hnext e h.1, h.2⟩
    · exact .inr ⟨hm, hg.new hn⟩

/-- The invariant while `t` is processed, which had the weight `w` at the start. -/
structure PreStep (p : Pda W) (val : W → T) (a0 : Aut (Trace × T)) (G : Nat → Prop) (s0 : FPre T) (t : Tr) (w : T) (s : FPre T) :
    Prop where
  I : FPreI p val a0 s
  adv : FPreAdv s0 s
  bound : s.Bound t w
  hist : ∃ g, HistOK (FPreD p val a0) (fun _ => true) s g ∧ PreExtra p.size s g G ∧ s.rounds ≤ g.chg t + 1 ∧
    (t.src < p.size → t.src ∉ s0.x.popped → g.born t.src = s.rounds)

variable {G : Nat → Prop} {s0 : FPre T} {t : Tr} {w : T}

omit [IsOrderedAddMonoid T] [OrderBot T] in
theorem PreStep.mem {s : FPre T} (h : PreStep p val a0 G s0 t w s) : t ∈ keys s.aut.edges := h.bound.mem

/-- One update while `t` is processed. -/
theorem PreStep.update (hN : p.size ≤ a0.n) (hB : NoPump (FPreD p val a0)) {s : FPre T} (h : PreStep p val a0 G s0 t w s)
    {u : Tr} {x : T} (tr : Trace) (hd : FPreD p val a0 u x ∧ Valid p a0.n u) (L : List (Tr × T))
    (hL : ∀ v y, (v, y) ∈ L → (∃ b, s.wt v = some b ∧ y + b ≤ x) ∧ ∀ z, FPreD p val a0 v z → FPreD p val a0 u (y + z))
    (hG : u.dst < p.size → G u.dst)
    (hc : ∀ g, HistOK (FPreD p val a0) (fun _ => true) s g → PreExtra p.size s g G → s.rounds ≤ g.chg t + 1 →
      (t.src < p.size → t.src ∉ s0.x.popped → g.born t.src = s.rounds) →
      g.born u.dst ≤ s.rounds ∧ Cause (fun _ => true) g.chg g.born (fun v => ∃ y, (v, y) ∈ L) u s.rounds) :
    PreStep p val a0 G s0 t w (fpreUpdate false s u x tr) := by
  obtain ⟨h1, h2, h3⟩ := fpreUpdate_spec hN h.I hd.1 hd.2 tr
  obtain ⟨g, k1, k2, k3, k5⟩ := h.hist
  obtain ⟨k6, k7⟩ := hc g k1 k2 k3 k5
  obtain ⟨g', m1, m2⟩ := k1.update hB h.I.sound (fun (x : FPreX) t => { x with rel := x.rel ++ [t] }) (fun _ => true) tr
    (fun _ => rfl) L hL k6 (fun _ => k7)
  refine ⟨h1, FPreAdv.trans _ _ _ h.adv h2, h2.adv.less _ _ h.bound, g', m1, fpreUpdate_extra k2 tr m2 hG, ?_, ?_⟩
  · rw [h2.adv.rounds]
    have := m2.chg t h.mem
    omega
  · rw [m2.born, h2.adv.rounds]; exact k5

/-- An update with the target of `t`. -/
theorem PreStep.same (hN : p.size ≤ a0.n) (hB : NoPump (FPreD p val a0)) {s : FPre T} (h : PreStep p val a0 G s0 t w s)
    {u : Tr} {x c : T} (tr : Trace) (hd : FPreD p val a0 u x ∧ Valid p a0.n u) (hdst : u.dst = t.dst) (hx : c + w ≤ x)
    (hc : ∀ z, FPreD p val a0 t z → FPreD p val a0 u (c + z)) :
    PreStep p val a0 G s0 t w (fpreUpdate false s u x tr) := by
  obtain ⟨b, hb1, hb2⟩ := h.bound
  refine h.update hN hB tr hd [(t, c)] ?_ ?_ ?_
  · intro v y hv
    cases List.mem_singleton.1 hv
    exact ⟨⟨b, hb1, le_trans (add_le_add le_rfl hb2) hx⟩, hc⟩
  · intro hlt
    obtain ⟨g, _, k2, _⟩ := h.hist
    rw [hdst] at hlt ⊢
    exact k2.into t h.mem hlt
  · intro g k1 k2 k3 _
    have := k1.le t h.mem
    refine ⟨by rw [hdst]; omega, .same (v := t) ⟨c, List.mem_singleton.2 rfl⟩ hdst.symm k3 rfl⟩

/-- An update with the state of `t` as target, by a POP rule. -/
theorem PreStep.leaf (hN : p.size ≤ a0.n) (hB : NoPump (FPreD p val a0)) {s : FPre T} (h : PreStep p val a0 G s0 t w s)
    {u : Tr} {x : T} (tr : Trace) (hd : FPreD p val a0 u x ∧ Valid p a0.n u) (hdst : u.dst = t.src) (hlt : t.src < p.size)
    (hn : t.src ∉ s0.x.popped) (hG : G t.src) : PreStep p val a0 G s0 t w (fpreUpdate false s u x tr) := by
  refine h.update hN hB tr hd [] (fun _ _ hv => by cases hv) (fun _ => by rw [hdst]; exact hG) ?_
  intro g k1 k2 k3 k4
  have := k4 hlt hn
  exact ⟨by rw [hdst, this], .leaf (by rw [hdst, this])⟩

/-- An update by a PUSH rule, with `t` read first and then `e`. -/
theorem PreStep.both (hN : p.size ≤ a0.n) (hB : NoPump (FPreD p val a0)) {s : FPre T} (h : PreStep p val a0 G s0 t w s)
    {u e : Tr} {x c d y : T} (tr : Trace) (hd : FPreD p val a0 u x ∧ Valid p a0.n u) (hdst : u.dst = e.dst)
    (he : s.wt e = some y) (hsrc : e.src = t.dst) (hx : c + w ≤ x) (hy : d + y ≤ x)
    (hc : ∀ z, FPreD p val a0 t z → FPreD p val a0 u (c + z)) (hc' : ∀ z, FPreD p val a0 e z → FPreD p val a0 u (d + z)) :
    PreStep p val a0 G s0 t w (fpreUpdate false s u x tr) := by
  obtain ⟨b, hb1, hb2⟩ := h.bound
  have hek := s.wt_some he
  refine h.update hN hB tr hd [(t, c), (e, d)] ?_ ?_ ?_
  · intro v z hv
    rcases List.mem_cons.1 hv with hv | hv
    · cases hv
      exact ⟨⟨b, hb1, le_trans (add_le_add le_rfl hb2) hx⟩, hc⟩
    · cases List.mem_singleton.1 hv
      exact ⟨⟨y, he, hy⟩, hc'⟩
  · intro hlt
    obtain ⟨g, _, k2, _⟩ := h.hist
    rw [hdst] at hlt ⊢
    exact k2.into e hek hlt
  · intro g k1 k2 k3 _
    have h1 := k1.le t h.mem
    have h2 := k1.le e hek
    refine ⟨by rw [hdst]; omega, .both (v := t) (e := e) ⟨c, List.mem_cons_self ..⟩
      ⟨d, List.mem_cons_of_mem _ (List.mem_singleton.2 rfl)⟩ hdst.symm k3 rfl ?_ (.inl rfl)⟩
    by_cases hlt : t.dst < p.size
    · have hG := k2.into t h.mem hlt
      have := k2.popped e hek (by rw [hsrc]; exact hlt) (by rw [hsrc]; exact hG)
      rw [hsrc] at this
      omega
    · have := k2.out t.dst (by omega)
      omega

/-! ## The loops of `step_with` -/

theorem PreStep.bulk {s : FPre T} (h : PreStep p val a0 G s0 t w s) {src : Nat} {l : Labels} {dst : Nat} {x : T} (tr : Trace)
    (hu : ∀ s', PreStep p val a0 G s0 t w s' → ∀ g ∈ p.expand l, PreStep p val a0 G s0 t w (fpreUpdate false s' ⟨src, g, dst⟩ x tr)) :
    PreStep p val a0 G s0 t w (fpreBulk p false s src l dst x tr) := by
  unfold fpreBulk
  exact foldl_keep (PreStep p val a0 G s0 t w) _ _ (fun s' g hg hs' => hu s' hs' g hg) s h

theorem PreStep.delta (hp : p.WF) (hN : p.size ≤ a0.n) (hB : NoPump (FPreD p val a0)) {s : FPre T}
    (h : PreStep p val a0 G s0 t w s) (ht : FPreD p val a0 t w) (hv : Valid p a0.n t) (st id : Nat)
    (hdp : (t.src, st, id) ∈ s.x.dp) : PreStep p val a0 G s0 t w (fpreDelta val p false t w s (st, id)) := by
  obtain ⟨r, l, hr, hop, hk⟩ := h.I.dpOK _ _ _ hdp
  obtain ⟨y, hy⟩ := s.exists_wt hk
  unfold fpreDelta
  simp only [hr, hy]
  by_cases hc : l.contains t.label = true
  · simp only [hc, if_true]
    have hm := List.mem_of_getElem? hr
    have hg : t.label ∈ p.expand l := (hp.mem_expand hm _).2 ⟨hc, hv.2.1⟩
    exact h.same hN hB _ (der_push hp hN hr hop hg (h.I.sound _ _ hy) (q := t.dst) (y := w) ht hv.2.2) rfl le_rfl
      (fun z hz => (der_push hp hN hr hop hg (h.I.sound _ _ hy) (q := t.dst) (y := z) hz hv.2.2).1)
  · simp only [hc, Bool.false_eq_true, if_false]
    exact h

theorem PreStep.rel (hp : p.WF) (hN : p.size ≤ a0.n) (hB : NoPump (FPreD p val a0)) {s : FPre T}
    (h : PreStep p val a0 G s0 t w s) (ht : FPreD p val a0 t w) {pre id : Nat} {r : Rule W} {l : Labels}
    (hr : (p.st pre).rules[id]? = some (r, l)) (hop : r.op = .push) (hto : r.to = t.src) (hl : r.opLabel = t.label)
    (u : Tr) (hu : u ∈ keys s.aut.edges) (hsrc : u.src = t.dst) :
    PreStep p val a0 G s0 t w (fpreRel false t pre id l (val r.weight + w) s u) := by
  obtain ⟨y, hy⟩ := s.exists_wt hu
  unfold fpreRel
  simp only [hy]
  by_cases hc : l.contains u.label = true
  · simp only [hc, if_true]
    have hv := h.I.valid u hu
    have hm := List.mem_of_getElem? hr
    have hg : u.label ∈ p.expand l := (hp.mem_expand hm _).2 ⟨hc, hv.2.1⟩
    have hd : ∀ z z', FPreD p val a0 t z → FPreD p val a0 u z' → FPreD p val a0 ⟨pre, u.label, u.dst⟩ (val r.weight + z + z') ∧
        Valid p a0.n ⟨pre, u.label, u.dst⟩ := fun z z' hz hz' =>
      der_push hp hN hr hop hg (m := t.dst) (x := z) (q := u.dst) (y := z') (by rw [hto, hl]; exact hz)
        (by rw [← hsrc]; exact hz') hv.2.2
    have hyd := h.I.sound _ _ hy
    refine h.both hN hB (e := u) _ (hd w y ht hyd) rfl hy hsrc (c := val r.weight + y) (d := val r.weight + w) ?_ le_rfl ?_ ?_
    · rw [add_right_comm]
    · intro z hz
      rw [add_right_comm]
      exact (hd z y hz hyd).1
    · intro z hz
      exact (hd w z ht hz).1
  · simp only [hc, Bool.false_eq_true, if_false]
    exact h

theorem PreStep.rule (hp : p.WF) (hN : p.size ≤ a0.n) (hB : NoPump (FPreD p val a0)) {s : FPre T}
    (h : PreStep p val a0 G s0 t w s) (ht : FPreD p val a0 t w) (hv : Valid p a0.n t) (hlt : t.src < p.size) (hG : G t.src)
    {pre id : Nat} {r : Rule W} {l : Labels} (hr : (p.st pre).rules[id]? = some (r, l)) (hto : r.to = t.src) :
    PreStep p val a0 G s0 t w (fpreRule val p false t w pre s (id, r, l)) := by
  have hm := List.mem_of_getElem? hr
  unfold fpreRule
  cases hop : r.op <;> simp only [hop]
  · -- push
    by_cases hl : r.opLabel = t.label
    · rw [if_pos hl]
      have hmem : ∀ d, d ∈ (if s.x.dp.contains (t.dst, pre, id) then s.x.dp
          else insertBy dpLt (t.dst, pre, id) s.x.dp) ↔ d = (t.dst, pre, id) ∨ d ∈ s.x.dp := by
        intro d
        split
        · rename_i hc
          have hc : (t.dst, pre, id) ∈ s.x.dp := by simpa using hc
          constructor
          · exact .inr
          · rintro (rfl | h)
            · exact hc
            · exact h
        · rw [(insertBy_perm dpLt (t.dst, pre, id) s.x.dp).mem_iff, List.mem_cons]
      generalize (if s.x.dp.contains (t.dst, pre, id) then s.x.dp
          else insertBy dpLt (t.dst, pre, id) s.x.dp) = D at *
      have h0 : PreStep p val a0 G s0 t w { s with x := { s.x with dp := D } } := by
        refine ⟨⟨h.I.nodup, h.I.sound, h.I.valid, h.I.rel, ?_, h.I.undef, h.I.count, h.I.queued⟩,
          FPreAdv.trans _ _ _ h.adv
            ⟨⟨fun _ _ h => h, fun _ _ => .inr rfl, fun _ h => h, rfl, fun h => h, Nat.le_refl _, rfl, rfl, rfl⟩,
              fun d hd => (hmem d).2 (.inr hd), rfl⟩, h.bound, ?_⟩
        · intro q st id' hm'
          rcases (hmem _).1 hm' with he | hm'
          · cases he
            refine ⟨r, l, hr, hop, ?_⟩
            rw [hto, hl]; exact h.mem
          · exact h.I.dpOK _ _ _ hm'
        · obtain ⟨g, k1, k2, k3⟩ := h.hist
          exact ⟨g, k1.congr rfl rfl rfl rfl, ⟨k2.out, k2.born, k2.into, k2.popped, k2.waiting⟩, k3⟩
      have hkeys : ∀ u ∈ s.x.relAt t.dst, u ∈ keys s.aut.edges ∧ u.src = t.dst := by
        intro u hu
        unfold FPreX.relAt at hu
        rw [List.mem_filter] at hu
        exact ⟨(h.I.rel u).1 hu.1, by simpa using hu.2⟩
      refine (foldl_keep (fun s' => PreStep p val a0 G s0 t w s' ∧ ∀ u ∈ s.x.relAt t.dst, u ∈ keys s'.aut.edges) _ _ ?_ _
        ⟨h0, fun u hu => (hkeys u hu).1⟩).1
      intro s' u hu hs'
      refine ⟨hs'.1.rel hp hN hB ht hr hop hto hl u (hs'.2 u hu) (hkeys u hu).2, ?_⟩
      intro v hv'
      obtain ⟨x, hx⟩ := s'.exists_wt (hs'.2 v hv')
      exact ((fpreRel_spec hp hN hr hop hto hl ht s' hs'.1.I u (hs'.2 u hu) (hkeys u hu).2).2.1.adv.less _ _
        (FixSt.wt_bound hx)).mem
    · rw [if_neg hl]; exact h
  · -- pop
    by_cases hpop : s.x.popped.contains t.src = true
    · rw [if_pos hpop]; exact h
    · rw [if_neg hpop]
      have hn : t.src ∉ s0.x.popped := by
        rw [← h.adv.popped]
        simpa using hpop
      exact h.bulk _ fun s' hs' g hg => hs'.leaf hN hB _ (hto ▸ der_pop hp hN hr hop hg) rfl hlt hn hG
  · -- swap
    by_cases hl : r.opLabel = t.label
    · rw [if_pos hl]
      have hd : ∀ z, FPreD p val a0 t z → ∀ g ∈ p.expand l, FPreD p val a0 ⟨pre, g, t.dst⟩ (val r.weight + z) ∧
          Valid p a0.n ⟨pre, g, t.dst⟩ := fun z hz g hg =>
        der_swap hp hN hr hop hg (by rw [hto, hl]; exact hz) hv.2.2
      exact h.bulk _ fun s' hs' g hg => hs'.same hN hB _ (hd w ht g hg) rfl le_rfl fun z hz => (hd z hz g hg).1
    · rw [if_neg hl]; exact h
  · -- noop
    by_cases hc : l.contains t.label = true
    · rw [if_pos hc]
      have hg : t.label ∈ p.expand l := (hp.mem_expand hm _).2 ⟨hc, hv.2.1⟩
      have hd : ∀ z, FPreD p val a0 t z → FPreD p val a0 ⟨pre, t.label, t.dst⟩ (val r.weight + z) ∧
          Valid p a0.n ⟨pre, t.label, t.dst⟩ := fun z hz =>
        der_noop hp hN hr hop hg (q := t.dst) (x := z) (by rw [hto]; exact hz) hv.2.2
      exact h.same hN hB _ (hd w ht) rfl le_rfl fun z hz => (hd z hz).1
    · rw [if_neg hc]; exact h

omit [LinearOrder W] [Zero W] [OrderBot T] [AddCommMonoid T] [IsOrderedAddMonoid T] [LinearOrder T] in
theorem PreExtra.congr {n : Nat} {s s' : FPre T} {g : Hist T} {G G' : Nat → Prop} (h : PreExtra n s g G)
    (h1 : s'.aut = s.aut) (h2 : s'.rounds = s.rounds) (h3 : s'.workset = s.workset) (h4 : s'.next = s.next)
    (hG : ∀ q, q < n → (G q ↔ G' q)) : PreExtra n s' g G' := by
  refine ⟨h.out, by rw [h2]; exact h.born, ?_, ?_, ?_⟩
  · rw [h1]; exact fun e he hlt => (hG _ hlt).1 (h.into e he hlt)
  · rw [h1]; exact fun e he hlt hg => h.popped e he hlt ((hG _ hlt).2 hg)
  · rw [h1, h2, h3, h4]; exact fun e he hlt hg => h.waiting e he hlt (fun hc => hg ((hG _ hlt).1 hc))

omit [LinearOrder W] [Zero W] [OrderBot T] [AddCommMonoid T] [IsOrderedAddMonoid T] [LinearOrder T] in
theorem PreExtra.swap {n : Nat} {s : FPre T} {g : Hist T} {G : Nat → Prop} (h : PreExtra n s g G) {ws : List Tr}
    (h0 : s.workset = []) (hw : ∀ u ∈ s.next, u ∈ ws) :
    PreExtra n { s with rounds := s.rounds + 1, workset := ws, next := [] } g G := by
  refine ⟨h.out, fun f => Nat.le_succ_of_le (h.born f), h.into, h.popped, ?_⟩
  intro e he hlt hg
  rcases h.waiting e he hlt hg with h1 | h1
  · rw [h0] at h1; cases h1.1
  · exact .inl ⟨hw e h1.1, by dsimp only; omega⟩

/-- Processing a transition. -/
theorem fpreStepWith_hist (hp : p.WF) (hN : p.size ≤ a0.n) (hB : NoPump (FPreD p val a0)) {s : FPre T} {t : Tr} {ws : List Tr}
    (hw : ∀ u, u ∈ s.workset ↔ u = t ∨ u ∈ ws) (hI : FPreI p val a0 { s with workset := ws }) {g : Hist T}
    (h : HistOK (FPreD p val a0) (fun _ => true) s g) (hx : PreExtra p.size s g (· ∈ s.x.popped)) :
    ∃ g', HistOK (FPreD p val a0) (fun _ => true) (fpreStepWith val p false { s with workset := ws } t) g' ∧
      PreExtra p.size (fpreStepWith val p false { s with workset := ws } t) g'
        (· ∈ (fpreStepWith val p false { s with workset := ws } t).x.popped) ∧
      t ∈ keys (fpreStepWith val p false { s with workset := ws } t).aut.edges ∧
      (fpreStepWith val p false { s with workset := ws } t).rounds ≤ g'.chg t + 1 := by
  obtain ⟨htk, _, htc⟩ := h.work t ((hw t).2 (.inl rfl))
  obtain ⟨w, hwt⟩ := s.exists_wt htk
  have hwt' : ({ s with workset := ws } : FPre T).wt t = some w := hwt
  have ht : FPreD p val a0 t w := hI.sound t w hwt
  have hv := hI.valid t htk
  have h1 : HistOK (FPreD p val a0) (fun _ => true) { s with workset := ws } g := h.pop fun u hu => (hw u).2 (.inr hu)
  -- the state of `t` is born now, unless it was before
  have hstart : PreStep p val a0 (fun q => q ∈ s.x.popped ∨ q = t.src) { s with workset := ws } t w { s with workset := ws } := by
    refine ⟨hI, FPreAdv.refl _, ⟨w, hwt, le_rfl⟩, ?_⟩
    have hwait : ∀ e ∈ keys s.aut.edges, e.src < p.size → ¬ (e.src ∈ s.x.popped ∨ e.src = t.src) →
        e ∈ ws ∧ s.rounds ≤ g.ins e + 1 ∨ e ∈ s.next ∧ g.ins e = s.rounds := by
      intro e he hlt hn
      rw [not_or] at hn
      rcases hx.waiting e he hlt hn.1 with h2 | h2
      · refine .inl ⟨((hw e).1 h2.1).resolve_left ?_, h2.2⟩
        rintro rfl; exact hn.2 rfl
      · exact .inr h2
    by_cases hb : t.src < p.size ∧ t.src ∉ s.x.popped
    · have hno : ∀ u ∈ keys s.aut.edges, u.dst ≠ t.src := by
        intro u hu hc
        exact hb.2 (hc ▸ hx.into u hu (hc ▸ hb.1))
      refine ⟨_, h1.birth hno s.rounds, ⟨?_, ?_, ?_, ?_, hwait⟩, htc, fun _ _ => if_pos rfl⟩
      · intro f hf
        dsimp only
        rw [if_neg (by have := hb.1; omega)]
        exact hx.out f hf
      · intro f
        dsimp only
        split
        · exact Nat.le_refl _
        · exact hx.born f
      · exact fun e he hlt => .inl (hx.into e he hlt)
      · intro e he hlt hG
        dsimp only
        split
        · rename_i hes
          rcases hx.waiting e he hlt (by rw [hes]; exact hb.2) with h2 | h2
          · exact h2.2
          · omega
        · rename_i hes
          exact hx.popped e he hlt (hG.resolve_right hes)
    · refine ⟨g, h1, ⟨hx.out, hx.born, fun e he hlt => .inl (hx.into e he hlt), ?_, hwait⟩, htc, fun h2 h3 => absurd ⟨h2, h3⟩ hb⟩
      intro e he hlt hG
      refine hx.popped e he hlt ?_
      rcases hG with hG | hG
      · exact hG
      · by_contra hc
        exact hb ⟨hG ▸ hlt, hG ▸ hc⟩
  have hGt : t.src ∈ s.x.popped ∨ t.src = t.src := .inr rfl
  unfold fpreStepWith
  simp only [hwt']
  unfold fpreBody
  have h2 : PreStep p val a0 (fun q => q ∈ s.x.popped ∨ q = t.src) { s with workset := ws } t w
      ((({ s with workset := ws } : FPre T).x.dpAt t.src).foldl (fpreDelta val p false t w) { s with workset := ws }) := by
    refine foldl_keep (PreStep p val a0 (fun q => q ∈ s.x.popped ∨ q = t.src) { s with workset := ws } t w) _ _ ?_ _ hstart
    intro s1 d hd hs1
    unfold FPreX.dpAt at hd
    rw [List.mem_map] at hd
    obtain ⟨⟨q, st, id⟩, hd1, rfl⟩ := hd
    rw [List.mem_filter] at hd1
    have hq : q = t.src := by simpa using hd1.2
    subst hq
    exact hs1.delta hp hN hB ht hv st id (hs1.adv.dp _ hd1.1)
  generalize (({ s with workset := ws } : FPre T).x.dpAt t.src).foldl (fpreDelta val p false t w) { s with workset := ws } = s1 at h2
  by_cases hsz : t.src ≥ p.size
  · rw [if_pos hsz]
    obtain ⟨g', k1, k2, k3, _⟩ := h2.hist
    refine ⟨g', k1, k2.congr rfl rfl rfl rfl ?_, h2.mem, k3⟩
    intro q hq
    rw [h2.adv.popped]
    constructor
    · rintro (h | rfl)
      · exact h
      · omega
    · exact .inl
  · rw [if_neg hsz]
    have hlt : t.src < p.size := by omega
    rw [foldl_into]
    have h3 : PreStep p val a0 (fun q => q ∈ s.x.popped ∨ q = t.src) { s with workset := ws } t w
        (((p.st t.src).preStates.flatMap fun pre => (p.rulesInto pre t.src).flatMap fun y => [(pre, y)]).foldl
          (fun s z => fpreRule val p false t w z.1 s z.2) s1) := by
      refine foldl_keep (PreStep p val a0 (fun q => q ∈ s.x.popped ∨ q = t.src) { s with workset := ws } t w) _ _ ?_ _ h2
      rintro s' ⟨pre, id, r, l⟩ hz hs'
      have hz' := (mem_into hp t.src (fun pre y => [(pre, y)]) _).1 hz
      simp only [List.mem_singleton, Prod.mk.injEq] at hz'
      obtain ⟨_, _, _, _, k1, k2, k3, rfl, rfl, rfl, rfl⟩ := hz'
      exact hs'.rule hp hN hB ht hv hlt hGt k1 k2
    generalize ((p.st t.src).preStates.flatMap fun pre => (p.rulesInto pre t.src).flatMap fun y => [(pre, y)]).foldl
      (fun s z => fpreRule val p false t w z.1 s z.2) s1 = s2 at h3
    obtain ⟨g', k1, k2, k3, _⟩ := h3.hist
    refine ⟨g', k1.congr rfl rfl rfl rfl, k2.congr rfl rfl rfl rfl ?_, h3.mem, k3⟩
    intro q _
    dsimp only
    rw [h3.adv.popped, List.mem_cons, or_comm]

/-- The history of pre*, and that nothing waits when the loop ends because of the round limit. -/
structure FPreH (p : Pda W) (val : W → T) (a0 : Aut (Trace × T)) (s : FPre T) : Prop extends FPreR p val a0 s where
  hist : s.done = false → ∃ g, HistOK (FPreD p val a0) (fun _ => true) s g ∧ PreExtra p.size s g (· ∈ s.x.popped)
  le : s.done = false → s.rounds ≤ s.limit
  ends : s.done = false → s.rounds = s.limit → s.workset = [] ∧ s.next = []

theorem FPreH.step (hp : p.WF) (ha : FAutOK p a0) (hB : NoPump (FPreD p val a0)) {s : FPre T} (hs : FPreH p val a0 s)
    (hd : s.isDone = false) : FPreH p val a0 (fixStep (fpreStepWith val p) false s) := by
  have hR := hs.toFPreR.step hp ha hd
  unfold FixSt.isDone at hd
  rw [Bool.or_eq_false_iff] at hd
  have hlt : s.rounds < s.limit := by
    have := hs.le hd.1
    have h2 : s.rounds ≠ s.limit := by simpa using hd.2
    omega
  obtain ⟨g, k1, k2⟩ := hs.hist hd.1
  have hlim : ∀ (s0 : FPre T) (t : Tr), s0.aut = s.aut → s0.count = s.count → s0.limit = s.limit →
      s.limit ≤ (fpreStepWith val p false s0 t).limit := by
    intro s0 t e1 e2 e3
    have hk : FixK (fun _ => True) (Valid p a0.n) s0 :=
      ⟨e1 ▸ hs.nodup, e1 ▸ hs.valid, by rw [e1, e2]; exact Nat.le_of_eq hs.count, by rw [e2, e3]; exact hs.limit, trivial⟩
    obtain ⟨h1, h2⟩ := (fpreStepWith_frame val hp ha.size_le false s0 t).2.2.2 trivial hk
    rw [h1.limit, hs.limit, ← e2]
    exact h2
  have hI : ∀ (s0 : FPre T), s0.aut = s.aut → s0.x = s.x → s0.count = s.count → s0.undef = s.undef →
      (∀ u, s0.Queued u → s.Queued u) → FPreI p val a0 s0 := by
    intro s0 e1 e2 e3 e5 hq
    refine ⟨e1 ▸ hs.nodup, ?_, e1 ▸ hs.valid, ?_, ?_, e5.trans hs.undef, ?_, ?_⟩
    · intro u x hx
      unfold FixSt.wt at hx
      rw [e1] at hx
      exact hs.sound u x hx
    · rw [e1, e2]; exact hs.rel
    · rw [e1, e2]; exact hs.dpOK
    · rw [e1, e3]; exact hs.count
    · intro u hu; rw [e1]; exact hs.queued u (hq u hu)
  rcases fixStep_split (fpreStepWith val p) false s with ⟨h1, h2, h3⟩ | ⟨t, ws, h1, h2, h4, h3⟩ | ⟨t, ws, h1, h2, h3⟩
  · rw [h3] at hR ⊢
    refine ⟨hR, (fun hc => by cases hc), (fun hc => by cases hc), (fun hc => by cases hc)⟩
  · have hl := hlim { s with rounds := s.rounds + 1, workset := ws, next := [] } t rfl rfl rfl
    have hfr := fpreStepWith_frame val hp ha.size_le false { s with rounds := s.rounds + 1, workset := ws, next := [] } t
    have hne : s.next ≠ [] := List.ne_nil_of_mem ((h2 t).2 (.inl rfl))
    have hsub : ∀ u ∈ t :: ws, u ∈ s.next := by
      intro u hu
      rw [h2]
      exact List.mem_cons.1 hu
    obtain ⟨g', m1, m2, m3, m4⟩ := fpreStepWith_hist hp ha.size_le hB (ws := ws) (t := t)
      (s := { s with rounds := s.rounds + 1, workset := t :: ws, next := [] }) (fun u => List.mem_cons)
      (hI _ rfl rfl rfl rfl (fun u hu => by
        rcases hu with hu | hu
        · exact .inr (hsub u (List.mem_cons_of_mem _ hu))
        · cases hu))
      (k1.swap hsub hne) (k2.swap h1 fun u hu => List.mem_cons.2 ((h2 u).1 hu))
    rw [h3] at hR ⊢
    refine ⟨hR, fun _ => ⟨g', m1, m2⟩, ?_, ?_⟩
    · intro _
      rw [hfr.2.1]
      dsimp only
      omega
    · intro _ he
      refine m1.exit hR.nodup ?_ m3 rfl m4 ?_
      · rw [he, hR.limit, hR.count]
        have : (keys (fpreStepWith val p false { s with rounds := s.rounds + 1, workset := ws, next := [] } t).aut.edges).filter
            (fun _ => true) = keys (fpreStepWith val p false { s with rounds := s.rounds + 1, workset := ws, next := [] } t).aut.edges :=
          List.filter_eq_self.2 (fun _ _ => rfl)
        rw [this]
        exact List.length_map ..
      · rw [hfr.1]; exact h4
  · have hl := hlim { s with workset := ws } t rfl rfl rfl
    have hfr := fpreStepWith_frame val hp ha.size_le false { s with workset := ws } t
    obtain ⟨g', m1, m2, m3, m4⟩ := fpreStepWith_hist hp ha.size_le hB (s := s) h2
      (hI _ rfl rfl rfl rfl (fun u hu => by
        rcases hu with hu | hu
        · exact .inl ((h2 u).2 (.inr hu))
        · exact .inr hu)) k1 k2
    rw [h3] at hR ⊢
    refine ⟨hR, fun _ => ⟨g', m1, m2⟩, ?_, ?_⟩
    · intro _
      rw [hfr.2.1]
      dsimp only
      omega
    · intro _ he
      rw [hfr.2.1] at he
      dsimp only at he
      omega

omit [LinearOrder W] [Zero W] [AddCommMonoid T] [IsOrderedAddMonoid T] in
theorem fpreUpdate_waits (s : FPre T) (t : Tr) (w : T) (tr : Trace)
    (hs : (∀ u ∈ keys s.aut.edges, u ∈ s.next) ∧ s.workset = []) :
    (∀ u ∈ keys (fpreUpdate false s t w tr).aut.edges, u ∈ (fpreUpdate false s t w tr).next) ∧
      (fpreUpdate false s t w tr).workset = [] := by
  unfold fpreUpdate fixUpdate
  split
  · rename_i h0
    simp only [Bool.false_eq_true, if_false, if_true]
    refine ⟨?_, hs.2⟩
    unfold keys
    rw [keys_emplace _ _ _ h0]
    intro u hu
    rw [List.map_cons, List.mem_cons] at hu
    rw [List.mem_append, List.mem_singleton]
    rcases hu with hu | hu
    · exact .inr hu
    · exact .inl (hs.1 u hu)
  · split
    · simp only [if_true]
      refine ⟨?_, hs.2⟩
      rw [keys_set]
      exact fun u hu => List.mem_append_left _ (hs.1 u hu)
    · exact hs

omit [IsOrderedAddMonoid T] in
theorem fpreInit_waits (h : HashOrder) (hv : ∀ t ∈ keys a0.edges, t.src < a0.n) :
    (∀ u ∈ keys (fpreInit val h p a0).aut.edges, u ∈ (fpreInit val h p a0).next) ∧ (fpreInit val h p a0).workset = [] := by
  unfold fpreInit
  dsimp only
  have hperm := out_all h a0 hv
  obtain ⟨e1, _, _, _, e5, _, _, e8, _, _⟩ := fpreInitEdges ((List.range a0.n).flatMap fun i => a0.out h i)
    ({ aut := a0, x := {} } : FPre T)
  generalize ((List.range a0.n).flatMap fun i => a0.out h i).foldl fpreInitEdge ({ aut := a0, x := {} } : FPre T) = s0
    at e1 e5 e8
  refine foldl_keep (fun s : FPre T => (∀ u ∈ keys s.aut.edges, u ∈ s.next) ∧ s.workset = []) _ _ ?_ s0 ⟨?_, e8⟩
  · intro s i _ hs
    split
    · unfold fpreAddPop
      split
      · exact hs
      · split
        · exact hs
        · refine foldl_keep (fun s : FPre T => (∀ u ∈ keys s.aut.edges, u ∈ s.next) ∧ s.workset = []) _ _ ?_ _ hs
          intro s pre _ hs
          refine foldl_keep (fun s : FPre T => (∀ u ∈ keys s.aut.edges, u ∈ s.next) ∧ s.workset = []) _ _ ?_ _ hs
          intro s y _ hs
          unfold fpreAddPopRule
          split
          · unfold fpreBulk
            refine foldl_keep (fun s : FPre T => (∀ u ∈ keys s.aut.edges, u ∈ s.next) ∧ s.workset = []) _ _ ?_ _ hs
            intro s g _ hs
            exact fpreUpdate_waits _ _ _ _ hs
          · exact hs
    · exact hs
  · intro u hu
    rw [e1] at hu
    rw [e5, List.nil_append]
    exact hperm.mem_iff.2 hu

/-- At the start nothing has happened yet. -/
theorem fpreInit_hist (hp : p.WF) (ha : FAutOK p a0) (hno : ∀ t ∈ keys a0.edges, p.size ≤ t.dst) (h : HashOrder) :
    FPreH p val a0 (fpreInit val h p a0) := by
  have hR := fpreInit_run (val := val) hp ha hno h
  have hr := (fpreInit_inv (val := val) h hp ha).2.1
  obtain ⟨hnext, hws⟩ := fpreInit_waits (val := val) (p := p) h fun t ht => (ha.valid t ht).1
  refine ⟨hR, fun _ => ⟨⟨fun _ => 0, fun _ => 0, fun _ => 0, fun _ => []⟩, ⟨?_, ?_, ?_, ?_, ?_, ?_, ?_, ?_⟩, ?_⟩, ?_, ?_⟩
  · intro u _; exact ⟨Nat.le_refl _, Nat.le_refl _, Nat.zero_le _⟩
  · intro u _; rfl
  · intro u v x hx; cases hx
  · intro u hu
    have : ∀ a b, Relation.TransGen (Hist.Prem (⟨fun _ => 0, fun _ => 0, fun _ => 0, fun _ => []⟩ : Hist T)) a b → False := by
      intro a b hab
      induction hab with
      | single h => obtain ⟨x, hx⟩ := h; cases hx
      | tail _ h _ => obtain ⟨x, hx⟩ := h; cases hx
    exact this u u hu
  · intro u _; exact .start rfl
  · intro u hu; rw [hws] at hu; cases hu
  · intro u hu; exact ⟨hR.queued u (.inr hu), rfl, hr.symm⟩
  · intro j hj; rw [hr] at hj; omega
  · refine ⟨fun _ _ => rfl, fun _ => Nat.zero_le _, hR.into, fun _ _ _ _ => Nat.zero_le _, ?_⟩
    intro e he _ _
    exact .inr ⟨hnext e he, hr.symm⟩
  · intro _; rw [hr]; exact Nat.zero_le _
  · intro _ he
    refine ⟨hws, ?_⟩
    rw [hr, hR.limit, hR.count] at he
    rw [List.eq_nil_iff_forall_not_mem]
    intro u hu
    have := hR.queued u (.inr hu)
    unfold keys at this
    rw [List.eq_nil_of_length_eq_zero he.symm] at this
    cases this

/-- Nothing waits when the loop of the first phase ends. -/
theorem FPreH.idle {s : FPre T} (hs : FPreH p val a0 s) (hd : s.isDone = true) : s.workset = [] ∧ s.next = [] := by
  unfold FixSt.isDone at hd
  rw [Bool.or_eq_true] at hd
  cases hdone : s.done with
  | true => exact hs.fin hdone
  | false =>
    rw [hdone] at hd
    exact hs.ends hdone (by simpa using hd)

/-- The second phase does nothing if nothing waits. -/
theorem FPreL.finalize_idle {s r : FPre T} (hs : FPreL p val a0 s) (hi : s.workset = [] ∧ s.next = []) {fuel : Nat}
    (hr : fixFinalize (fpreStepWith val p) fuel s = some r) : FPreL p val a0 r ∧ r.workset = [] ∧ r.next = [] := by
  refine (whileSome_inv (I := fun r => FPreL p val a0 r ∧ r.workset = [] ∧ r.next = []) ?_ ⟨hs.rounds 0, hi⟩ hr).1
  rintro s s' ⟨hs, h1, h2⟩ hst
  split at hst
  · cases hst
  · cases hst
    unfold fixStep
    rw [if_pos h1, if_pos h2]
    exact ⟨{ toFPreI := ⟨hs.nodup, hs.sound, hs.valid, hs.rel, hs.dpOK, hs.undef, hs.count, hs.queued⟩,
             toFPreC := ⟨hs.swapC, hs.noopC, hs.dpC, hs.pushC, hs.popR, hs.popC⟩, acc := hs.acc, limit := hs.limit,
             init := hs.init, accDone := hs.accDone, fin := fun _ => ⟨h1, h2⟩ }, h1, h2⟩

/-- Both phases of pre*, if no weight can be pumped. -/
theorem preStarFixedPoint_nopump (hp : p.WF) (ha : FAutOK p a0) (hno : ∀ t ∈ keys a0.edges, p.size ≤ t.dst)
    (hB : NoPump (FPreD p val a0)) (h : HashOrder) {fuel : Nat} {r : FPre T}
    (hr : preStarFixedPoint val h p a0 fuel = some r) : FPreL p val a0 r ∧ r.workset = [] ∧ r.next = [] := by
  unfold preStarFixedPoint fixRun at hr
  rw [Option.bind_eq_some_iff] at hr
  obtain ⟨s, hs, hr⟩ := hr
  have := whileSome_inv (I := FPreH p val a0) ?_ (fpreInit_hist hp ha hno h) hs
  · refine FPreL.finalize_idle this.1.toFPreL (this.1.idle ?_) hr
    have h2 := this.2
    split at h2
    · assumption
    · cases h2
  · intro s s' hs hst
    split at hst
    · cases hst
    · rename_i hd
      cases hst
      exact hs.step hp ha hB (by simpa using hd)

end

end Verif
