import Verif.Proofs.FixedPreFinal

/-! # Fixed-point saturation: what both phases keep, and termination -/

namespace Verif

variable {W T X : Type}

/-- The transitions are valid and counted, the round limit is the count, and `J` holds of the other members. -/
structure FixK (J : X → Prop) (V : Tr → Prop) (s : FixSt T X) : Prop where
  nodup : (keys s.aut.edges).Nodup
  valid : ∀ t ∈ keys s.aut.edges, V t
  count : s.count ≤ s.aut.edges.length
  limit : s.limit = s.count
  inv : J s.x

/-- Processing keeps the workset and the rounds; if `P` holds it keeps `FixK` and does not lower the count. -/
def FixR (J : X → Prop) (V : Tr → Prop) (P : Prop) (s s' : FixSt T X) : Prop :=
  s'.workset = s.workset ∧ s'.rounds = s.rounds ∧ s'.done = s.done ∧ (P → FixK J V s → FixK J V s' ∧ s.count ≤ s'.count)

theorem FixR.refl (J : X → Prop) (V : Tr → Prop) (P : Prop) (s : FixSt T X) : FixR J V P s s :=
  ⟨rfl, rfl, rfl, fun _ h => ⟨h, Nat.le_refl _⟩⟩

theorem FixR.trans {J : X → Prop} {V : Tr → Prop} {P : Prop} (a b c : FixSt T X) (h : FixR J V P a b) (h' : FixR J V P b c) :
    FixR J V P a c :=
  ⟨h'.1.trans h.1, h'.2.1.trans h.2.1, h'.2.2.1.trans h.2.2.1, fun hp hk =>
    ⟨(h'.2.2.2 hp (h.2.2.2 hp hk).1).1, Nat.le_trans (h.2.2.2 hp hk).2 (h'.2.2.2 hp (h.2.2.2 hp hk).1).2⟩⟩

/-- A change outside the members that `FixK` speaks about. -/
theorem FixR.of_eq {J : X → Prop} {V : Tr → Prop} {P : Prop} {s s' : FixSt T X} (h1 : s'.workset = s.workset) (h2 : s'.rounds = s.rounds)
    (h3 : s'.done = s.done) (h4 : s'.aut = s.aut) (h5 : s'.count = s.count) (h6 : s'.limit = s.limit)
    (h7 : J s.x → J s'.x) : FixR J V P s s' :=
  ⟨h1, h2, h3, fun _ hk => ⟨⟨h4 ▸ hk.nodup, h4 ▸ hk.valid, by rw [h4, h5]; exact hk.count, by rw [h5, h6]; exact hk.limit, h7 hk.inv⟩,
    by rw [h5]⟩⟩

/-- A loop of `FixR` steps. -/
theorem FixR.foldl {β : Type} {J : X → Prop} {V : Tr → Prop} {P : Prop} (f : FixSt T X → β → FixSt T X) (l : List β)
    (hf : ∀ s, ∀ b ∈ l, FixR J V P s (f s b)) (s : FixSt T X) : FixR J V P s (l.foldl f s) := by
  induction l generalizing s with
  | nil => exact FixR.refl J V P s
  | cons a l ih =>
    exact FixR.trans _ _ _ (hf s a (List.mem_cons_self ..)) (ih (fun s b hb => hf s b (List.mem_cons_of_mem _ hb)) (f s a))

section
variable [LinearOrder T] [OrderBot T]

theorem fixUpdate_frame {J : X → Prop} {V : Tr → Prop} {P : Prop} (ins : X → Tr → X) (q : Tr → Bool) (bot : Bool) (s : FixSt T X)
    (t : Tr) (w : T) (tr : Trace) (hins : ∀ x t, J x → J (ins x t)) (hv : P → FixK J V s → V t) : FixR J V P s (fixUpdate ins q bot s t w tr).1 := by
  unfold fixUpdate
  split
  · rename_i h0
    cases bot
    · simp only [Bool.false_eq_true, if_false]
      refine ⟨rfl, rfl, rfl, fun hp hk => ⟨⟨?_, ?_, ?_, rfl, hins _ _ hk.inv⟩, Nat.le_succ _⟩⟩
      · show (keys (s.aut.emplaceEdge t (tr, tr, w)).edges).Nodup
        rw [keys_emplace _ _ _ h0]
        exact List.nodup_cons.2 ⟨(getEdge_none_iff _ _).1 h0, hk.nodup⟩
      · show ∀ u ∈ keys (s.aut.emplaceEdge t (tr, tr, w)).edges, V u
        rw [keys_emplace _ _ _ h0]
        intro u hu
        rcases List.mem_cons.1 hu with hu | hu
        · have hu : u = t := hu
          exact hu ▸ hv hp hk
        · exact hk.valid u hu
      · show s.count + 1 ≤ (s.aut.emplaceEdge t (tr, tr, w)).edges.length
        rw [keys_emplace _ _ _ h0]
        exact Nat.succ_le_succ hk.count
    · simp only [if_true]
      exact FixR.of_eq rfl rfl rfl rfl rfl rfl fun h => h
  · split
    · rename_i tr1 tr2 y h0 hlt
      refine ⟨rfl, rfl, rfl, fun hp hk => ⟨⟨?_, ?_, ?_, hk.limit, hk.inv⟩, Nat.le_refl _⟩⟩
      · show (keys (s.aut.setEdge t _).edges).Nodup
        rw [keys_set]; exact hk.nodup
      · show ∀ u ∈ keys (s.aut.setEdge t _).edges, V u
        rw [keys_set]; exact hk.valid
      · show s.count ≤ (s.aut.setEdge t _).edges.length
        have : ∀ E : List (AEdge (Trace × T)), (keys E).length = E.length := fun E => List.length_map ..
        rw [← this, keys_set, this]; exact hk.count
    · exact FixR.refl _ _ _ _

/-- Termination of either phase. -/
theorem fixPhase_terminates (stepWith : Bool → FixSt T X → Tr → FixSt T X) (bot : Bool) (B : Nat) (J : X → Prop) (V : Tr → Prop)
    (hB : ∀ s : FixSt T X, FixK J V s → s.limit ≤ B) (hw : ∀ s t, FixR J V True s (stepWith bot s t)) (s : FixSt T X)
    (hs : FixK J V s) (hr : s.rounds ≤ s.limit) : ∃ fuel r, fixLoop stepWith bot fuel s = some r := by
  have hstep : ∀ s : FixSt T X, FixK J V s → FixK J V (fixStep stepWith bot s) ∧ s.limit ≤ (fixStep stepWith bot s).limit := by
    intro s hs
    rcases fixStep_cases stepWith bot s with ⟨h1, h2, h3⟩ | ⟨t, ws, _, ⟨h1, h3⟩ | ⟨h1, h2, h3⟩⟩ <;> rw [h3]
    · exact ⟨⟨hs.nodup, hs.valid, hs.count, hs.limit, hs.inv⟩, Nat.le_refl _⟩
    · have hk : FixK J V { s with rounds := s.rounds + 1, workset := ws, next := [] } :=
        ⟨hs.nodup, hs.valid, hs.count, hs.limit, hs.inv⟩
      have := (hw { s with rounds := s.rounds + 1, workset := ws, next := [] } t).2.2.2 trivial hk
      refine ⟨this.1, ?_⟩
      exact Nat.le_trans (Nat.le_of_eq hs.limit) (Nat.le_trans this.2 (Nat.le_of_eq this.1.limit.symm))
    · have hk : FixK J V { s with workset := ws } := ⟨hs.nodup, hs.valid, hs.count, hs.limit, hs.inv⟩
      have := (hw { s with workset := ws } t).2.2.2 trivial hk
      refine ⟨this.1, ?_⟩
      exact Nat.le_trans (Nat.le_of_eq hs.limit) (Nat.le_trans this.2 (Nat.le_of_eq this.1.limit.symm))
  exact fixLoop_terminates stepWith bot B (FixK J V) (fun s hs _ => (hstep s hs).1) hB
    (fun s t => ⟨(hw s t).1, (hw s t).2.1⟩) (fun s hs => (hstep s hs).2) s hs hr

/-- Both phases of `run()` end. -/
theorem fixRun_terminates (stepWith : Bool → FixSt T X → Tr → FixSt T X) (B : Nat) (J : X → Prop) (V : Tr → Prop)
    (hB : ∀ s : FixSt T X, FixK J V s → s.limit ≤ B) (hw : ∀ bot s t, FixR J V True s (stepWith bot s t)) (s : FixSt T X)
    (hs : FixK J V s) (hr : s.rounds ≤ s.limit) : ∃ fuel r, fixRun stepWith fuel s = some r := by
  obtain ⟨f1, r1, h1⟩ := fixPhase_terminates stepWith false B J V hB (hw false) s hs hr
  have hk : FixK J V r1 := by
    refine (whileSome_inv (I := FixK J V) ?_ hs h1).1
    intro s s' hs hst
    split at hst
    · cases hst
    · cases hst
      rcases fixStep_cases stepWith false s with ⟨h1, h2, h3⟩ | ⟨t, ws, _, ⟨h1, h3⟩ | ⟨h1, h2, h3⟩⟩ <;> rw [h3]
      · exact ⟨hs.nodup, hs.valid, hs.count, hs.limit, hs.inv⟩
      · have hk : FixK J V { s with rounds := s.rounds + 1, workset := ws, next := [] } :=
          ⟨hs.nodup, hs.valid, hs.count, hs.limit, hs.inv⟩
        exact ((hw false _ t).2.2.2 trivial hk).1
      · have hk : FixK J V { s with workset := ws } := ⟨hs.nodup, hs.valid, hs.count, hs.limit, hs.inv⟩
        exact ((hw false _ t).2.2.2 trivial hk).1
  obtain ⟨f2, r2, h2⟩ := fixPhase_terminates stepWith true B J V hB (hw true) { r1 with rounds := 0 }
    ⟨hk.nodup, hk.valid, hk.count, hk.limit, hk.inv⟩ (Nat.zero_le _)
  refine ⟨max f1 f2, r2, ?_⟩
  unfold fixRun fixFinalize
  unfold fixLoop at h1 h2 ⊢
  rw [Reducer.whileSome_mono (Nat.le_max_left f1 f2) h1]
  exact Reducer.whileSome_mono (Nat.le_max_right f1 f2) h2

/-- If the first phase stops because nothing is queued, the second phase does nothing. -/
theorem fixRun_of_done (stepWith : Bool → FixSt T X → Tr → FixSt T X) {fuel : Nat} {s s1 : FixSt T X}
    (h : fixLoop stepWith false fuel s = some s1) (hd : s1.done = true) :
    fixRun stepWith fuel s = some { s1 with rounds := 0 } := by
  unfold fixRun
  rw [h]
  show fixFinalize stepWith fuel s1 = _
  unfold fixFinalize fixLoop
  have : (if ({ s1 with rounds := 0 } : FixSt T X).isDone = true then none
      else some (fixStep stepWith true { s1 with rounds := 0 })) = none := by
    rw [if_pos]
    unfold FixSt.isDone
    simp [hd]
  cases fuel <;> rw [whileSome] <;> rw [this]

end

/-! ## pre* -/

section
variable [LinearOrder T] [OrderBot T] [AddCommMonoid T] [LinearOrder W] [Zero W]

theorem fpreStepWith_frame {p : Pda W} (val : W → T) (hp : p.WF) {N : Nat} (hN : p.size ≤ N) (bot : Bool) (s : FPre T) (t : Tr) :
    FixR (fun _ => True) (Valid p N) True s (fpreStepWith val p bot s t) := by
  unfold fpreStepWith
  split
  · exact FixR.of_eq rfl rfl rfl rfl rfl rfl fun h => h
  · rename_i w hw
    have key : FixR (fun _ => True) (Valid p N) (Valid p N t) s (fpreBody val p bot s t w) := by
      unfold fpreBody
      have hupd : ∀ (b : Bool) (s : FPre T) (u : Tr) (w : T) (tr : Trace),
          (Valid p N t → FixK (fun _ => True) (Valid p N) s → Valid p N u) →
          FixR (fun _ => True) (Valid p N) (Valid p N t) s (fpreUpdate b s u w tr) :=
        fun b s u w tr hv => fixUpdate_frame _ _ b s u w tr (fun _ _ h => h) hv
      have hbulk : ∀ (b : Bool) (s : FPre T) (src : Nat) (l : Labels) (dst : Nat) (w : T) (tr : Trace),
          (∀ g ∈ p.expand l, Valid p N t → Valid p N ⟨src, g, dst⟩) →
          FixR (fun _ => True) (Valid p N) (Valid p N t) s (fpreBulk p b s src l dst w tr) := by
        intro b s src l dst w tr hv
        unfold fpreBulk
        exact FixR.foldl _ _ (fun s g hg => hupd b s _ w tr fun ht _ => hv g hg ht) s
      have h1 : FixR (fun _ => True) (Valid p N) (Valid p N t) s ((s.x.dpAt t.src).foldl (fpreDelta val p bot t w) s) := by
        refine FixR.foldl _ _ (fun s d _ => ?_) s
        unfold fpreDelta
        split
        · exact FixR.refl _ _ _ _
        · rename_i r l hr
          split
          · split
            · exact FixR.of_eq rfl rfl rfl rfl rfl rfl fun h => h
            · refine hupd _ _ _ _ _ fun ht _ => ⟨?_, ht.2.1, ht.2.2⟩
              have := Pda.lt_size_of_rule hr
              show d.1 < N
              omega
          · exact FixR.refl _ _ _ _
      refine FixR.trans _ _ _ h1 ?_
      generalize (s.x.dpAt t.src).foldl (fpreDelta val p bot t w) s = s1
      split
      · exact FixR.refl _ _ _ _
      · rename_i hsz
        simp only
        rw [foldl_into]
        refine FixR.trans _ _ _ (FixR.foldl _ _ (fun s z hz => ?_) s1) (FixR.of_eq rfl rfl rfl rfl rfl rfl fun h => h)
        obtain ⟨pre, id, r, l⟩ := z
        rw [mem_into hp t.src (fun pre y => [(pre, y)])] at hz
        obtain ⟨_, _, _, _, hr, hto, hmi, hz⟩ := hz
        rw [List.mem_singleton] at hz
        cases hz
        have hlt := Pda.lt_size_of_rule hr
        have hm := List.mem_of_getElem? hr
        have hg : ∀ g ∈ p.expand l, g < p.nLabels := fun g hg => ((hp.mem_expand hm g).1 hg).2
        show FixR _ _ _ s (fpreRule val p bot t w pre s (id, r, l))
        unfold fpreRule
        cases hop : r.op <;> simp only [hop]
        · split
          · refine FixR.trans _ _ _ ?_ (FixR.foldl _ _ (fun s u _ => ?_) _)
            · exact FixR.of_eq rfl rfl rfl rfl rfl rfl fun h => h
            unfold fpreRel
            split
            · split
              · exact FixR.of_eq rfl rfl rfl rfl rfl rfl fun h => h
              · rename_i y hy
                refine hupd _ _ _ _ _ fun _ hk => ?_
                have := hk.valid u (s.wt_some hy)
                exact ⟨by show pre < N; omega, this.2.1, this.2.2⟩
            · exact FixR.refl _ _ _ _
          · exact FixR.refl _ _ _ _
        · split
          · exact FixR.refl _ _ _ _
          · exact hbulk _ _ _ _ _ _ _ fun g hg' ht => ⟨by show pre < N; omega, hg g hg', ht.1⟩
        · split
          · exact hbulk _ _ _ _ _ _ _ fun g hg' ht => ⟨by show pre < N; omega, hg g hg', ht.2.2⟩
          · exact FixR.refl _ _ _ _
        · split
          · exact hupd _ _ _ _ _ fun ht _ => ⟨by show pre < N; omega, ht.2.1, ht.2.2⟩
          · exact FixR.refl _ _ _ _
    refine ⟨key.1, key.2.1, key.2.2.1, fun _ hk => key.2.2.2 (hk.valid t (s.wt_some hw)) hk⟩

theorem fpre_terminates {p : Pda W} (val : W → T) (hp : p.WF) {a0 : Aut (Trace × T)} (ha : FAutOK p a0) (h : HashOrder) :
    ∃ fuel r, preStarFixedPoint val h p a0 fuel = some r := by
  obtain ⟨h1, h2, h3⟩ := fpreInit_inv (val := val) h hp ha
  refine fixRun_terminates (fpreStepWith val p) (a0.n * p.nLabels * a0.n) (fun _ => True) (Valid p a0.n) ?_
    (fun bot s t => fpreStepWith_frame val hp ha.size_le bot s t) _ ⟨h1.nodup, h1.valid, Nat.le_of_eq h1.count, h1.limit, trivial⟩
    (by rw [h2]; exact Nat.zero_le _)
  intro s hs
  rw [hs.limit]
  refine Nat.le_trans hs.count ?_
  have : (keys s.aut.edges).length = s.aut.edges.length := List.length_map ..
  rw [← this]
  exact length_le_of_valid hs.nodup hs.valid

end

end Verif
