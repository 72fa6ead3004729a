import Verif.Proofs.FixedFinalize
import Verif.Proofs.FixedPostFinal

/-! # Fixed-point saturation: the state after both phases, if the second phase leaves no trace -/

namespace Verif

variable {W T X : Type}

/-- What `step_with` keeps is kept by `step`. -/
theorem fixStep_keep [LinearOrder T] [OrderBot T] (D : FixSt T X → Prop) (stepWith : Bool → FixSt T X → Tr → FixSt T X) (bot : Bool)
    (hD : ∀ s s' : FixSt T X, s'.aut = s.aut → s'.x = s.x → s'.count = s.count → D s → D s')
    (hst : ∀ s t, D s → D (stepWith bot s t)) (s : FixSt T X) (hs : D s) : D (fixStep stepWith bot s) := by
  rcases fixStep_cases stepWith bot s with ⟨h1, h2, h3⟩ | ⟨t, ws, _, ⟨h1, h3⟩ | ⟨h1, h2, h3⟩⟩ <;> rw [h3]
  · exact hD s _ rfl rfl rfl hs
  · exact hst _ _ (hD s _ rfl rfl rfl hs)
  · exact hst _ _ (hD s _ rfl rfl rfl hs)

section
variable [LinearOrder W] [Zero W] [LinearOrder T] [OrderBot T] [AddCommMonoid T]
  {p : Pda W} {val : W → T} {a0 : Aut (Trace × T)}

/-! ## pre* -/

theorem fpreInit_into (h : HashOrder) (hno : ∀ t ∈ keys a0.edges, p.size ≤ t.dst) :
    ∀ u ∈ keys (fpreInit val h p a0).aut.edges, u.dst < p.size → u.dst ∈ (fpreInit val h p a0).x.popped := by
  unfold fpreInit
  dsimp only
  have h0 := (fpreInitEdges ((List.range a0.n).flatMap fun i => a0.out h i) ({ aut := a0, x := {} } : FPre T)).1
  generalize ((List.range a0.n).flatMap fun i => a0.out h i).foldl fpreInitEdge ({ aut := a0, x := {} } : FPre T) = s0 at h0
  refine foldl_keep (fun s : FPre T => ∀ u ∈ keys s.aut.edges, u.dst < p.size → u.dst ∈ s.x.popped) _ _ ?_ s0 ?_
  · intro s i _ hs
    split
    · unfold fpreAddPop
      split
      · exact hs
      · split
        · exact hs
        · have : ∀ s : FPre T, FPreInto p i s ∧ i ∈ s.x.popped → ∀ u ∈ keys s.aut.edges, u.dst < p.size → u.dst ∈ s.x.popped := by
            intro s hs u hu hlt
            rcases hs.1 u hu hlt with h | h
            · exact h
            · rw [h]; exact hs.2
          apply this
          refine foldl_keep (fun s : FPre T => FPreInto p i s ∧ i ∈ s.x.popped) _ _ ?_ _
            ⟨fun u hu hlt => .inl (List.mem_cons_of_mem _ (hs u hu hlt)), List.mem_cons_self ..⟩
          intro s pre _ hs
          refine foldl_keep (fun s : FPre T => FPreInto p i s ∧ i ∈ s.x.popped) _ _ ?_ _ hs
          intro s y _ hs
          unfold fpreAddPopRule
          split
          · unfold fpreBulk
            refine foldl_keep (fun s : FPre T => FPreInto p i s ∧ i ∈ s.x.popped) _ _ ?_ _ hs
            intro s g _ hs
            exact ⟨fpreUpdate_into _ _ _ _ _ hs.1 (.inl rfl), by rw [fpreUpdate_popped]; exact hs.2⟩
          · exact hs
    · exact hs
  · intro u hu hlt
    rw [h0] at hu
    have := hno u hu
    omega

theorem FPreL.rounds {s : FPre T} (h : FPreL p val a0 s) (k : Nat) : FPreL p val a0 { s with rounds := k } :=
  { toFPreI := ⟨h.nodup, h.sound, h.valid, h.rel, h.dpOK, h.undef, h.count, h.queued⟩,
    toFPreC := ⟨h.swapC, h.noopC, h.dpC, h.pushC, h.popR, h.popC⟩, acc := h.acc, limit := h.limit, init := h.init,
    accDone := h.accDone, fin := h.fin }

/-- The invariant of pre* together with `FPreInto`. -/
structure FPreR (p : Pda W) (val : W → T) (a0 : Aut (Trace × T)) (s : FPre T) : Prop extends FPreL p val a0 s where
  into : ∀ u ∈ keys s.aut.edges, u.dst < p.size → u.dst ∈ s.x.popped

theorem fpreInit_run (hp : p.WF) (ha : FAutOK p a0) (hno : ∀ t ∈ keys a0.edges, p.size ≤ t.dst) (h : HashOrder) :
    FPreR p val a0 (fpreInit val h p a0) := ⟨(fpreInit_inv h hp ha).1, fpreInit_into h hno⟩

theorem FPreR.step (hp : p.WF) (ha : FAutOK p a0) {s : FPre T} (hs : FPreR p val a0 s) (hd : s.isDone = false) :
    FPreR p val a0 (fixStep (fpreStepWith val p) false s) :=
  ⟨hs.toFPreL.step hp ha hd, fixStep_keep (fun s : FPre T => ∀ u ∈ keys s.aut.edges, u.dst < p.size → u.dst ∈ s.x.popped) _ _
    (fun s s' h1 h2 _ h => by rw [h1, h2]; exact h) (fun s t h => fpreStepWith_into val p false s t h) s hs.into⟩

/-- The second phase of pre*: if no weight is `bottom()` and nothing undefined has happened, the queue is empty. -/
theorem FPreR.finalize (hp : p.WF) (ha : FAutOK p a0) {fuel : Nat} {s r : FPre T} (hs : FPreR p val a0 s)
    (hr : fixFinalize (fpreStepWith val p) fuel s = some r) (hd : ¬ r.Dirty) :
    FPreL p val a0 r ∧ r.workset = [] ∧ r.next = [] := by
  have := fixFinalize_clean (fun s : FPre T => ∀ u ∈ keys s.aut.edges, u.dst < p.size → u.dst ∈ s.x.popped) (FPreR p val a0)
    (fun s s' h1 h2 h => by rw [h1, h2]; exact h) (fun bot s t => ?_) (fun s t h => fpreStepWith_dirty val p true s t h)
    (fun s t h => fpreStepWith_clean val p s t h) (fun s hs hd => hs.step hp ha hd) ?_ hr ⟨hs.toFPreL.rounds 0, hs.into⟩ hd
  · exact ⟨this.1.toFPreL, this.2⟩
  · have := fpreStepWith_frame val hp ha.size_le bot s t
    exact ⟨this.1, this.2.1⟩
  · intro s hs
    refine ⟨hs.into, hs.limit, ?_, hs.fin⟩
    intro L hL hm
    rw [hs.count]
    have := (List.subperm_of_subset hL fun u hu => hs.queued u (hm u hu)).length_le
    unfold keys at this
    rwa [List.length_map] at this

/-- Both phases of pre*. -/
theorem preStarFixedPoint_clean (hp : p.WF) (ha : FAutOK p a0) (hno : ∀ t ∈ keys a0.edges, p.size ≤ t.dst) (h : HashOrder)
    {fuel : Nat} {r : FPre T} (hr : preStarFixedPoint val h p a0 fuel = some r) (hd : ¬ r.Dirty) :
    FPreL p val a0 r ∧ r.workset = [] ∧ r.next = [] := by
  unfold preStarFixedPoint fixRun at hr
  rw [Option.bind_eq_some_iff] at hr
  obtain ⟨s, hs, hr⟩ := hr
  refine FPreR.finalize hp ha (s := s) ?_ hr hd
  refine (whileSome_inv (I := FPreR p val a0) ?_ (fpreInit_run hp ha hno h) hs).1
  intro s s' hs hst
  split at hst
  · cases hst
  · rename_i hd
    cases hst
    exact hs.step hp ha (by simpa using hd)

/-! ## post* -/

end

section
variable [LinearOrder W] [LinearOrder T] [OrderBot T] [AddCommMonoid T]
  {p : Pda W} {val : W → T} {a0 : Aut (Trace × T)}

omit [LinearOrder W] [LinearOrder T] [OrderBot T] [AddCommMonoid T] in
theorem fpostInitEdges_count (n : Nat) (l : List Tr) (s : FPost T) :
    (l.foldl (fpostInitEdge n) s).count = s.count + (l.filter fun t => decide (t.src < n)).length := by
  induction l generalizing s with
  | nil => rfl
  | cons t l ih =>
    rw [List.foldl_cons, ih]
    unfold fpostInitEdge
    by_cases ht : t.src < n
    · rw [if_pos ht, List.filter_cons_of_pos (by simpa using ht), List.length_cons]
      dsimp only
      omega
    · rw [if_neg ht, List.filter_cons_of_neg (by simpa using ht)]

theorem FPostL.rounds {qp : List ((Nat × Nat) × Nat)} {N : Nat} {s : FPost T} (h : FPostL p val a0 qp N s) (k : Nat) :
    FPostL p val a0 qp N { s with rounds := k } :=
  { toFPostI := ⟨h.nodup, h.sound, h.valid, h.rel1, h.rel2, h.undef, h.count, h.queued, h.nQ, h.qpEq⟩,
    toFPostC := ⟨h.ruleC, h.epsC⟩, acc := h.acc, states := h.states, limit := h.limit, init := h.init, fin := h.fin }

/-- The invariant of post*, and that all transitions are counted except those of the input from other states. -/
structure FPostR (p : Pda W) (val : W → T) (a0 : Aut (Trace × T)) (s : FPost T) : Prop extends
    FPostL p val a0 (fpostQ p a0) (fpostN p a0) s where
  counted : s.aut.edges.length = s.count + ((keys a0.edges).filter fun t => decide (¬ t.src < p.size)).length

theorem fpostInit_run (h : HashOrder) (hc : PostCtx p a0 (fpostQ p a0) (fpostN p a0)) : FPostR p val a0 (fpostInit h p a0) := by
  refine ⟨(fpostInit_inv h hc).1, ?_⟩
  unfold fpostInit
  dsimp only
  have hperm := out_all h ({ acc := (qInit p ({ acc := a0.acc } : Aut W)).1.acc, edges := a0.edges } : Aut (Trace × T))
    fun t ht => Nat.lt_of_lt_of_le (hc.ok.valid t ht).1 hc.le
  rw [fpostInitEdges_count]
  have haut : ∀ (l : List Tr) (s : FPost T), (l.foldl (fpostInitEdge p.size) s).aut = s.aut := by
    intro l
    induction l with
    | nil => exact fun s => rfl
    | cons t l ih =>
      intro s
      rw [List.foldl_cons, ih]
      unfold fpostInitEdge
      split <;> rfl
  rw [haut, (hperm.filter _).length_eq]
  dsimp only
  rw [Nat.zero_add]
  have hk : a0.edges.length = (keys a0.edges).length := (List.length_map ..).symm
  rw [hk]
  have : ∀ l : List Tr, l.length = (l.filter fun t => decide (t.src < p.size)).length + (l.filter fun t => decide (¬ t.src < p.size)).length := by
    intro l
    induction l with
    | nil => rfl
    | cons t l ih =>
      by_cases ht : t.src < p.size
      · rw [List.filter_cons_of_pos (by simpa using ht), List.filter_cons_of_neg (by simpa using ht), List.length_cons, List.length_cons]
        omega
      · rw [List.filter_cons_of_neg (by simpa using ht), List.filter_cons_of_pos (by simpa using ht), List.length_cons, List.length_cons]
        omega
  exact this _

theorem FPostR.step (hc : PostCtx p a0 (fpostQ p a0) (fpostN p a0)) {s : FPost T} (hs : FPostR p val a0 s) (hd : s.isDone = false) :
    FPostR p val a0 (fixStep (fpostStepWith val p) false s) := by
  refine ⟨hs.toFPostL.step hc hd, fixStep_keep
    (fun s : FPost T => s.aut.edges.length = s.count + ((keys a0.edges).filter fun t => decide (¬ t.src < p.size)).length)
    _ _ (fun s s' h1 h2 h3 h => ?_) (fun s t h => ?_) s hs.counted⟩
  · rw [h1, h3]; exact h
  · exact fpostStepWith_keep
      (fun s : FPost T => s.aut.edges.length = s.count + ((keys a0.edges).filter fun t => decide (¬ t.src < p.size)).length)
      val p false (fun s t w tr h => fixUpdate_length _ _ _ s t w tr _ h) (fun _ h => h) s t h

/-- The second phase of post*: if no weight is `bottom()` and nothing undefined has happened, the queue is empty. -/
theorem FPostR.finalize (hc : PostCtx p a0 (fpostQ p a0) (fpostN p a0)) {fuel : Nat} {s r : FPost T} (hs : FPostR p val a0 s)
    (hr : fixFinalize (fpostStepWith val p) fuel s = some r) (hd : ¬ r.Dirty) :
    FPostL p val a0 (fpostQ p a0) (fpostN p a0) r ∧ r.workset = [] ∧ r.next = [] := by
  have := fixFinalize_clean (fun _ => True) (FPostR p val a0) (fun _ _ _ _ _ => trivial) (fun bot s t => ?_)
    (fun s t h => fpostStepWith_dirty val p true s t h) (fun s t _ => ?_) (fun s hs hd => hs.step hc hd) ?_ hr
    ⟨hs.toFPostL.rounds 0, hs.counted⟩ hd
  · exact ⟨this.1.toFPostL, this.2⟩
  · have := fpostStepWith_frame (val := val) hc bot s t
    exact ⟨this.1, this.2.1⟩
  · rcases fpostStepWith_clean val p s t with h | ⟨h1, h2⟩
    · exact .inl h
    · exact .inr ⟨h1, [], by rw [h2]; simp, fun u hu => .inl (by rwa [h2] at hu)⟩
  · intro s hs
    refine ⟨trivial, hs.limit, ?_, hs.fin⟩
    intro L hL hm
    have hn : (L ++ (keys a0.edges).filter fun t => decide (¬ t.src < p.size)).Nodup := by
      rw [List.nodup_append]
      refine ⟨hL, hc.ok.nodup.filter _, ?_⟩
      intro u hu v hv he
      subst he
      have := (hs.queued u (hm u hu)).2
      have h2 := (List.mem_filter.1 hv).2
      rw [decide_eq_true_iff] at h2
      exact h2 this
    have := (List.subperm_of_subset (l₂ := keys s.aut.edges) hn fun u hu => by
      rcases List.mem_append.1 hu with hu | hu
      · exact (hs.queued u (hm u hu)).1
      · exact (hs.init u (List.mem_filter.1 hu).1).mem).length_le
    unfold keys at this
    rw [List.length_map, hs.counted, List.length_append] at this
    exact Nat.le_of_add_le_add_right this

/-- Both phases of post*. -/
theorem postStarFixedPoint_clean (h : HashOrder) (hc : PostCtx p a0 (fpostQ p a0) (fpostN p a0))
    {fuel : Nat} {r : FPost T} (hr : postStarFixedPoint val h p a0 fuel = some r) (hd : ¬ r.Dirty) :
    FPostL p val a0 (fpostQ p a0) (fpostN p a0) r ∧ r.workset = [] ∧ r.next = [] := by
  unfold postStarFixedPoint fixRun at hr
  rw [Option.bind_eq_some_iff] at hr
  obtain ⟨s, hs, hr⟩ := hr
  refine FPostR.finalize hc (s := s) ?_ hr hd
  refine (whileSome_inv (I := FPostR p val a0) ?_ (fpostInit_run h hc) hs).1
  intro s s' hs hst
  split at hst
  · cases hst
  · rename_i hd
    cases hst
    exact hs.step hc (by simpa using hd)

end

end Verif
