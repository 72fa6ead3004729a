import Verif.Proofs.FixedFrame

/-!
# Fixed-point saturation: the second phase

A change in the second phase sets a weight to `bottom()`, and a missing transition is undefined behaviour. If neither
is seen at the end, the second phase has done what further steps of the first phase would have done.
-/

namespace Verif

variable {W T X : Type}

/-- The second phase has left a trace: something undefined happened, or some weight is `bottom()`. -/
def FixSt.Dirty [LE T] [OrderBot T] (s : FixSt T X) : Prop := s.undef = true ∨ ∃ t, s.wt t = some ⊥

/-- A loop whose bodies agree unless the result is dirty. -/
theorem foldl_clean {S β : Type} (D P : S → Prop) (f g : S → β → S) (l : List β) (hD : ∀ s b, D s → D (f s b))
    (h : ∀ s, ∀ b ∈ l, P s → D (f s b) ∨ f s b = g s b ∧ P (f s b)) (s : S) (hs : P s) :
    D (l.foldl f s) ∨ l.foldl f s = l.foldl g s ∧ P (l.foldl f s) := by
  have keep : ∀ (l : List β) s, D s → D (l.foldl f s) := by
    intro l
    induction l with
    | nil => exact fun s h => h
    | cons a l ih => exact fun s h => ih _ (hD s a h)
  induction l generalizing s with
  | nil => exact .inr ⟨rfl, hs⟩
  | cons a l ih =>
    rcases h s a (List.mem_cons_self ..) hs with h1 | ⟨h1, h2⟩
    · exact .inl (keep l _ h1)
    · rw [List.foldl_cons, List.foldl_cons, ← h1]
      exact ih (fun s b hb => h s b (List.mem_cons_of_mem _ hb)) _ h2

theorem foldl_keep {S β : Type} (D : S → Prop) (f : S → β → S) (l : List β) (hD : ∀ s, ∀ b ∈ l, D s → D (f s b)) (s : S)
    (hs : D s) : D (l.foldl f s) := by
  induction l generalizing s with
  | nil => exact hs
  | cons a l ih => exact ih (fun s b hb => hD s b (List.mem_cons_of_mem _ hb)) _ (hD s a (List.mem_cons_self ..) hs)

section
variable [LinearOrder T] [OrderBot T]

theorem FixSt.Dirty.of_eq {s s' : FixSt T X} (h : s.Dirty) (h1 : s'.aut = s.aut) (h2 : s'.undef = s.undef) : s'.Dirty := by
  rcases h with h | ⟨t, h⟩
  · exact .inl (h2.trans h)
  · exact .inr ⟨t, by unfold FixSt.wt at h ⊢; rw [h1]; exact h⟩

theorem fixUpdate_dirty (ins : X → Tr → X) (q : Tr → Bool) (bot : Bool) (s : FixSt T X) (t : Tr) (w : T) (tr : Trace)
    (h : s.Dirty) : (fixUpdate ins q bot s t w tr).1.Dirty := by
  unfold fixUpdate
  split
  · rename_i h0
    split
    · exact .inl rfl
    · rcases h with h | ⟨u, h⟩
      · exact .inl h
      · refine .inr ⟨u, ?_⟩
        rw [wt_emplace h0 rfl, if_neg ?_]
        · exact h
        · rintro rfl
          unfold FixSt.wt at h
          rw [h0] at h; cases h
  · rename_i tr1 tr2 y h0
    have hy : s.wt t = some y := by unfold FixSt.wt; rw [h0]; rfl
    split
    · rename_i hlt
      rcases h with h | ⟨u, h⟩
      · exact .inl h
      · refine .inr ⟨u, ?_⟩
        rw [wt_set (s.wt_some hy) rfl, if_neg ?_]
        · exact h
        · rintro rfl
          rw [hy] at h; cases h
          exact absurd hlt not_lt_bot
    · exact h

/-- In the second phase an update that leaves no trace does nothing, and would do nothing in the first phase. -/
theorem fixUpdate_clean (ins : X → Tr → X) (q : Tr → Bool) (s : FixSt T X) (t : Tr) (w : T) (tr : Trace) :
    (fixUpdate ins q true s t w tr).1.Dirty ∨
      fixUpdate ins q true s t w tr = (s, false) ∧ fixUpdate ins q false s t w tr = (s, false) := by
  unfold fixUpdate
  split
  · exact .inl (.inl rfl)
  · rename_i tr1 tr2 y h0
    have hy : s.wt t = some y := by unfold FixSt.wt; rw [h0]; rfl
    split
    · refine .inl (.inr ⟨t, ?_⟩)
      simp only [if_true]
      rw [wt_set (s.wt_some hy) rfl, if_pos rfl]
    · exact .inr ⟨rfl, rfl⟩

theorem fixUpdate_keys (ins : X → Tr → X) (q : Tr → Bool) (bot : Bool) (s : FixSt T X) (t : Tr) (w : T) (tr : Trace) :
    ∀ u ∈ keys (fixUpdate ins q bot s t w tr).1.aut.edges, u = t ∨ u ∈ keys s.aut.edges := by
  intro u hu
  unfold fixUpdate at hu
  split at hu
  · rename_i h0
    split at hu
    · exact .inr hu
    · unfold keys at hu
      dsimp only at hu
      rw [keys_emplace _ _ _ h0, List.map_cons] at hu
      rcases List.mem_cons.1 hu with h | h
      · exact .inl h
      · exact .inr h
  · split at hu
    · dsimp only at hu
      rw [keys_set] at hu
      exact .inr hu
    · exact .inr hu

/-! ## The loop of the second phase -/

/-- What a step of the second phase adds to the queue is paid for by new transitions. -/
def Paid (s s' : FixSt T X) : Prop := ∃ L : List Tr, L.length + s.count ≤ s'.count ∧ ∀ u ∈ s'.next, u ∈ s.next ∨ u ∈ L

/-- After the first swap the rounds so far and all that is queued fit into the limit. -/
def RoundsFit (s : FixSt T X) : Prop :=
  s.rounds = 0 ∨ ∃ L : List Tr, (∀ u ∈ s.next, u ∈ L) ∧ s.rounds + s.workset.length + L.length ≤ s.limit

theorem trLt_iff (a b : Tr) : trLt a b = true ↔
    a.src < b.src ∨ a.src = b.src ∧ (a.label < b.label ∨ a.label = b.label ∧ a.dst < b.dst) := decide_eq_true_iff

theorem trLt_total {a b : Tr} (h : trLt a b ≠ true) : a = b ∨ trLt b a = true := by
  rw [Ne, trLt_iff] at h
  rw [trLt_iff]
  obtain ⟨a1, a2, a3⟩ := a
  obtain ⟨b1, b2, b3⟩ := b
  simp only [Tr.mk.injEq] at *
  omega

theorem trLt_trans {a b c : Tr} (h : trLt a b = true) (h' : trLt b c = true) : trLt a c = true := by
  rw [trLt_iff] at *
  omega

theorem insertBy_trLt (x : Tr) (l : List Tr) (h : l.Pairwise fun a b => a = b ∨ trLt a b = true) :
    (insertBy trLt x l).Pairwise fun a b => a = b ∨ trLt a b = true := by
  induction l with
  | nil => simp [insertBy]
  | cons y l ih =>
    rw [List.pairwise_cons] at h
    unfold insertBy
    split
    · rename_i hlt
      rw [List.pairwise_cons]
      refine ⟨fun b hb => ?_, ih h.2⟩
      rcases List.mem_cons.1 ((insertBy_perm trLt x l).mem_iff.1 hb) with rfl | hb
      · exact .inr hlt
      · exact h.1 b hb
    · rename_i hlt
      rw [List.pairwise_cons]
      refine ⟨fun b hb => ?_, List.pairwise_cons.2 h⟩
      have hxy : x = y ∨ trLt x y = true := by
        rcases trLt_total hlt with h1 | h1
        · exact .inl h1.symm
        · exact .inr h1
      rcases List.mem_cons.1 hb with hb' | hb'
      · rw [hb']; exact hxy
      · rcases hxy with rfl | hxy
        · exact h.1 b hb'
        · rcases h.1 b hb' with rfl | h2
          · exact .inr hxy
          · exact .inr (trLt_trans hxy h2)

theorem sortBy_trLt (l : List Tr) : (sortBy trLt l).Pairwise fun a b => a = b ∨ trLt a b = true := by
  induction l with
  | nil => exact .nil
  | cons x l ih => exact insertBy_trLt x _ ih

theorem uniqTr_strict (l : List Tr) (h : l.Pairwise fun a b => a = b ∨ trLt a b = true) :
    (uniqTr l).Pairwise fun a b => trLt a b = true := by
  induction l with
  | nil => exact .nil
  | cons a l ih =>
    rw [List.pairwise_cons] at h
    have ih := ih h.2
    have hm := mem_uniqTr l
    unfold uniqTr
    split
    · simp
    · rename_i b l' he
      rw [he] at ih hm
      split
      · exact ih
      · rename_i hne
        rw [List.pairwise_cons]
        refine ⟨fun c hc => ?_, ih⟩
        have hab : trLt a b = true := (h.1 b ((hm b).1 (List.mem_cons_self ..))).resolve_left hne
        rcases List.mem_cons.1 hc with rfl | hc
        · exact hab
        · exact trLt_trans hab ((List.pairwise_cons.1 ih).1 c hc)

theorem nodup_uniqTr (l : List Tr) : (uniqTr (sortBy trLt l)).Nodup :=
  (uniqTr_strict _ (sortBy_trLt l)).imp fun h e => by
    subst e
    rw [trLt_iff] at h
    omega

theorem length_uniqTr_le (l L : List Tr) (h : ∀ u ∈ l, u ∈ L) : (uniqTr (sortBy trLt l)).length ≤ L.length :=
  (List.subperm_of_subset (nodup_uniqTr l) fun u hu => h u ((mem_sortBy trLt l u).1 ((mem_uniqTr _ u).1 hu))).length_le

/-- One step of the second phase. -/
theorem fixStep_clean {stepWith : Bool → FixSt T X → Tr → FixSt T X} (K : FixSt T X → Prop)
    (hK : ∀ s s' : FixSt T X, s'.aut = s.aut → s'.x = s.x → K s → K s')
    (hframe : ∀ bot s t, (stepWith bot s t).workset = s.workset ∧ (stepWith bot s t).rounds = s.rounds)
    (hst : ∀ s t, K s → (stepWith true s t).Dirty ∨
      stepWith true s t = stepWith false s t ∧ Paid s (stepWith true s t)) (s : FixSt T X) (hs : K s)
    (hl : s.limit = s.count) (hl' : (fixStep stepWith false s).limit = (fixStep stepWith false s).count)
    (hq : (uniqTr (sortBy trLt s.next)).length ≤ s.count) (hr : RoundsFit s) :
    (fixStep stepWith true s).Dirty ∨ fixStep stepWith true s = fixStep stepWith false s ∧
      ((fixStep stepWith false s).workset = [] ∧ (fixStep stepWith false s).next = [] ∨
        RoundsFit (fixStep stepWith false s)) := by
  unfold fixStep at *
  by_cases h1 : s.workset = []
  · rw [if_pos h1, if_pos h1] at *
    by_cases h2 : s.next = []
    · rw [if_pos h2, if_pos h2] at *
      exact .inr ⟨rfl, .inl ⟨h1, h2⟩⟩
    · rw [if_neg h2, if_neg h2] at *
      have hne : uniqTr (sortBy trLt s.next) ≠ [] := by
        obtain ⟨a, ha⟩ := List.exists_mem_of_ne_nil _ h2
        exact List.ne_nil_of_mem ((mem_uniqTr _ _).2 ((mem_sortBy trLt _ _).2 ha))
      unfold fixPop at *
      dsimp only at *
      rw [List.getLast?_eq_some_getLast hne] at *
      dsimp only at *
      generalize (uniqTr (sortBy trLt s.next)).getLast hne = t at *
      rcases hst { s with rounds := s.rounds + 1, workset := (uniqTr (sortBy trLt s.next)).dropLast, next := [] } t
        (hK s _ rfl rfl hs) with h3 | ⟨h3, L, h4, h5⟩
      · exact .inl h3
      · refine .inr ⟨h3, .inr (.inr ⟨L, ?_, ?_⟩)⟩
        · rw [← h3]
          intro u hu
          rcases h5 u hu with h | h
          · cases h
          · exact h
        · have hf := hframe false { s with rounds := s.rounds + 1, workset := (uniqTr (sortBy trLt s.next)).dropLast, next := [] } t
          rw [hf.1, hf.2, hl', ← h3]
          refine Nat.le_trans ?_ h4
          dsimp only
          rw [List.length_dropLast]
          have hpos := List.length_pos_iff.2 hne
          rcases hr with hr | ⟨M, hM, hr⟩
          · omega
          · have := length_uniqTr_le s.next M hM
            rw [h1, List.length_nil] at hr
            omega
  · rw [if_neg h1, if_neg h1] at *
    unfold fixPop at *
    rw [List.getLast?_eq_some_getLast h1] at *
    dsimp only at *
    generalize s.workset.getLast h1 = t at *
    rcases hst { s with workset := s.workset.dropLast } t (hK s _ rfl rfl hs) with h3 | ⟨h3, L, h4, h5⟩
    · exact .inl h3
    · refine .inr ⟨h3, .inr ?_⟩
      have hf := hframe false { s with workset := s.workset.dropLast } t
      rcases hr with hr | ⟨M, hM, hr⟩
      · exact .inl (hf.2.trans hr)
      · refine .inr ⟨M ++ L, ?_, ?_⟩
        · rw [← h3]
          intro u hu
          rcases h5 u hu with h | h
          · exact List.mem_append_left _ (hM u h)
          · exact List.mem_append_right _ h
        · rw [hf.1, hf.2, hl', ← h3, List.length_append]
          dsimp only at h4 ⊢
          rw [List.length_dropLast]
          omega

/-- The second phase, if it leaves no trace, keeps the invariant of the first phase and empties the queue. -/
theorem fixFinalize_clean {stepWith : Bool → FixSt T X → Tr → FixSt T X} (K I : FixSt T X → Prop)
    (hK : ∀ s s' : FixSt T X, s'.aut = s.aut → s'.x = s.x → K s → K s')
    (hframe : ∀ bot s t, (stepWith bot s t).workset = s.workset ∧ (stepWith bot s t).rounds = s.rounds)
    (hdirty : ∀ s t, s.Dirty → (stepWith true s t).Dirty)
    (hst : ∀ s t, K s → (stepWith true s t).Dirty ∨
      stepWith true s t = stepWith false s t ∧ Paid s (stepWith true s t))
    (hI : ∀ s, I s → s.isDone = false → I (fixStep stepWith false s))
    (hIK : ∀ s, I s → K s ∧ s.limit = s.count ∧ (∀ L : List Tr, L.Nodup → (∀ u ∈ L, s.Queued u) → L.length ≤ s.count) ∧
      (s.done = true → s.workset = [] ∧ s.next = []))
    {fuel : Nat} {s r : FixSt T X} (h : fixFinalize stepWith fuel s = some r) (hs : I { s with rounds := 0 })
    (hr : ¬ r.Dirty) : I r ∧ r.workset = [] ∧ r.next = [] := by
  have hds : ∀ s : FixSt T X, s.Dirty → (fixStep stepWith true s).Dirty := by
    intro s hd
    have hp : ∀ s : FixSt T X, s.Dirty → (fixPop stepWith true s).Dirty := by
      intro s hd
      unfold fixPop
      split
      · exact hd
      · exact hdirty _ _ (hd.of_eq rfl rfl)
    unfold fixStep
    split
    · split
      · exact hd.of_eq rfl rfl
      · exact hp _ (hd.of_eq rfl rfl)
    · exact hp _ hd
  have := whileSome_inv (I := fun s => s.Dirty ∨ I s ∧ (s.workset = [] ∧ s.next = [] ∨ RoundsFit s)) ?_
    (.inr ⟨hs, .inr (.inl rfl)⟩) h
  · obtain ⟨h1, h2⟩ := this
    obtain ⟨h3, h4⟩ := h1.resolve_left hr
    refine ⟨h3, ?_⟩
    obtain ⟨k1, k2, k3, k4⟩ := hIK r h3
    rcases h4 with h4 | h4
    · exact h4
    · split at h2
      · rename_i hd
        unfold FixSt.isDone at hd
        rw [Bool.or_eq_true] at hd
        rcases hd with hd | hd
        · exact k4 hd
        · have hd : r.rounds = r.limit := by simpa using hd
          rcases h4 with h4 | ⟨L, h4, h5⟩
          · -- no rounds at all: there is nothing to queue
            have hno : ∀ u, ¬ r.Queued u := by
              intro u hu
              have := k3 [u] (List.nodup_singleton u) fun v hv => by rw [List.mem_singleton.1 hv]; exact hu
              rw [List.length_singleton] at this
              omega
            exact ⟨List.eq_nil_iff_forall_not_mem.2 fun u hu => hno u (.inl hu),
              List.eq_nil_iff_forall_not_mem.2 fun u hu => hno u (.inr hu)⟩
          · have h6 : r.workset = [] := List.length_eq_zero_iff.1 (by omega)
            have h7 : L = [] := List.length_eq_zero_iff.1 (by omega)
            subst h7
            exact ⟨h6, List.eq_nil_iff_forall_not_mem.2 fun u hu => by cases h4 u hu⟩
      · cases h2
  · intro s s' hs hst'
    split at hst'
    · cases hst'
    · rename_i hd
      cases hst'
      rcases hs with hs | ⟨hs, hq⟩
      · exact .inl (hds _ hs)
      · have hd : s.isDone = false := by simpa using hd
        obtain ⟨k1, k2, k3, k4⟩ := hIK s hs
        have hs' := hI s hs hd
        have hl' := (hIK _ hs').2.1
        rcases hq with ⟨hq1, hq2⟩ | hq
        · right
          unfold fixStep at hs' ⊢
          rw [if_pos hq1, if_pos hq2] at *
          exact ⟨hs', .inl ⟨hq1, hq2⟩⟩
        · rcases fixStep_clean K hK hframe hst s k1 k2 hl'
            (k3 _ (nodup_uniqTr _) fun u hu => .inr ((mem_sortBy trLt _ u).1 ((mem_uniqTr _ u).1 hu))) hq with h1 | ⟨h1, h2⟩
          · exact .inl h1
          · right; rw [h1]; exact ⟨hs', h2⟩

/-- How many transitions are not counted. -/
theorem fixUpdate_length (ins : X → Tr → X) (q : Tr → Bool) (bot : Bool) (s : FixSt T X) (t : Tr) (w : T) (tr : Trace) (c : Nat)
    (h : s.aut.edges.length = s.count + c) :
    (fixUpdate ins q bot s t w tr).1.aut.edges.length = (fixUpdate ins q bot s t w tr).1.count + c := by
  unfold fixUpdate
  split
  · rename_i h0
    split
    · exact h
    · dsimp only
      rw [keys_emplace _ _ _ h0, List.length_cons, h]
      omega
  · split
    · dsimp only [Aut.setEdge]
      rw [List.length_map]
      exact h
    · exact h

end

/-! ## post* -/

section
variable [LinearOrder T] [OrderBot T] [AddCommMonoid T]

/-- What every update keeps is kept by the processing of a transition. -/
theorem fpostStepWith_keep (D : FPost T → Prop) (val : W → T) (p : Pda W) (bot : Bool)
    (hu : ∀ s t w tr, D s → D (fpostUpdate p.size bot s t w tr).1) (hn : ∀ s, D s → D { s with undef := true })
    (s : FPost T) (t : Tr) (hs : D s) : D (fpostStepWith val p bot s t) := by
  unfold fpostStepWith
  split
  · exact hn s hs
  · rename_i w _
    split
    · apply foldl_keep D _ _ _ _ hs
      intro s y _ hs
      unfold fpostRule
      split
      · exact hs
      · dsimp only
        split
        · exact hu _ _ _ _ hs
        · exact hu _ _ _ _ hs
        · exact hu _ _ _ _ hs
        · unfold fpostPush
          dsimp only
          have h1 := hu _ ⟨qFind s.x.qPrime (y.1.1.to, y.1.1.opLabel), t.label, t.dst⟩ (w + val y.1.1.weight)
            (Trace.post t.src y.2 t.label) (hu s ⟨y.1.1.to, y.1.1.opLabel, qFind s.x.qPrime (y.1.1.to, y.1.1.opLabel)⟩ 0
            (Trace.post t.src y.2 t.label) hs)
          split
          · apply foldl_keep D _ _ _ _ h1
            intro s f _ hs
            unfold fpostRel2
            split
            · exact hn s hs
            · exact hu _ _ _ _ hs
          · exact h1
    · apply foldl_keep D _ _ _ _ hs
      intro s u _ hs
      unfold fpostRel1
      split
      · exact hn s hs
      · exact hu _ _ _ _ hs

theorem fpostStepWith_dirty (val : W → T) (p : Pda W) (bot : Bool) (s : FPost T) (t : Tr) (h : s.Dirty) :
    (fpostStepWith val p bot s t).Dirty :=
  fpostStepWith_keep FixSt.Dirty val p bot (fun s t w tr h => fixUpdate_dirty _ _ bot s t w tr h) (fun _ _ => .inl rfl) s t h

/-- A step of the second phase of post* that leaves no trace does nothing. -/
theorem fpostStepWith_clean (val : W → T) (p : Pda W) (s : FPost T) (t : Tr) :
    (fpostStepWith val p true s t).Dirty ∨
      fpostStepWith val p true s t = fpostStepWith val p false s t ∧ fpostStepWith val p true s t = s := by
  have hd : ∀ (s : FPost T) t w tr, s.Dirty → (fpostUpdate p.size true s t w tr).1.Dirty :=
    fun s t w tr h => fixUpdate_dirty _ _ true s t w tr h
  have hc : ∀ (s : FPost T) t w tr, (fpostUpdate p.size true s t w tr).1.Dirty ∨
      fpostUpdate p.size true s t w tr = (s, false) ∧ fpostUpdate p.size false s t w tr = (s, false) :=
    fun s t w tr => fixUpdate_clean _ _ s t w tr
  have hc1 : ∀ (s0 s : FPost T) t w tr, s = s0 → (fpostUpdate p.size true s t w tr).1.Dirty ∨
      (fpostUpdate p.size true s t w tr).1 = (fpostUpdate p.size false s t w tr).1 ∧
        (fpostUpdate p.size true s t w tr).1 = s0 := by
    rintro s0 s t w tr rfl
    rcases hc s t w tr with h | ⟨h1, h2⟩
    · exact .inl h
    · rw [h1, h2]; exact .inr ⟨rfl, rfl⟩
  unfold fpostStepWith
  split
  · exact .inl (.inl rfl)
  · rename_i w _
    split
    · refine foldl_clean FixSt.Dirty (fun s' => s' = s) _ _ _ ?_ ?_ s rfl
      · intro s y h
        unfold fpostRule
        split
        · exact h
        · dsimp only
          split
          · exact hd _ _ _ _ h
          · exact hd _ _ _ _ h
          · exact hd _ _ _ _ h
          · unfold fpostPush
            dsimp only
            have h1 := hd _ ⟨qFind s.x.qPrime (y.1.1.to, y.1.1.opLabel), t.label, t.dst⟩ (w + val y.1.1.weight)
              (Trace.post t.src y.2 t.label) (hd s ⟨y.1.1.to, y.1.1.opLabel, qFind s.x.qPrime (y.1.1.to, y.1.1.opLabel)⟩ 0
              (Trace.post t.src y.2 t.label) h)
            split
            · apply foldl_keep FixSt.Dirty _ _ _ _ h1
              intro s f _ hs
              unfold fpostRel2
              split
              · exact .inl rfl
              · exact hd _ _ _ _ hs
            · exact h1
      · intro s' y _ hs'
        unfold fpostRule
        split
        · exact .inr ⟨rfl, hs'⟩
        · dsimp only
          split
          · exact hc1 s _ _ _ _ hs'
          · exact hc1 s _ _ _ _ hs'
          · exact hc1 s _ _ _ _ hs'
          · unfold fpostPush
            dsimp only
            generalize (Trace.post t.src y.2 t.label) = tr
            generalize hm : qFind s'.x.qPrime (y.1.1.to, y.1.1.opLabel) = m
            generalize w + val y.1.1.weight = wb
            have keep : ∀ u : FPost T × Bool, u.1.Dirty →
                (if u.2 = true then List.foldl (fpostRel2 p.size true t m wb) u.1 (u.1.x.rel2At m) else u.1).Dirty := by
              intro u hu
              split
              · apply foldl_keep FixSt.Dirty _ _ _ _ hu
                intro s f _ hs
                unfold fpostRel2
                split
                · exact .inl rfl
                · exact hd _ _ _ _ hs
              · exact hu
            rcases hc s' ⟨y.1.1.to, y.1.1.opLabel, m⟩ 0 tr with h1 | ⟨h1, h2⟩
            · exact .inl (keep _ (hd _ _ _ _ h1))
            · rw [h1, h2]
              dsimp only
              rcases hc s' ⟨m, t.label, t.dst⟩ wb tr with h3 | ⟨h3, h4⟩
              · exact .inl (keep _ h3)
              · rw [h3, h4]
                exact .inr ⟨rfl, hs'⟩
    · refine foldl_clean FixSt.Dirty (fun s' => s' = s) _ _ _ ?_ ?_ s rfl
      · intro s u h
        unfold fpostRel1
        split
        · exact .inl rfl
        · exact hd _ _ _ _ h
      · intro s' u _ hs'
        unfold fpostRel1
        split
        · exact .inl (.inl rfl)
        · exact hc1 s _ _ _ _ hs'

end

/-! ## pre* -/

section
variable [LinearOrder T] [OrderBot T] [LinearOrder W] [Zero W] [AddCommMonoid T]

/-- What every update keeps, if its target is that of an existing transition or, for the POP rules into `t.src`, `t.src`,
is kept by the processing of `t`. -/
theorem fpreStepWith_keep (D : FPre T → Prop) (val : W → T) (p : Pda W) (bot : Bool) (t : Tr)
    (hu : ∀ b s u w tr, D s → (u.dst = t.src ∨ ∃ v ∈ keys s.aut.edges, v.dst = u.dst) → D (fpreUpdate b s u w tr))
    (hk : ∀ b s u w tr, D s → t ∈ keys s.aut.edges → t ∈ keys (fpreUpdate b s u w tr).aut.edges)
    (hn : ∀ s, D s → D { s with undef := true }) (hx : ∀ s x, D s → D { s with x := { s.x with dp := x } })
    (s : FPre T) (hs : D s) :
    D (fpreStepWith val p bot s t) ∧ (p.size ≤ t.src ∨ fpreStepWith val p bot s t = { s with undef := true }) ∨ ∃ s', D s' ∧ t.src < p.size ∧
      fpreStepWith val p bot s t = { s' with x := { s'.x with popped := t.src :: s'.x.popped } } := by
  let D' : FPre T → Prop := fun s => D s ∧ t ∈ keys s.aut.edges
  have hu' : ∀ b s u w tr, D' s → (u.dst = t.src ∨ ∃ v ∈ keys s.aut.edges, v.dst = u.dst) → D' (fpreUpdate b s u w tr) :=
    fun b s u w tr h h1 => ⟨hu b s u w tr h.1 h1, hk b s u w tr h.1 h.2⟩
  have hbulk : ∀ b s src l dst w tr, D' s → (dst = t.src ∨ dst = t.dst) → D' (fpreBulk p b s src l dst w tr) := by
    intro b s src l dst w tr hs h
    unfold fpreBulk
    apply foldl_keep D' _ _ _ _ hs
    intro s g _ hs
    refine hu' _ _ _ _ _ hs ?_
    rcases h with h | h
    · exact .inl h
    · exact .inr ⟨t, hs.2, h.symm⟩
  unfold fpreStepWith
  split
  · exact .inl ⟨hn s hs, .inr rfl⟩
  · rename_i w hw
    have hs' : D' s := ⟨hs, s.wt_some hw⟩
    unfold fpreBody
    dsimp only
    have h1 : D' ((s.x.dpAt t.src).foldl (fpreDelta val p bot t w) s) := by
      apply foldl_keep D' _ _ _ _ hs'
      intro s d _ hs
      unfold fpreDelta
      split
      · exact hs
      · split
        · split
          · exact ⟨hn s hs.1, hs.2⟩
          · exact hu' _ _ _ _ _ hs (.inr ⟨t, hs.2, rfl⟩)
        · exact hs
    generalize (s.x.dpAt t.src).foldl (fpreDelta val p bot t w) s = s1 at h1
    split
    · rename_i hge
      exact .inl ⟨h1.1, .inl hge⟩
    · rename_i hlt
      refine .inr ⟨_, ?_, by omega, rfl⟩
      refine (foldl_keep D' _ _ ?_ _ h1).1
      intro s pre _ hs
      apply foldl_keep D' _ _ _ _ hs
      intro s y _ hs
      unfold fpreRule
      split
      · split
        · exact hs
        · exact hbulk _ _ _ _ _ _ _ hs (.inl rfl)
      · split
        · exact hbulk _ _ _ _ _ _ _ hs (.inr rfl)
        · exact hs
      · split
        · exact hu' _ _ _ _ _ hs (.inr ⟨t, hs.2, rfl⟩)
        · exact hs
      · split
        · refine foldl_keep D' _ _ ?_ _ ⟨hx s _ hs.1, hs.2⟩
          intro s u _ hs
          unfold fpreRel
          split
          · split
            · exact ⟨hn s hs.1, hs.2⟩
            · rename_i y hy
              exact hu' _ _ _ _ _ hs (.inr ⟨u, s.wt_some hy, rfl⟩)
          · exact hs
        · exact hs

theorem fpreUpdate_mem (b : Bool) (s : FPre T) (u : Tr) (w : T) (tr : Trace) (t : Tr) (h : t ∈ keys s.aut.edges) :
    t ∈ keys (fpreUpdate b s u w tr).aut.edges := by
  unfold fpreUpdate fixUpdate
  split
  · rename_i h0
    split
    · exact h
    · dsimp only
      unfold keys
      rw [keys_emplace _ _ _ h0]
      exact List.mem_cons_of_mem _ h
  · split
    · dsimp only; rw [keys_set]; exact h
    · exact h

theorem fpreStepWith_dirty (val : W → T) (p : Pda W) (bot : Bool) (s : FPre T) (t : Tr) (h : s.Dirty) :
    (fpreStepWith val p bot s t).Dirty := by
  rcases fpreStepWith_keep FixSt.Dirty val p bot t (fun b s u w tr h _ => fixUpdate_dirty _ _ b s u w tr h)
    (fun b s u w tr _ h => fpreUpdate_mem b s u w tr t h) (fun _ _ => .inl rfl) (fun s _ h => h.of_eq rfl rfl) s h with h | ⟨s', h, _, he⟩
  · exact h.1
  · rw [he]; exact h.of_eq rfl rfl

/-- The POP rules into the target of every transition have been used, or the target is `q`. -/
def FPreInto (p : Pda W) (q : Nat) (s : FPre T) : Prop :=
  ∀ u ∈ keys s.aut.edges, u.dst < p.size → u.dst ∈ s.x.popped ∨ u.dst = q

theorem fpreUpdate_popped (b : Bool) (s : FPre T) (u : Tr) (w : T) (tr : Trace) :
    (fpreUpdate b s u w tr).x.popped = s.x.popped := by
  unfold fpreUpdate fixUpdate
  split
  · split <;> rfl
  · split <;> rfl

theorem fpreUpdate_into {p : Pda W} {q : Nat} (b : Bool) (s : FPre T) (u : Tr) (w : T) (tr : Trace) (h : FPreInto p q s)
    (hu : u.dst = q ∨ ∃ v ∈ keys s.aut.edges, v.dst = u.dst) : FPreInto p q (fpreUpdate b s u w tr) := by
  intro v hv hlt
  rw [fpreUpdate_popped]
  rcases fixUpdate_keys _ _ b s u w tr v hv with rfl | hv
  · rcases hu with hu | ⟨v', hv', he⟩
    · exact .inr hu
    · rw [← he] at hlt ⊢; exact h v' hv' hlt
  · exact h v hv hlt

theorem fpreStepWith_into (val : W → T) (p : Pda W) (bot : Bool) (s : FPre T) (t : Tr)
    (h : ∀ u ∈ keys s.aut.edges, u.dst < p.size → u.dst ∈ s.x.popped) :
    ∀ u ∈ keys (fpreStepWith val p bot s t).aut.edges, u.dst < p.size → u.dst ∈ (fpreStepWith val p bot s t).x.popped := by
  rcases fpreStepWith_keep (FPreInto p t.src) val p bot t (fun b s u w tr h hu => fpreUpdate_into b s u w tr h hu)
    (fun b s u w tr _ h => fpreUpdate_mem b s u w tr t h) (fun _ h => h) (fun s _ h => h) s
    (fun u hu hlt => .inl (h u hu hlt)) with ⟨h1, h2⟩ | ⟨s', h1, _, he⟩
  · rcases h2 with h2 | h2
    · intro u hu hlt
      rcases h1 u hu hlt with h3 | h3
      · exact h3
      · omega
    · rw [h2]; exact h
  · rw [he]
    intro u hu hlt
    rcases h1 u hu hlt with h2 | h2
    · exact List.mem_cons_of_mem _ h2
    · rw [h2]; exact List.mem_cons_self ..

/-- Between the start of a step of the second phase and a later point in it: only new transitions are queued, and if `P`
holds then all transitions into `q` are new. -/
def PreFresh (P : Prop) (s0 : FPre T) (q : Nat) (s : FPre T) : Prop :=
  s.x.popped = s0.x.popped ∧ ∃ L : List Tr, L.length + s0.count = s.count ∧ (∀ u ∈ s.next, u ∈ s0.next ∨ u ∈ L) ∧
    (P → ∀ u ∈ keys s.aut.edges, u.dst = q → u ∈ L)

theorem PreFresh.of_eq {P : Prop} {s0 s s' : FPre T} {q : Nat} (h : PreFresh P s0 q s) (h1 : s'.x.popped = s.x.popped) (h2 : s'.count = s.count)
    (h3 : s'.next = s.next) (h4 : s'.aut = s.aut) : PreFresh P s0 q s' := by
  obtain ⟨a, L, b, c, d⟩ := h
  exact ⟨h1.trans a, L, by rw [h2]; exact b, by rw [h3]; exact c, by rw [h4]; exact d⟩

/-- A new transition into `q`. -/
theorem PreFresh.update {P : Prop} {s0 s : FPre T} {q : Nat} (h : PreFresh P s0 q s) (hq : P) (src g : Nat) (w : T) (tr : Trace) :
    PreFresh P s0 q (fpreUpdate false s ⟨src, g, q⟩ w tr) := by
  obtain ⟨a, L, b, c, d⟩ := h
  refine ⟨(fpreUpdate_popped ..).trans a, ?_⟩
  unfold fpreUpdate fixUpdate
  split
  · rename_i h0
    simp only [Bool.false_eq_true, if_false, if_true]
    refine ⟨⟨src, g, q⟩ :: L, by rw [List.length_cons]; omega, ?_, ?_⟩
    · intro u hu
      rcases List.mem_append.1 hu with hu | hu
      · exact (c u hu).imp id (List.mem_cons_of_mem _)
      · rw [List.mem_singleton.1 hu]; exact .inr (List.mem_cons_self ..)
    · intro _ u hu hd
      unfold keys at hu
      rw [keys_emplace _ _ _ h0, List.map_cons] at hu
      rcases List.mem_cons.1 hu with hu | hu
      · rw [hu]; exact List.mem_cons_self ..
      · exact List.mem_cons_of_mem _ (d hq u hu hd)
  · rename_i tr1 tr2 y h0
    have hy : s.wt ⟨src, g, q⟩ = some y := by unfold FixSt.wt; rw [h0]; rfl
    split
    · simp only [if_true]
      refine ⟨L, b, ?_, ?_⟩
      · intro u hu
        rcases List.mem_append.1 hu with hu | hu
        · exact c u hu
        · rw [List.mem_singleton.1 hu]; exact .inr (d hq _ (s.wt_some hy) rfl)
      · intro hq u hu hd
        rw [keys_set] at hu
        exact d hq u hu hd
    · exact ⟨L, b, c, d⟩

/-- A step of the second phase of pre* that leaves no trace is a step of the first phase, and what it queues is new. -/
theorem fpreStepWith_clean (val : W → T) (p : Pda W) (s : FPre T) (t : Tr)
    (hi : ∀ u ∈ keys s.aut.edges, u.dst < p.size → u.dst ∈ s.x.popped) :
    (fpreStepWith val p true s t).Dirty ∨
      fpreStepWith val p true s t = fpreStepWith val p false s t ∧ Paid s (fpreStepWith val p true s t) := by
  have hd : ∀ b (s : FPre T) t w tr, s.Dirty → (fpreUpdate b s t w tr).Dirty :=
    fun b s t w tr h => fixUpdate_dirty _ _ b s t w tr h
  have hdb : ∀ b (s : FPre T) src l dst w tr, s.Dirty → (fpreBulk p b s src l dst w tr).Dirty := by
    intro b s src l dst w tr h
    exact foldl_keep FixSt.Dirty _ _ (fun s g _ h => hd _ _ _ _ _ h) _ h
  have hc : ∀ P (s0 : FPre T) q s t w tr, PreFresh P s0 q s → (fpreUpdate true s t w tr).Dirty ∨
      fpreUpdate true s t w tr = fpreUpdate false s t w tr ∧ PreFresh P s0 q (fpreUpdate true s t w tr) := by
    intro P s0 q s t w tr h
    rcases fixUpdate_clean (fun x t => { x with rel := x.rel ++ [t] }) (fun _ => true) s t w tr with h1 | ⟨h1, h2⟩
    · exact .inl h1
    · unfold fpreUpdate
      rw [h1, h2]
      exact .inr ⟨rfl, h⟩
  have hcb : ∀ P (s0 : FPre T) q s src l dst w tr, PreFresh P s0 q s → (fpreBulk p true s src l dst w tr).Dirty ∨
      fpreBulk p true s src l dst w tr = fpreBulk p false s src l dst w tr ∧ PreFresh P s0 q (fpreBulk p true s src l dst w tr) := by
    intro P s0 q s src l dst w tr h
    exact foldl_clean FixSt.Dirty (PreFresh P s0 q) _ _ _ (fun s g h => hd _ _ _ _ _ h) (fun s g _ h => hc _ _ _ _ _ _ _ h) s h
  unfold fpreStepWith
  split
  · exact .inl (.inl rfl)
  · rename_i w hw
    unfold fpreBody
    dsimp only
    have hd1 : ∀ (s : FPre T) d, s.Dirty → (fpreDelta val p true t w s d).Dirty := by
      intro s d h
      unfold fpreDelta
      split
      · exact h
      · split
        · split
          · exact .inl rfl
          · exact hd _ _ _ _ _ h
        · exact h
    have hd2 : ∀ (pre : Nat) (s : FPre T) y, s.Dirty → (fpreRule val p true t w pre s y).Dirty := by
      intro pre s y h
      unfold fpreRule
      split
      · split
        · exact h
        · exact hdb _ _ _ _ _ _ _ h
      · split
        · exact hdb _ _ _ _ _ _ _ h
        · exact h
      · split
        · exact hd _ _ _ _ _ h
        · exact h
      · split
        · refine foldl_keep FixSt.Dirty _ _ ?_ _ (h.of_eq rfl rfl)
          intro s u _ h
          unfold fpreRel
          split
          · split
            · exact .inl rfl
            · exact hd _ _ _ _ _ h
          · exact h
        · exact h
    have hd3 : ∀ (s : FPre T), s.Dirty → (if t.src ≥ p.size then s else { (p.st t.src).preStates.foldl (fun s pre =>
          (p.rulesInto pre t.src).foldl (fpreRule val p true t w pre) s) s with x := { ((p.st t.src).preStates.foldl (fun s pre =>
          (p.rulesInto pre t.src).foldl (fpreRule val p true t w pre) s) s).x with popped := t.src :: ((p.st t.src).preStates.foldl (fun s pre =>
          (p.rulesInto pre t.src).foldl (fpreRule val p true t w pre) s) s).x.popped } }).Dirty := by
      intro s h
      split
      · exact h
      · refine FixSt.Dirty.of_eq (s := (p.st t.src).preStates.foldl (fun s pre =>
          (p.rulesInto pre t.src).foldl (fpreRule val p true t w pre) s) s) ?_ rfl rfl
        refine foldl_keep FixSt.Dirty _ _ ?_ _ h
        intro s pre _ h
        exact foldl_keep FixSt.Dirty _ _ (fun s y _ h => hd2 pre s y h) _ h
    have h0 : PreFresh (t.src < p.size ∧ t.src ∉ s.x.popped) s t.src s := by
      refine ⟨rfl, [], by simp, fun u hu => .inl hu, ?_⟩
      rintro ⟨h1, h2⟩ u hu he
      rw [← he] at h1 h2
      exact absurd (hi u hu h1) h2
    have h1 := foldl_clean FixSt.Dirty (PreFresh (t.src < p.size ∧ t.src ∉ s.x.popped) s t.src) (fpreDelta val p true t w) (fpreDelta val p false t w)
      (s.x.dpAt t.src) hd1 (by
        intro s' d _ hs'
        unfold fpreDelta
        split
        · exact .inr ⟨rfl, hs'⟩
        · split
          · split
            · exact .inl (.inl rfl)
            · exact hc _ _ _ _ _ _ _ hs'
          · exact .inr ⟨rfl, hs'⟩) s h0
    rcases h1 with h1 | ⟨h1, h2⟩
    · exact .inl (hd3 _ h1)
    · rw [← h1]
      generalize (s.x.dpAt t.src).foldl (fpreDelta val p true t w) s = s1 at h2
      by_cases hge : t.src ≥ p.size
      · rw [if_pos hge, if_pos hge]
        obtain ⟨_, L, h3, h4, _⟩ := h2
        exact .inr ⟨rfl, L, Nat.le_of_eq h3, h4⟩
      · rw [if_neg hge, if_neg hge]
        have h3 := foldl_clean FixSt.Dirty (PreFresh (t.src < p.size ∧ t.src ∉ s.x.popped) s t.src)
          (fun s pre => (p.rulesInto pre t.src).foldl (fpreRule val p true t w pre) s)
          (fun s pre => (p.rulesInto pre t.src).foldl (fpreRule val p false t w pre) s) (p.st t.src).preStates
          (fun s pre h => foldl_keep FixSt.Dirty _ _ (fun s y _ h => hd2 pre s y h) _ h) (by
            intro s' pre _ hs'
            refine foldl_clean FixSt.Dirty (PreFresh (t.src < p.size ∧ t.src ∉ s.x.popped) s t.src) _ _ _ (hd2 pre) ?_ s' hs'
            intro s' y _ hs'
            unfold fpreRule
            split
            · split
              · exact .inr ⟨rfl, hs'⟩
              · rename_i hno
                refine .inr ⟨rfl, ?_⟩
                have hP : t.src < p.size ∧ t.src ∉ s.x.popped := by
                  refine ⟨by omega, fun hm => hno ?_⟩
                  rw [hs'.1]
                  simpa using hm
                exact foldl_keep (PreFresh (t.src < p.size ∧ t.src ∉ s.x.popped) s t.src) _ _
                  (fun s g _ h => h.update hP _ _ _ _) _ hs'
            · split
              · exact hcb _ _ _ _ _ _ _ _ _ hs'
              · exact .inr ⟨rfl, hs'⟩
            · split
              · exact hc _ _ _ _ _ _ _ hs'
              · exact .inr ⟨rfl, hs'⟩
            · split
              · refine foldl_clean FixSt.Dirty (PreFresh (t.src < p.size ∧ t.src ∉ s.x.popped) s t.src) _ _ _ ?_ ?_ _
                  (hs'.of_eq rfl rfl rfl rfl)
                · intro s u h
                  unfold fpreRel
                  split
                  · split
                    · exact .inl rfl
                    · exact hd _ _ _ _ _ h
                  · exact h
                · intro s' u _ hs'
                  unfold fpreRel
                  split
                  · split
                    · exact .inl (.inl rfl)
                    · exact hc _ _ _ _ _ _ _ hs'
                  · exact .inr ⟨rfl, hs'⟩
              · exact .inr ⟨rfl, hs'⟩) s1 h2
        rcases h3 with h3 | ⟨h3, _, L, h4, h5, _⟩
        · exact .inl (h3.of_eq rfl rfl)
        · rw [← h3]
          exact .inr ⟨rfl, L, Nat.le_of_eq h4, h5⟩

end

end Verif
