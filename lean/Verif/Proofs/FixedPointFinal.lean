import Verif.Proofs.FixedPoint
import Verif.Proofs.FindPath
import Verif.Proofs.ReducerFinal

/-!
# The rounds of `PAutomatonFixedPoint`
-/

namespace Verif.FP

open WAut

variable {T : Type} [LinearOrder T] [AddCommMonoid T] [IsOrderedAddMonoid T] [OrderTop T] [OrderBot T] {A : WAut T}

/-- The outcomes of popping a state, for both loops. -/
theorem popStep_cases (b : Bool) {s : FP T} (hs : Inv A s) (hb : b = false ∧ A.NoNegativeCycle ∨ Comp A s)
    (hne : s.workset ≠ []) (hd : s.done = false) :
    Stopped A (popStep A b s) ∨
      ∃ cur, s.workset.getLast? = some cur ∧
        Processed A { s with workset := s.workset.dropLast } (popStep A b s) cur := by
  obtain ⟨cur, hcur⟩ : ∃ cur, s.workset.getLast? = some cur := by
    rw [List.getLast?_eq_some_getLast hne]; exact ⟨_, rfl⟩
  have hws : s.workset = s.workset.dropLast ++ [cur] := by
    rw [List.getLast?_eq_some_getLast hne] at hcur
    have := List.dropLast_append_getLast hne
    cases hcur
    exact this.symm
  have hmem : cur ∈ s.workset := by rw [hws]; simp
  have hct : s.d cur ≠ ⊤ := hs.fin cur (.inl hmem)
  unfold popStep
  rw [hcur]
  dsimp only
  rcases stepWith_cases (A := A) b { s with workset := s.workset.dropLast } cur with ⟨h1, h2, h3⟩ | ⟨_, h3⟩
  · left
    rw [h3]
    dsimp only
    rw [if_neg (by simp)]
    have hfl : ∀ v, ((setState { s with workset := s.workset.dropLast } cur
        { s.states cur with inQueue := false }).states v).weight = s.d v ∧
        ((setState { s with workset := s.workset.dropLast } cur
        { s.states cur with inQueue := false }).states v).pred = (s.states v).pred ∧
        ((setState { s with workset := s.workset.dropLast } cur
        { s.states cur with inQueue := false }).states v).label = (s.states v).label := by
      intro v; unfold setState; dsimp only; split
      · subst v; exact ⟨rfl, rfl, rfl⟩
      · exact ⟨rfl, rfl, rfl⟩
    refine { toCore := hs.toCore.flags (fun v => (hfl v).1) (fun v => (hfl v).2.1) (fun v => (hfl v).2.2) ?_, done := rfl, bot := ⟨cur, rfl, h1, ?_⟩ }
    · intro a ha
      cases ha
      exact ⟨h1, by rw [d, (hfl cur).1]; exact hct⟩
    · rw [d, (hfl cur).1]; exact h2
  · right
    refine ⟨cur, rfl, ?_⟩
    rw [h3]
    dsimp only
    rw [if_pos rfl]
    refine Inv.process b ?_ ?_ ?_ ?_ ?_ ?_ hct
    · exact hb
    · exact hs.toCore.congr (fun _ _ => rfl) rfl
    · intro u l v y _; exact hs.rel u l v y
    · intro v _; exact hs.minLe v
    · intro v hv hq
      rcases hs.queue v hq with h | h
      · rw [hws] at h
        rcases List.mem_append.1 h with h | h
        · exact .inl h
        · exact absurd (List.mem_singleton.1 h) hv
      · exact .inr h
    · intro v hv
      refine hs.fin v ?_
      rcases hv with h | h
      · exact .inl (List.dropLast_subset _ h)
      · exact .inr h

omit [LinearOrder T] [AddCommMonoid T] [IsOrderedAddMonoid T] [OrderTop T] [OrderBot T] in
theorem mem_workset_last {s : FP T} {cur v : Nat} (h : s.workset.getLast? = some cur) (hv : v ∈ s.workset) :
    v ∈ s.workset.dropLast ∨ v = cur := by
  have hne : s.workset ≠ [] := by intro e; rw [e] at h; cases h
  rw [List.getLast?_eq_some_getLast hne] at h
  have := List.dropLast_append_getLast hne
  cases h
  rw [← this] at hv
  rcases List.mem_append.1 hv with h | h
  · exact .inl h
  · exact .inr (List.mem_singleton.1 h)

/-- The facts about the rounds of the first loop. -/
structure Rounds (A : WAut T) (s : FP T) : Prop where
  rP : ∀ i p v w, i < A.m → A.Path i p v w → p.length ≤ s.rounds - 1 → s.d v ≤ w
  rQ : 1 ≤ s.rounds → ∀ i p u w l v y, i < A.m → A.Path i p u w → p.length ≤ s.rounds - 1 → A.Edge u l v y →
    s.d v ≤ w + y ∨ u ∈ s.workset
  r0 : s.rounds = 0 → s.workset = []
  lim : s.limit = A.n
  rK : s.rounds = s.limit → ∀ v, A.CoR v → s.q v = true → v ∈ s.workset
  le : s.rounds ≤ s.limit

theorem Rounds.comp (hA : A.OK) (hN : A.NoNegativeCycle) {s : FP T} (hr : Rounds A s) (h : s.rounds = s.limit) :
    Comp A s := by
  intro i v p w hv hi hp
  obtain ⟨p', w', hp', hle, hlen⟩ := hp.short hA hN hi hv
  refine le_trans (hr.rP i p' v w' hi hp' ?_) hle
  rw [h, hr.lim]; exact hlen

/-- Starting a new round. -/
theorem Rounds.advance (hA : A.OK) (h0 : (0 : T) ≠ ⊤) (ht : ∀ a b : T, a ≠ ⊤ → b ≠ ⊤ → a + b ≠ ⊤)
    {s : FP T} (hs : Inv A s) (hr : Rounds A s) (hw : s.workset = []) (hlt : s.rounds < s.limit) :
    Inv A { s with rounds := s.rounds + 1, workset := s.next, next := [] } ∧
      Rounds A { s with rounds := s.rounds + 1, workset := s.next, next := [] } := by
  have hqn : ∀ v, s.q v = true → v ∈ s.next := by
    intro v hv
    rcases hs.queue v hv with h | h
    · rw [hw] at h; cases h
    · exact h
  have hP : ∀ i p v w, i < A.m → A.Path i p v w → p.length ≤ s.rounds → s.d v ≤ w := by
    intro i p v w hi hp hlen
    by_cases h1 : p.length ≤ s.rounds - 1
    · exact hr.rP i p v w hi hp h1
    · cases hp with
      | nil => simp at h1
      | @snoc u _ l p w y hp e =>
        simp at h1 hlen
        rcases hr.rQ (by omega) i p u w l v y hi hp (by omega) e with h | h
        · exact h
        · rw [hw] at h; cases h
  refine ⟨{ toCore := hs.toCore.congr (fun _ _ => rfl) rfl, rel := hs.rel, minLe := hs.minLe, queue := fun v hv => .inl (hqn v hv), fin := ?_ }, ?_⟩
  · intro v hv
    rcases hv with h | h
    · exact hs.fin v (.inr h)
    · cases h
  · refine ⟨?_, ?_, ?_, hr.lim, ?_, hlt⟩
    · intro i p v w hi hp hlen
      exact hP i p v w hi hp (by simpa using hlen)
    · intro _ i p u w l v y hi hp hlen e
      have hle := hP i p u w hi hp (by simpa using hlen)
      have hwt := hp.ne_top hA h0 ht
      by_cases hq : s.q u = true
      · exact .inr (hqn u hq)
      · left
        exact le_trans (hs.rel u l v y (by simpa using hq) (ne_top_of_le hle hwt) e) (add_le_add hle le_rfl)
    · intro h; simp at h
    · intro _ v _ hq; exact hqn v hq

/-- The invariant of the first loop. -/
def J (A : WAut T) (s : FP T) : Prop :=
  (Inv A s ∧ Rounds A s ∧ (s.done = true → s.workset = [] ∧ s.next = [])) ∨ Stopped A s

theorem J_pop (hA : A.OK) (hN : A.NoNegativeCycle) {s : FP T} (hs : Inv A s) (hr : Rounds A s)
    (hne : s.workset ≠ []) (hd : s.done = false) : J A (popStep A false s) := by
  rcases popStep_cases false hs (.inl ⟨rfl, hN⟩) hne hd with h | ⟨cur, hcur, h⟩
  · exact .inr h
  · left
    have hmono : ∀ v, (popStep A false s).d v ≤ s.d v := h.mono
    have hrd : (popStep A false s).rounds = s.rounds := h.rounds
    have hlm : (popStep A false s).limit = s.limit := h.limit
    have hwk : (popStep A false s).workset = s.workset.dropLast := h.workset
    have h1 : 1 ≤ s.rounds := by
      rcases Nat.eq_zero_or_pos s.rounds with e | e
      · exact absurd (hr.r0 e) hne
      · exact e
    refine ⟨h.toInv, ⟨?_, ?_, ?_, ?_, ?_, ?_⟩, ?_⟩
    · intro i p v w hi hp hlen
      rw [hrd] at hlen
      exact le_trans (hmono v) (hr.rP i p v w hi hp hlen)
    · intro _ i p u w l v y hi hp hlen e
      rw [hrd] at hlen
      rcases hr.rQ h1 i p u w l v y hi hp hlen e with hh | hh
      · exact .inl (le_trans (hmono v) hh)
      · rcases mem_workset_last hcur hh with hh | hh
        · right; rw [hwk]; exact hh
        · subst hh
          exact .inl (le_trans (h.edges l v y e) (add_le_add (hr.rP i p u w hi hp hlen) le_rfl))
    · intro e; rw [hrd] at e; omega
    · rw [hlm]; exact hr.lim
    · intro e v hv hq
      rw [hrd, hlm] at e
      have hc : Comp A { s with workset := s.workset.dropLast } := hr.comp hA hN e
      obtain ⟨h2, h3⟩ := (h.stable hc).1 v hv hq
      rw [hwk]
      rcases mem_workset_last hcur (hr.rK e v hv h2) with hh | hh
      · exact hh
      · exact absurd hh h3
    · rw [hrd, hlm]; exact hr.le
    · intro hdn
      have : (popStep A false s).done = s.done := h.notDone
      rw [this, hd] at hdn
      cases hdn

theorem J_step (hA : A.OK) (hN : A.NoNegativeCycle) (h0 : (0 : T) ≠ ⊤) (ht : ∀ a b : T, a ≠ ⊤ → b ≠ ⊤ → a + b ≠ ⊤)
    {s : FP T} (hs : J A s) (hd : s.isDone = false) : J A (s.step A false) := by
  simp only [isDone, Bool.or_eq_false_iff, beq_eq_false_iff_ne, ne_eq] at hd
  rcases hs with ⟨hi, hr, _⟩ | hs
  · have hlt : s.rounds < s.limit := Nat.lt_of_le_of_ne hr.le hd.2
    unfold step
    by_cases hw : s.workset = []
    · rw [if_pos hw]
      obtain ⟨h1, h2⟩ := hr.advance hA h0 ht hi hw hlt
      by_cases hn : s.next = []
      · rw [if_pos hn]
        left
        refine ⟨?_, ?_, fun _ => ⟨hw, hn⟩⟩
        · rw [hn] at h1
          exact { toCore := h1.toCore.congr (fun _ _ => rfl) rfl, rel := h1.rel, minLe := h1.minLe, queue := by rw [hw, hn]; exact h1.queue, fin := by rw [hw, hn]; exact h1.fin }
        · rw [hn] at h2
          exact ⟨h2.rP, by rw [hw]; exact h2.rQ, fun _ => hw, h2.lim, by rw [hw]; exact h2.rK, h2.le⟩
      · rw [if_neg hn]
        exact J_pop hA hN h1 h2 hn hd.1
    · rw [if_neg hw]
      exact J_pop hA hN hi hr hw hd.1
  · rw [hs.done] at hd; cases hd.1

theorem J_init (hA : A.OK) (h0 : (0 : T) ≠ ⊤) : J A (init A) := by
  have hst : ∀ v, (init A).states v = if v < A.m then { weight := 0, inQueue := true, firstPred := .noState, pred := .noState }
      else { weight := ⊤ } := fun v => rfl
  left
  refine ⟨⟨⟨?_, ?_, ?_, ?_, ?_⟩, ?_, ?_, ?_, ?_⟩, ⟨?_, ?_, ?_, rfl, ?_, Nat.zero_le _⟩, ?_⟩
  · intro v _ hd
    by_cases h : v < A.m
    · exact ⟨v, [], 0, .start (by rw [hst, if_pos h]) h⟩
    · rw [d, hst, if_neg h] at hd; exact absurd rfl hd
  · intro v u _ hp
    rw [hst] at hp
    split at hp <;> cases hp
  · intro v _ hp
    by_cases h : v < A.m
    · exact ⟨h, by rw [d, hst, if_pos h]⟩
    · rw [hst, if_neg h] at hp; cases hp
  · intro v _ hd
    by_cases h : v < A.m
    · rw [d, hst, if_pos h]; exact ⟨v, [], h, .nil v⟩
    · rw [d, hst, if_neg h] at hd; exact absurd rfl hd
  · intro a ha; cases ha
  · intro u l v y hq hd
    by_cases h : u < A.m
    · rw [q, hst, if_pos h] at hq; cases hq
    · rw [d, hst, if_neg h] at hd; exact absurd rfl hd
  · intro v _ hd
    by_cases h : v < A.m
    · left; rw [q, hst, if_pos h]
    · rw [d, hst, if_neg h] at hd; exact absurd rfl hd
  · intro v hq
    by_cases h : v < A.m
    · exact .inr (List.mem_range.2 h)
    · rw [q, hst, if_neg h] at hq; cases hq
  · intro v hv
    rcases hv with h | h
    · cases h
    · rw [d, hst, if_pos (List.mem_range.1 h)]; exact h0
  · intro i p v w hi hp hlen
    cases hp with
    | nil => rw [d, hst, if_pos hi]
    | snoc => simp [init] at hlen
  · intro h; simp [init] at h
  · intro _; rfl
  · intro h v _ hq
    have hn : A.n = 0 := h.symm
    by_cases hv : v < A.m
    · have := hA.init; omega
    · rw [q, hst, if_neg hv] at hq; cases hq
  · intro h; cases h

/-! ## The second loop -/

/-- The invariant of the second loop. -/
def J2 (A : WAut T) (s : FP T) : Prop :=
  (Inv A s ∧ Comp A s ∧ s.limit = A.n ∧ (∀ v, A.CoR v → s.q v = true → v ∈ s.workset ∧ s.rounds = 0) ∧
    (s.done = true → s.workset = [] ∧ s.next = [])) ∨ Stopped A s

omit [OrderBot T] in
/-- With nothing queued every edge is relaxed. -/
theorem Inv.comp (hA : A.OK) (h0 : (0 : T) ≠ ⊤) (ht : ∀ a b : T, a ≠ ⊤ → b ≠ ⊤ → a + b ≠ ⊤) {s : FP T}
    (hs : Inv A s) (hinit : ∀ i < A.m, s.d i ≤ 0) (hw : s.workset = []) (hn : s.next = []) : Comp A s := by
  have hq : ∀ v, s.q v = false := by
    intro v
    by_contra h
    rcases hs.queue v (by simpa using h) with h | h
    · rw [hw] at h; cases h
    · rw [hn] at h; cases h
  intro i v p w _ hi hp
  induction hp with
  | nil => exact hinit i hi
  | @snoc u t l p w x hp e ih =>
    have hwt := hp.ne_top hA h0 ht
    refine le_trans (hs.rel u l t x (hq u) (ne_top_of_le ?_ hwt) e) (add_le_add ?_ le_rfl)
    all_goals exact ih (CoR.edge ‹_› e)

theorem J2_start (hA : A.OK) (hN : A.NoNegativeCycle) (h0 : (0 : T) ≠ ⊤)
    (ht : ∀ a b : T, a ≠ ⊤ → b ≠ ⊤ → a + b ≠ ⊤) {s : FP T} (hs : J A s) (hd : s.isDone = true) :
    J2 A { s with rounds := 0 } := by
  rcases hs with ⟨hi, hr, hdone⟩ | hs
  · left
    have hi' : Inv A { s with rounds := 0 } :=
      { toCore := hi.toCore.congr (fun _ _ => rfl) rfl, rel := hi.rel, minLe := hi.minLe, queue := hi.queue, fin := hi.fin }
    simp only [isDone, Bool.or_eq_true, beq_iff_eq] at hd
    by_cases hdn : s.done = true
    · obtain ⟨hw, hn⟩ := hdone hdn
      refine ⟨hi', ?_, hr.lim, ?_, hdone⟩
      · exact hi'.comp hA h0 ht (fun i him => hr.rP i [] i 0 him (.nil i) (Nat.zero_le _)) hw hn
      · intro v _ hq
        rcases hi.queue v hq with h | h
        · rw [hw] at h; cases h
        · rw [hn] at h; cases h
    · have hrl : s.rounds = s.limit := by rcases hd with h | h; exact absurd h hdn; exact h
      exact ⟨hi', hr.comp hA hN hrl, hr.lim, fun v hv hq => ⟨hr.rK hrl v hv hq, rfl⟩, hdone⟩
  · exact .inr { toCore := hs.toCore.congr (fun _ _ => rfl) rfl, done := hs.done, bot := hs.bot }

theorem J2_pop {s : FP T} (hs : Inv A s) (hc : Comp A s) (hlim : s.limit = A.n)
    (hk : ∀ v, A.CoR v → s.q v = true → v ∈ s.workset ∧ s.rounds = 0)
    (hne : s.workset ≠ []) (hd : s.done = false) : J2 A (popStep A true s) := by
  rcases popStep_cases true hs (.inr hc) hne hd with h | ⟨cur, hcur, h⟩
  · exact .inr h
  · left
    have hrd : (popStep A true s).rounds = s.rounds := h.rounds
    refine ⟨h.toInv, hc.congr fun v _ => h.mono v, h.limit.trans hlim, ?_, ?_⟩
    · intro v hv hq
      obtain ⟨h1, h2⟩ := (h.stable hc).1 v hv hq
      obtain ⟨h3, h4⟩ := hk v hv h1
      refine ⟨?_, hrd.trans h4⟩
      rw [h.workset]
      rcases mem_workset_last hcur h3 with hh | hh
      · exact hh
      · exact absurd hh h2
    · intro hdn
      have : (popStep A true s).done = s.done := h.notDone
      rw [this, hd] at hdn
      cases hdn

theorem J2_step {s : FP T} (hs : J2 A s) (hd : s.isDone = false) : J2 A (s.step A true) := by
  simp only [isDone, Bool.or_eq_false_iff, beq_eq_false_iff_ne, ne_eq] at hd
  rcases hs with ⟨hi, hc, hlim, hk, _⟩ | hs
  · unfold step
    by_cases hw : s.workset = []
    · rw [if_pos hw]
      have hnq : ∀ v, A.CoR v → s.q v ≠ true := by
        intro v hv hq
        have := (hk v hv hq).1
        rw [hw] at this; cases this
      by_cases hn : s.next = []
      · rw [if_pos hn]
        left
        refine ⟨?_, hc, hlim, fun v hv hq => absurd hq (hnq v hv), fun _ => ⟨hw, hn⟩⟩
        exact { toCore := hi.toCore.congr (fun _ _ => rfl) rfl, rel := hi.rel, minLe := hi.minLe, queue := hi.queue, fin := hi.fin }
      · rw [if_neg hn]
        refine J2_pop ?_ hc hlim (fun v hv hq => absurd hq (hnq v hv)) hn hd.1
        refine { toCore := hi.toCore.congr (fun _ _ => rfl) rfl, rel := hi.rel, minLe := hi.minLe, queue := ?_, fin := ?_ }
        · intro v hq
          rcases hi.queue v hq with h | h
          · rw [hw] at h; cases h
          · exact .inl h
        · intro v hv
          rcases hv with h | h
          · exact hi.fin v (.inr h)
          · cases h
    · rw [if_neg hw]
      exact J2_pop hi hc hlim hk hw hd.1
  · rw [hs.done] at hd; cases hd.1

/-- What holds when `run()` returns. -/
structure Final (A : WAut T) (s : FP T) : Prop extends Core A s where
  noneOk : s.minAcc = none → ∀ i p a w, ¬ A.Accepting i p a w
  least : ∀ a, s.minAcc = some a → ∀ i p b w, A.Accepting i p b w → s.d a ≤ w

theorem run_final (hA : A.OK) (hN : A.NoNegativeCycle) (h0 : (0 : T) ≠ ⊤)
    (ht : ∀ a b : T, a ≠ ⊤ → b ≠ ⊤ → a + b ≠ ⊤) {fuel : Nat} {r : FP T} (h : run A fuel (init A) = some r) :
    Final A r := by
  unfold run at h
  rcases h1 : loop A false fuel (init A) with _ | s
  · rw [h1] at h; cases h
  · rw [h1] at h
    have hJ := whileSome_inv (I := J A) (step := fun s : FP T => if s.isDone then none else some (s.step A false)) (by
      intro s s' hs hst
      by_cases hd : s.isDone = true
      · rw [if_pos hd] at hst; cases hst
      · rw [if_neg hd] at hst; cases hst
        exact J_step hA hN h0 ht hs (by simpa using hd)) (J_init hA h0) h1
    have hd : s.isDone = true := by
      by_contra hd
      have := hJ.2
      rw [if_neg hd] at this; cases this
    have hJ2 := whileSome_inv (I := J2 A) (step := fun s : FP T => if s.isDone then none else some (s.step A true)) (by
      intro s s' hs hst
      by_cases hd : s.isDone = true
      · rw [if_pos hd] at hst; cases hst
      · rw [if_neg hd] at hst; cases hst
        exact J2_step hs (by simpa using hd)) (J2_start hA hN h0 ht hJ.1 hd) h
    have hd2 : r.isDone = true := by
      by_contra hd
      have := hJ2.2
      rw [if_neg hd] at this; cases this
    rcases hJ2.1 with ⟨hi, hc, hlim, hk, hdone⟩ | hs
    · have hnq : ∀ v, v < A.n → A.CoR v → r.q v = false := by
        intro v hvn hv
        by_contra hq
        have hq : r.q v = true := by simpa using hq
        obtain ⟨h1, h2⟩ := hk v hv hq
        simp only [isDone, Bool.or_eq_true, beq_iff_eq] at hd2
        rcases hd2 with hd2 | hd2
        · rw [(hdone hd2).1] at h1; cases h1
        · omega
      have key : ∀ i p b w, A.Accepting i p b w → ∃ a, r.minAcc = some a ∧ r.d a ≤ w := by
        intro i p b w ⟨him, hp, hb⟩
        have hle := hc i b p w (.of_accepting hb) him hp
        have hbn : b < A.n := by
          have := hp.states_lt hA (Nat.lt_of_lt_of_le him hA.init)
          cases hp with
          | nil => exact Nat.lt_of_lt_of_le him hA.init
          | snoc _ e => exact hA.target _ _ _ _ e
        rcases hi.minLe b hb (ne_top_of_le hle (hp.ne_top hA h0 ht)) with hq | ⟨a, ha, hle'⟩
        · rw [hnq b hbn (.of_accepting hb)] at hq; cases hq
        · exact ⟨a, ha, le_trans hle' hle⟩
      refine { toCore := hi.toCore, noneOk := ?_, least := ?_ }
      · intro hn i p a w hacc
        obtain ⟨a', ha', _⟩ := key i p a w hacc
        rw [hn] at ha'; cases ha'
      · intro a ha i p b w hacc
        obtain ⟨a', ha', hle⟩ := key i p b w hacc
        rw [ha] at ha'; cases ha'
        exact hle
    · obtain ⟨a, ha, hacc, hbot⟩ := hs.bot
      refine { toCore := hs.toCore, noneOk := ?_, least := ?_ }
      · intro hn; rw [hn] at ha; cases ha
      · intro b hb i p c w _
        rw [ha] at hb; cases hb
        rw [hbot]; exact bot_le

/-! ## `get_path` -/

/-- The (label, target) pairs of a path. -/
def steps (p : APath Nat) : List (Nat × Nat) := p.stack.zip p.states.tail

theorem steps_emplace (p : APath Nat) (u l : Nat) : steps (p.emplace u l) = (l, p.frontState) :: steps p := by
  unfold steps APath.states
  rw [APath.stack_eq, APath.stack_eq]
  rcases p with ⟨f, _ | ⟨x, es⟩⟩ <;> simp [APath.emplace, APath.frontState]

omit [LinearOrder T] [IsOrderedAddMonoid T] [OrderTop T] [OrderBot T] in
theorem pathLoop_back {s : FP T} {i v : Nat} {q : List (Nat × Nat)} {w : T} (hb : Back A s i v q w) (p : APath Nat)
    (hp : p.frontState = v) : ∃ r, pathLoop s q.length v p = some r ∧ r.frontState = i ∧ r.fin = p.fin ∧
      steps r = q ++ steps p := by
  induction hb generalizing p with
  | start h1 h2 =>
    refine ⟨p, ?_, hp, rfl, rfl⟩
    rw [List.length_nil, pathLoop, if_pos h1]
  | @step v u q w x h1 e hb ih =>
    obtain ⟨r, hr1, hr2, hr3, hr4⟩ := ih (p.emplace u (s.states v).label) rfl
    refine ⟨r, ?_, hr2, hr3, ?_⟩
    · rw [List.length_append, List.length_singleton, pathLoop, h1]
      exact hr1
    · rw [hr4, steps_emplace, hp]; simp

omit [LinearOrder T] [IsOrderedAddMonoid T] [OrderTop T] [OrderBot T] [AddCommMonoid T] in
theorem pathLoop_mono {s : FP T} {f f' v : Nat} {p r : APath Nat} (h : pathLoop s f v p = some r) (hf : f ≤ f') :
    pathLoop s f' v p = some r := by
  induction f generalizing v p f' with
  | zero =>
    rw [pathLoop] at h
    split at h
    · rename_i hp
      cases f' <;> rw [pathLoop] <;> simp_all
    · cases h
  | succ f ih =>
    obtain ⟨g, rfl⟩ : ∃ g, f' = g + 1 := ⟨f' - 1, by omega⟩
    rw [pathLoop] at h ⊢
    split at h
    · simp_all
    · cases h
    · rename_i u hu
      exact ih h (by omega)

theorem Final.path {s : FP T} (hs : Final A s) {a : Nat} (ha : s.minAcc = some a) :
    ∃ i q, A.Accepting i q a (s.d a) ∧ Back A s i a q (s.d a) := by
  obtain ⟨hacc, htop⟩ := hs.minOk a ha
  have hco := CoR.of_accepting hacc
  obtain ⟨i, q, w, hb⟩ := hs.back a hco htop
  have key : ∀ v q w, Back A s i v q w → A.CoR v → ∃ w', Back A s i v q w' ∧ w' ≤ s.d v := by
    intro v q w hb
    induction hb with
    | start h1 h2 => intro hv; exact ⟨0, .start h1 h2, (hs.init i hv h1).2.ge⟩
    | @step v u q w x h1 e hb ih =>
      intro hv
      obtain ⟨_, x', e', hle⟩ := hs.loc v u hv h1
      obtain ⟨w', hb', hle'⟩ := ih (hv.edge e)
      exact ⟨w' + x', .step h1 e' hb', le_trans (add_le_add hle' le_rfl) hle⟩
  obtain ⟨w', hb', hle⟩ := key a q w hb hco
  have := hs.least a ha i q a w' ⟨hb'.path.1, hb'.path.2, hacc⟩
  have heq : w' = s.d a := le_antisymm hle this
  subst heq
  exact ⟨i, q, ⟨hb'.path.1, hb'.path.2, hacc⟩, hb'⟩

/-! ## Termination -/

omit [AddCommMonoid T] [IsOrderedAddMonoid T] [OrderTop T] [OrderBot T] [LinearOrder T] in
theorem whileSome_wf {σ : Type} {step : σ → Option σ} (f g : σ → Nat)
    (I : σ → Prop) (hstep : ∀ s s', I s → step s = some s' → I s' ∧ (f s' < f s ∨ f s' = f s ∧ g s' < g s)) (s : σ)
    (hs : I s) : ∃ fuel r, whileSome step fuel s = some r := by
  have : ∀ n m, ∀ s, I s → f s = n → g s = m → ∃ fuel r, whileSome step fuel s = some r := by
    intro n
    induction n using Nat.strongRecOn with
    | ind n ihn =>
      intro m
      induction m using Nat.strongRecOn with
      | ind m ihm =>
        intro s hs hf hg
        rcases hst : step s with _ | s'
        · exact ⟨0, s, by rw [whileSome, hst]⟩
        · obtain ⟨hi, h⟩ := hstep s s' hs hst
          rcases h with h | ⟨h, h'⟩
          · obtain ⟨fuel, r, hr⟩ := ihn (f s') (by omega) (g s') s' hi rfl rfl
            exact ⟨fuel + 1, r, by rw [whileSome, hst]; exact hr⟩
          · obtain ⟨fuel, r, hr⟩ := ihm (g s') (by omega) s' hi (by omega) rfl
            exact ⟨fuel + 1, r, by rw [whileSome, hst]; exact hr⟩
  exact this _ _ s hs rfl rfl

theorem popStep_fields (b : Bool) (s : FP T) (hne : s.workset ≠ []) :
    (popStep A b s).rounds = s.rounds ∧ (popStep A b s).limit = s.limit ∧
      (popStep A b s).workset = s.workset.dropLast := by
  unfold popStep
  rw [List.getLast?_eq_some_getLast hne]
  dsimp only
  rcases stepWith_cases (A := A) b { s with workset := s.workset.dropLast } (s.workset.getLast hne) with
    ⟨_, _, h3⟩ | ⟨_, h3⟩
  · rw [h3]; exact ⟨rfl, rfl, rfl⟩
  · rw [h3]
    dsimp only
    rw [if_pos rfl]
    have hext := fold_ext b (s.workset.getLast hne) (A.edges (s.workset.getLast hne))
      (popped A { s with workset := s.workset.dropLast } (s.workset.getLast hne))
    obtain ⟨_, _, _, _, _, hw, _, hr, hl, _⟩ := popped_fields (A := A) { s with workset := s.workset.dropLast } (s.workset.getLast hne)
    exact ⟨hext.rounds.trans hr, hext.limit.trans hl, hext.workset.trans hw⟩

theorem loop_terminates (b : Bool) (s : FP T) (hs : s.rounds ≤ s.limit) :
    ∃ fuel r, loop A b fuel s = some r := by
  refine whileSome_wf (fun s => s.limit - s.rounds) (fun s => s.workset.length)
    (fun s => s.rounds ≤ s.limit) ?_ s hs
  intro s s' hle hst
  by_cases hd : s.isDone = true
  · rw [if_pos hd] at hst; cases hst
  · rw [if_neg hd] at hst; cases hst
    simp only [isDone, Bool.or_eq_true, beq_iff_eq, not_or] at hd
    have hlt : s.rounds < s.limit := by omega
    unfold step
    by_cases hw : s.workset = []
    · rw [if_pos hw]
      by_cases hn : s.next = []
      · rw [if_pos hn]
        dsimp only
        omega
      · rw [if_neg hn]
        obtain ⟨h1, h2, _⟩ := popStep_fields (A := A) b { s with rounds := s.rounds + 1, workset := s.next, next := [] } hn
        rw [h1, h2]
        dsimp only
        omega
    · rw [if_neg hw]
      obtain ⟨h1, h2, h3⟩ := popStep_fields (A := A) b s hw
      rw [h1, h2, h3]
      refine ⟨hle, .inr ⟨rfl, ?_⟩⟩
      have : 0 < s.workset.length := List.length_pos_iff.2 hw
      simp
      omega

theorem run_terminates : ∃ fuel r, run A fuel (init A) = some r := by
  obtain ⟨f1, s, h1⟩ := loop_terminates (A := A) false (init A) (Nat.zero_le _)
  obtain ⟨f2, r, h2⟩ := loop_terminates (A := A) true { s with rounds := 0 } (Nat.zero_le _)
  refine ⟨max f1 f2, r, ?_⟩
  unfold run
  have e1 : loop A false (max f1 f2) (init A) = some s := Reducer.whileSome_mono (Nat.le_max_left _ _) h1
  rw [e1]
  exact Reducer.whileSome_mono (Nat.le_max_right _ _) h2

end Verif.FP
