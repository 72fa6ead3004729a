import Verif.Proofs.FixedPointFinal
import Verif.Model.FixedProduct
import Mathlib.Logic.Relation
import Mathlib.Data.List.Perm.Basic

/-!
# `PAutomatonFixedPoint` when weights are not bounded below
-/

namespace Verif

open WAut

variable {T : Type} [LinearOrder T] [AddCommMonoid T] [IsOrderedAddMonoid T] [OrderTop T] [OrderBot T]

namespace WAut

variable {A : WAut T}

/-- A state to which a path leads. -/
def Reached (A : WAut T) (v : Nat) : Prop := ∃ i p w, i < A.m ∧ A.Path i p v w

omit [IsOrderedAddMonoid T] [OrderBot T] in
/-- Every state that is reached is reached by a path without repeated states. -/
theorem Reached.short (hA : A.OK) {v : Nat} (h : A.Reached v) :
    ∃ i p w, i < A.m ∧ A.Path i p v w ∧ p.length ≤ A.n - 1 := by
  obtain ⟨i, p, w, hi, hp⟩ := h
  have key : ∃ p' w', A.Path i p' v w' ∧ (i :: p'.map Prod.snd).Nodup := by
    induction hp with
    | nil => exact ⟨[], 0, .nil _, by simp⟩
    | @snoc v t l p w x hp e ih =>
      obtain ⟨p', w', hp', hnd⟩ := ih
      by_cases hm : t ∈ i :: p'.map Prod.snd
      · obtain ⟨p1, p2, w1, w2, rfl, h1, h2, rfl⟩ := hp'.split hm
        refine ⟨p1, w1, h1, hnd.sublist ?_⟩
        simp
      · refine ⟨p' ++ [(l, t)], w' + x, .snoc hp' e, ?_⟩
        rw [List.map_append, ← List.cons_append]
        refine List.nodup_append.2 ⟨hnd, by simp, ?_⟩
        intro a ha b hb
        have : b = t := by simpa using hb
        grind
  obtain ⟨p', w', hp', hnd⟩ := key
  refine ⟨i, p', w', hi, hp', ?_⟩
  have hlt := hp'.states_lt hA (Nat.lt_of_lt_of_le hi hA.init)
  have hsub : (i :: p'.map Prod.snd) ⊆ List.range A.n := fun x hx => List.mem_range.2 (hlt x hx)
  have := (hnd.subperm hsub).length_le
  simp at this
  omega

end WAut

namespace FP

variable {A : WAut T}

/-! ## Predecessors -/

/-- Following the first predecessors from `v` leads to `i`. -/
inductive First (A : WAut T) (s : FP T) : Nat → Nat → List (Nat × Nat) → Prop where
  | start {i : Nat} : (s.states i).firstPred = .noState → i < A.m → First A s i i []
  | step {i v u : Nat} {p : List (Nat × Nat)} {x : T} :
      (s.states v).firstPred = .state u → A.Edge u (s.states v).firstLabel v x → First A s i u p →
      First A s i v (p ++ [((s.states v).firstLabel, v)])

omit [LinearOrder T] [IsOrderedAddMonoid T] [OrderTop T] [OrderBot T] [AddCommMonoid T] in
theorem First.congr {s r : FP T} (h : ∀ v, (s.states v).firstPred ≠ .uninitialized →
      (r.states v).firstPred = (s.states v).firstPred ∧ (r.states v).firstLabel = (s.states v).firstLabel)
    {i v : Nat} {p : List (Nat × Nat)} (hf : First A s i v p) : First A r i v p := by
  induction hf with
  | start h1 h2 => exact .start (by rw [(h _ (by rw [h1]; simp)).1]; exact h1) h2
  | @step v u p x h1 e _ ih =>
    obtain ⟨h3, h4⟩ := h v (by rw [h1]; simp)
    rw [← h4]
    exact .step (by rw [h3]; exact h1) (by rw [h4]; exact e) ih

/-- The predecessors recorded for the states that have been reached. -/
structure Web (A : WAut T) (s : FP T) : Prop where
  lt : ∀ v, s.d v ≠ ⊤ → v < A.n
  seen : ∀ v, s.d v ≠ ⊤ ↔ (s.states v).firstPred ≠ .uninitialized
  fst : ∀ v, (s.states v).firstPred ≠ .uninitialized → ∃ i p, First A s i v p
  prd : ∀ v, (s.states v).firstPred ≠ .uninitialized → (s.states v).pred = .noState ∧ v < A.m ∨
    ∃ u x, (s.states v).pred = .state u ∧ (s.states u).firstPred ≠ .uninitialized ∧ A.Edge u (s.states v).label v x
  ini : ∀ i, i < A.m → s.d i ≠ ⊤

/-- The queue has no duplicates and the flags say what is in it. -/
structure Que (s : FP T) : Prop where
  qd : ∀ v, v ∈ s.workset ∨ v ∈ s.next → s.q v = true
  nodup : (s.workset ++ s.next).Nodup

/-- The number of states of the least weight. -/
def bots (A : WAut T) (s : FP T) : Nat := ((List.range A.n).filter fun v => decide (s.d v = ⊥)).length

/-- The state after an improvement. -/
def better (b : Bool) (cur t lab : Nat) (w : T) (s : FP T) : FP T :=
  { s.setState t (improved b cur lab w (s.states t)) with
    next := if s.q t then s.next else s.next ++ [t] }

omit [IsOrderedAddMonoid T] [OrderTop T] in
theorem relax_eq (b : Bool) (cur : Nat) (s : FP T) (t : Nat) (ls : List (Nat × T)) :
    relax b cur s (t, ls) = s ∨
      ∃ lab x, (lab, x) ∈ ls ∧ s.d cur + x < s.d t ∧ relax b cur s (t, ls) = better b cur t lab (s.d cur + x) s := by
  unfold relax
  rcases hm : minElement ls with _ | ⟨lab, x⟩
  · exact .inl rfl
  · obtain ⟨hmem, _⟩ := minElement_spec.2 _ hm
    dsimp only
    by_cases hlt : s.d cur + x < s.d t
    · right
      refine ⟨lab, x, hmem, hlt, ?_⟩
      rw [if_pos hlt]
      unfold better
      by_cases hq : s.q t = true
      · rw [if_pos hq, if_pos hq]; rfl
      · rw [if_neg hq, if_neg hq]; rfl
    · left
      rw [if_neg hlt]

section
omit [AddCommMonoid T] [IsOrderedAddMonoid T]

omit [OrderTop T] in
theorem better_other (b : Bool) (cur t lab : Nat) (w : T) (s : FP T) {v : Nat} (h : v ≠ t) :
    (better b cur t lab w s).states v = s.states v := by
  unfold better setState; dsimp only; rw [if_neg h]

omit [OrderTop T] in
theorem better_self (b : Bool) (cur t lab : Nat) (w : T) (s : FP T) :
    (better b cur t lab w s).states t = improved b cur lab w (s.states t) := by
  unfold better setState; dsimp only; rw [if_pos rfl]

theorem better_ne_top (b : Bool) {cur t lab : Nat} {w : T} {s : FP T} (h : w < s.d t) :
    (better b cur t lab w s).d t ≠ ⊤ := by
  unfold d
  rw [better_self]
  unfold improved
  dsimp only
  have hb : (⊥ : T) ≠ ⊤ := (lt_of_le_of_lt bot_le (lt_of_lt_of_le h le_top)).ne
  cases b
  · exact (lt_of_lt_of_le h le_top).ne
  · exact hb

theorem Web.better (hA : A.OK) (b : Bool) {cur t lab : Nat} {w x : T} {s : FP T} (hs : Web A s) (hcur : s.d cur ≠ ⊤)
    (e : A.Edge cur lab t x) (h : w < s.d t) : Web A (better b cur t lab w s) := by
  have hfp : (s.states cur).firstPred ≠ .uninitialized := (hs.seen cur).1 hcur
  have hkeep : ∀ v, (s.states v).firstPred ≠ .uninitialized →
      ((FP.better b cur t lab w s).states v).firstPred = (s.states v).firstPred ∧
      ((FP.better b cur t lab w s).states v).firstLabel = (s.states v).firstLabel := by
    intro v hv
    by_cases hvt : v = t
    · subst hvt
      rw [better_self]
      unfold improved
      dsimp only
      rw [if_neg hv, if_neg hv]
      exact ⟨rfl, rfl⟩
    · rw [better_other _ _ _ _ _ _ hvt]; exact ⟨rfl, rfl⟩
  have hcur' : ((FP.better b cur t lab w s).states cur).firstPred ≠ .uninitialized := by
    rw [(hkeep cur hfp).1]; exact hfp
  have htv : ((FP.better b cur t lab w s).states t).firstPred ≠ .uninitialized := by
    rw [better_self]
    unfold improved
    dsimp only
    split
    · simp
    · assumption
  refine ⟨?_, ?_, ?_, ?_, ?_⟩
  · intro v hv
    by_cases hvt : v = t
    · subst hvt; exact hA.target _ _ _ _ e
    · unfold d at hv; rw [better_other _ _ _ _ _ _ hvt] at hv; exact hs.lt v hv
  · intro v
    by_cases hvt : v = t
    · subst hvt
      exact ⟨fun _ => htv, fun _ => better_ne_top b h⟩
    · unfold d; rw [better_other _ _ _ _ _ _ hvt]; exact hs.seen v
  · intro v hv
    by_cases hvf : (s.states v).firstPred = .uninitialized
    · have hvt : v = t := by
        by_contra hne
        rw [better_other _ _ _ _ _ _ hne] at hv
        exact hv hvf
      subst hvt
      obtain ⟨i, p, hp⟩ := hs.fst cur hfp
      have h1 : ((FP.better b cur v lab w s).states v).firstPred = .state cur := by
        rw [better_self]; unfold improved; dsimp only; rw [if_pos hvf]
      have h2 : ((FP.better b cur v lab w s).states v).firstLabel = lab := by
        rw [better_self]; unfold improved; dsimp only; rw [if_pos hvf]
      exact ⟨i, _, .step h1 (by rw [h2]; exact e) (hp.congr hkeep)⟩
    · obtain ⟨i, p, hp⟩ := hs.fst v hvf
      exact ⟨i, p, hp.congr hkeep⟩
  · intro v hv
    by_cases hvt : v = t
    · subst hvt
      right
      refine ⟨cur, x, ?_, hcur', ?_⟩
      · rw [better_self]; rfl
      · rw [better_self]; exact e
    · rw [better_other _ _ _ _ _ _ hvt] at hv ⊢
      rcases hs.prd v hv with h1 | ⟨u, y, h1, h2, h3⟩
      · exact .inl h1
      · exact .inr ⟨u, y, h1, by rw [(hkeep u h2).1]; exact h2, h3⟩
  · intro i hi
    by_cases hvt : i = t
    · subst hvt; exact better_ne_top b h
    · unfold d; rw [better_other _ _ _ _ _ _ hvt]; exact hs.ini i hi

omit [OrderTop T] in
theorem Que.better (b : Bool) {cur t lab : Nat} {w : T} {s : FP T} (hs : Que s) : Que (better b cur t lab w s) := by
  have hq : ∀ v, s.q v = true → (FP.better b cur t lab w s).q v = true := by
    intro v hv
    by_cases hvt : v = t
    · subst hvt; unfold q; rw [better_self]; rfl
    · unfold q; rw [better_other _ _ _ _ _ _ hvt]; exact hv
  have ht : (FP.better b cur t lab w s).q t = true := by unfold q; rw [better_self]; rfl
  have hws : (FP.better b cur t lab w s).workset = s.workset := rfl
  have hnx : (FP.better b cur t lab w s).next = if s.q t then s.next else s.next ++ [t] := rfl
  refine ⟨?_, ?_⟩
  · intro v hv
    rw [hws, hnx] at hv
    by_cases hqt : s.q t = true
    · rw [if_pos hqt] at hv; exact hq v (hs.qd v hv)
    · rw [if_neg hqt] at hv
      rcases hv with hv | hv
      · exact hq v (hs.qd v (.inl hv))
      · rcases List.mem_append.1 hv with hv | hv
        · exact hq v (hs.qd v (.inr hv))
        · rw [List.mem_singleton.1 hv]; exact ht
  · rw [hws, hnx]
    by_cases hqt : s.q t = true
    · rw [if_pos hqt]; exact hs.nodup
    · rw [if_neg hqt, ← List.append_assoc]
      refine List.nodup_append.2 ⟨hs.nodup, by simp, ?_⟩
      intro x hx y hy
      rw [List.mem_singleton.1 hy]
      rintro rfl
      exact hqt (hs.qd x (List.mem_append.1 hx))

omit [OrderTop T] in
theorem bots_better {cur t lab : Nat} {w : T} {s : FP T} (ht : t < A.n) (h : w < s.d t) :
    bots A (better true cur t lab w s) = bots A s + 1 := by
  unfold bots
  have hp : ((List.range A.n).filter fun v => decide ((better true cur t lab w s).d v = ⊥)).Perm
      (t :: (List.range A.n).filter fun v => decide (s.d v = ⊥)) := by
    have hnt : s.d t ≠ ⊥ := (lt_of_le_of_lt bot_le h).ne'
    refine (List.perm_ext_iff_of_nodup (List.nodup_range.filter _) ?_).2 ?_
    · refine List.nodup_cons.2 ⟨?_, List.nodup_range.filter _⟩
      intro hm
      have := (List.mem_filter.1 hm).2
      simp only [decide_eq_true_eq] at this
      exact hnt this
    · intro v
      simp only [List.mem_filter, List.mem_range, decide_eq_true_eq, List.mem_cons]
      by_cases hvt : v = t
      · subst hvt
        simp only [true_or, iff_true]
        refine ⟨ht, ?_⟩
        unfold d
        rw [better_self]
        rfl
      · unfold d
        rw [better_other _ _ _ _ _ _ hvt]
        simp [hvt]
  rw [hp.length_eq, List.length_cons]

end

/-- What the loop over the edges keeps. -/
theorem fold_web (hA : A.OK) (b : Bool) {cur : Nat} (es : List (Nat × List (Nat × T))) (s : FP T)
    (hes : ∀ e ∈ es, e ∈ A.edges cur) (hw : Web A s) (hq : Que s) (hcur : s.d cur ≠ ⊤) :
    Web A (es.foldl (relax b cur) s) ∧ Que (es.foldl (relax b cur) s) ∧
      (b = true → bots A s + (es.foldl (relax b cur) s).next.length ≤ bots A (es.foldl (relax b cur) s) + s.next.length) := by
  induction es generalizing s with
  | nil => exact ⟨hw, hq, fun _ => Nat.le_refl _⟩
  | cons e es ih =>
    obtain ⟨t, ls⟩ := e
    rw [List.foldl_cons]
    have hext := relax_ext b cur s (t, ls)
    have hcur' : (relax b cur s (t, ls)).d cur ≠ ⊤ := ne_top_of_le (hext.mono cur) hcur
    rcases relax_eq b cur s t ls with h | ⟨lab, x, hm, hlt, h⟩
    · rw [h]
      exact ih s (fun e he => hes e (List.mem_cons_of_mem _ he)) hw hq hcur
    · have he : A.Edge cur lab t x := ⟨ls, hes _ List.mem_cons_self, hm⟩
      have h1 := hw.better hA b hcur he hlt
      have h2 := hq.better b (cur := cur) (t := t) (lab := lab) (w := s.d cur + x)
      rw [h] at hcur' ⊢
      obtain ⟨h3, h4, h5⟩ := ih _ (fun e he => hes e (List.mem_cons_of_mem _ he)) h1 h2 hcur'
      refine ⟨h3, h4, fun hb => ?_⟩
      have h6 := h5 hb
      subst hb
      rw [bots_better (hA.target _ _ _ _ he) hlt] at h6
      have h7 : (better true cur t lab (s.d cur + x) s).next.length ≤ s.next.length + 1 := by
        unfold better
        dsimp only
        split <;> simp
      omega

/-! ## The queue -/

/-- The invariant of both loops, without any assumption on cycles. -/
structure Gen (A : WAut T) (s : FP T) : Prop extends Web A s, Que s where
  rel : ∀ u l v y, s.q u = false → s.d u ≠ ⊤ → A.Edge u l v y → s.d v ≤ s.d u + y
  minLe : ∀ v, A.accepting v = true → s.d v ≠ ⊤ → s.q v = true ∨ ∃ a, s.minAcc = some a ∧ s.d a ≤ s.d v
  queue : ∀ v, s.q v = true → v ∈ s.workset ∨ v ∈ s.next
  fin : ∀ v, v ∈ s.workset ∨ v ∈ s.next → s.d v ≠ ⊤
  minOk : ∀ a, s.minAcc = some a → A.accepting a = true ∧ s.d a ≠ ⊤

/-- The loop has stopped at an accepting state with the least weight. -/
structure Halt (A : WAut T) (s : FP T) : Prop extends Web A s where
  done : s.done = true
  bot : ∃ a, s.minAcc = some a ∧ A.accepting a = true ∧ s.d a = ⊥ ∧ s.d a ≠ ⊤

/-- What one step does after `cur` has been taken from the workset of `s`. -/
structure After (A : WAut T) (b : Bool) (s : FP T) (cur : Nat) (r : FP T) : Prop extends Gen A r where
  mono : ∀ v, r.d v ≤ s.d v
  edges : ∀ l v y, A.Edge cur l v y → r.d v ≤ s.d cur + y
  workset : r.workset = s.workset
  rounds : r.rounds = s.rounds
  limit : r.limit = s.limit
  notDone : r.done = s.done
  sub : ∀ v ∈ s.next, v ∈ r.next
  cnt : b = true → bots A s + r.next.length ≤ bots A r + s.next.length
  acc : A.accepting cur = true → r.minAcc ≠ none
  keep : s.minAcc ≠ none → r.minAcc ≠ none

omit [AddCommMonoid T] [IsOrderedAddMonoid T] [OrderTop T] in
theorem popped_first (s : FP T) (cur v : Nat) :
    ((popped A s cur).states v).firstPred = (s.states v).firstPred ∧
      ((popped A s cur).states v).firstLabel = (s.states v).firstLabel := by
  have hst : (popped A s cur).states = (s.setState cur { s.states cur with inQueue := false }).states := by
    unfold popped
    dsimp only
    split
    · exact (updateMin_fields (s.setState cur { s.states cur with inQueue := false }) cur).1
    · rfl
  rw [hst]
  unfold setState
  dsimp only
  by_cases h : v = cur
  · subst h; rw [if_pos rfl]; exact ⟨rfl, rfl⟩
  · rw [if_neg h]; exact ⟨rfl, rfl⟩

omit [AddCommMonoid T] [IsOrderedAddMonoid T] in
theorem Web.same {s r : FP T} (hs : Web A s) (h1 : ∀ v, r.d v = s.d v)
    (h2 : ∀ v, (r.states v).firstPred = (s.states v).firstPred ∧ (r.states v).firstLabel = (s.states v).firstLabel)
    (h3 : ∀ v, (r.states v).pred = (s.states v).pred) (h4 : ∀ v, (r.states v).label = (s.states v).label) : Web A r := by
  refine ⟨fun v hv => hs.lt v (by rw [← h1]; exact hv), fun v => by rw [h1, (h2 v).1]; exact hs.seen v, ?_, ?_,
    fun i hi => by rw [h1]; exact hs.ini i hi⟩
  · intro v hv
    rw [(h2 v).1] at hv
    obtain ⟨i, p, hp⟩ := hs.fst v hv
    exact ⟨i, p, hp.congr fun v _ => h2 v⟩
  · intro v hv
    rw [(h2 v).1] at hv
    rw [h3, h4]
    rcases hs.prd v hv with h | ⟨u, x, h5, h6, h7⟩
    · exact .inl h
    · exact .inr ⟨u, x, h5, by rw [(h2 u).1]; exact h6, h7⟩

/-- Processing one state. -/
theorem Gen.process (hA : A.OK) (b : Bool) {s : FP T} {cur : Nat} {ws : List Nat} (hs : Gen A s)
    (hws : s.workset = ws ++ [cur]) :
    After A b { s with workset := ws } cur ((A.edges cur).foldl (relax b cur) (popped A { s with workset := ws } cur)) := by
  have hcw : cur ∈ s.workset := by rw [hws]; simp
  have hcur : s.d cur ≠ ⊤ := hs.fin cur (.inl hcw)
  have hnd := hs.nodup
  rw [hws] at hnd
  have hnc : ∀ v, v ∈ ws ∨ v ∈ s.next → v ≠ cur := by
    rintro v hv rfl
    rw [List.append_assoc, List.nodup_append] at hnd
    rcases hv with hv | hv
    · exact hnd.2.2 v hv v (by simp) rfl
    · have := hnd.2.1
      rw [List.nodup_append] at this
      exact this.2.2 v (by simp) v hv rfl
  have hnd' : (ws ++ s.next).Nodup := hnd.sublist (by
    refine List.Sublist.append ?_ (List.Sublist.refl _)
    exact List.sublist_append_left ws [cur])
  obtain ⟨hd, hp, hl, hq, hqc, hw, hn, hr, hlim, hdn⟩ := popped_fields (A := A) { s with workset := ws } cur
  obtain ⟨hm0, hm1⟩ := popped_min (A := A) { s with workset := ws } cur
  have hd : ∀ v, (popped A { s with workset := ws } cur).d v = s.d v := hd
  have hq : ∀ v, v ≠ cur → (popped A { s with workset := ws } cur).q v = s.q v := hq
  have hn : (popped A { s with workset := ws } cur).next = s.next := hn
  have hmin : ∀ a, (popped A { s with workset := ws } cur).minAcc = some a → A.accepting a = true ∧ s.d a ≠ ⊤ := by
    intro a ha
    by_cases hacc : A.accepting cur = true
    · obtain ⟨a', h1, h2, _, _⟩ := hm1 hacc
      rw [h1] at ha; cases ha
      rcases h2 with rfl | h2
      · exact ⟨hacc, hcur⟩
      · exact hs.minOk _ h2
    · rw [hm0 (by simpa using hacc)] at ha
      exact hs.minOk _ ha
  have hweb : Web A (popped A { s with workset := ws } cur) :=
    hs.toWeb.same hd (popped_first { s with workset := ws } cur) hp hl
  have hque : Que (popped A { s with workset := ws } cur) := by
    refine ⟨?_, ?_⟩
    · intro v hv
      rw [hw, hn] at hv
      have hv : v ∈ ws ∨ v ∈ s.next := hv
      rw [hq v (hnc v hv)]
      refine hs.qd v (hv.imp_left fun h => ?_)
      rw [hws]; exact List.mem_append_left _ h
    · rw [hw, hn]; exact hnd'
  have hext := fold_ext b cur (A.edges cur) (popped A { s with workset := ws } cur)
  have hrel := fold_relaxed b cur (A.edges cur) (popped A { s with workset := ws } cur)
  obtain ⟨hW, hQ, hC⟩ := fold_web hA b (A.edges cur) (popped A { s with workset := ws } cur) (fun _ h => h) hweb hque
    (by rw [hd]; exact hcur)
  have hbots : bots A (popped A { s with workset := ws } cur) = bots A s := by
    unfold bots
    congr 1
    refine List.filter_congr fun v _ => ?_
    rw [hd]
  rw [hbots, hn] at hC
  generalize hrdef : (A.edges cur).foldl (relax b cur) (popped A { s with workset := ws } cur) = r at *
  have hmono : ∀ v, r.d v ≤ s.d v := fun v => (hext.mono v).trans (hd v).le
  have hedges : ∀ l v y, A.Edge cur l v y → r.d v ≤ s.d cur + y := by
    rintro l v y ⟨ls, h1, h2⟩
    have := hrel v ls l y h1 h2
    rw [hd] at this
    exact this
  have hsame : ∀ v, r.q v = false → r.d v = s.d v := by
    intro v hv
    rcases hext.chg v with h | h
    · rw [d, h]; exact hd v
    · rw [h] at hv; cases hv
  have hqf : ∀ v, v ≠ cur → r.q v = false → s.q v = false := by
    intro v hvc hv
    rcases hext.chg v with h | h
    · rw [← hq v hvc]; rw [q, h] at hv; exact hv
    · rw [h] at hv; cases hv
  have hminr : r.minAcc = (popped A { s with workset := ws } cur).minAcc := hext.minAcc
  refine { toGen := { toWeb := hW, toQue := hQ, rel := ?_, minLe := ?_, queue := ?_, fin := ?_, minOk := ?_ }, mono := hmono, edges := hedges, workset := hext.workset.trans hw, rounds := hext.rounds.trans hr, limit := hext.limit.trans hlim, notDone := hext.done.trans hdn, sub := fun v hv => hext.sub v (by rw [hn]; exact hv), cnt := hC, acc := ?_, keep := ?_ }
  · intro u l v y hu hut he
    rw [hsame u hu]
    by_cases huc : u = cur
    · subst huc; exact hedges l v y he
    · refine le_trans (hmono v) (hs.rel u l v y (hqf u huc hu) ?_ he)
      rw [← hsame u hu]; exact hut
  · intro v hv hvt
    by_cases hqv : r.q v = true
    · exact .inl hqv
    · right
      have hqv' : r.q v = false := by simpa using hqv
      rw [hsame v hqv'] at hvt ⊢
      by_cases hacc : A.accepting cur = true
      · obtain ⟨a, h1, h2, h3, h4⟩ := hm1 hacc
        refine ⟨a, hminr.trans h1, le_trans (hmono a) ?_⟩
        by_cases hvc : v = cur
        · subst hvc; exact h3
        · rcases hs.minLe v hv hvt with h | ⟨a', ha', hle⟩
          · rw [hqf v hvc hqv'] at h; cases h
          · exact le_trans (h4 a' ha') hle
      · have hvc : v ≠ cur := by rintro rfl; exact hacc hv
        rcases hs.minLe v hv hvt with h | ⟨a', ha', hle⟩
        · rw [hqf v hvc hqv'] at h; cases h
        · refine ⟨a', ?_, le_trans (hmono a') hle⟩
          rw [hminr, hm0 (by simpa using hacc)]; exact ha'
  · intro v hv
    rcases hext.queue v hv with h | h
    · by_cases hvc : v = cur
      · subst hvc; rw [hqc] at h; cases h
      · rw [hq v hvc] at h
        rcases hs.queue v h with h' | h'
        · left
          rw [hext.workset, hw]
          rw [hws] at h'
          rcases List.mem_append.1 h' with h' | h'
          · exact h'
          · exact absurd (List.mem_singleton.1 h') hvc
        · right; exact hext.sub v (by rw [hn]; exact h')
    · exact .inr h
  · intro v hv
    rcases hv with hv | hv
    · rw [hext.workset, hw] at hv
      refine ne_top_of_le (hmono v) (hs.fin v (.inl ?_))
      rw [hws]; exact List.mem_append_left _ hv
    · rcases hext.fin v hv with h | h
      · rw [hn] at h
        exact ne_top_of_le (hmono v) (hs.fin v (.inr h))
      · exact h
  · intro a ha
    rw [hminr] at ha
    obtain ⟨h1, h2⟩ := hmin a ha
    exact ⟨h1, ne_top_of_le (hmono a) h2⟩
  · intro hacc
    obtain ⟨a, h1, _⟩ := hm1 hacc
    rw [hminr, h1]
    simp
  · intro hne
    rw [hminr]
    by_cases hacc : A.accepting cur = true
    · obtain ⟨a, h1, _⟩ := hm1 hacc
      rw [h1]; simp
    · rw [hm0 (by simpa using hacc)]
      exact hne

/-- One step from a workset that is not empty. -/
theorem popStep_gen (hA : A.OK) (b : Bool) {s : FP T} (hs : Gen A s) (hnd : s.done = false) {ws : List Nat} {cur : Nat}
    (hws : s.workset = ws ++ [cur]) :
    Halt A (popStep A b s) ∨ After A b { s with workset := ws } cur (popStep A b s) := by
  have hcw : cur ∈ s.workset := by rw [hws]; simp
  have hcur : s.d cur ≠ ⊤ := hs.fin cur (.inl hcw)
  unfold popStep
  rw [hws, List.getLast?_concat, List.dropLast_concat]
  dsimp only
  rcases stepWith_cases (A := A) b { s with workset := ws } cur with ⟨h1, h2, h3⟩ | ⟨_, h3⟩
  · left
    rw [h3]
    refine ⟨?_, rfl, cur, rfl, h1, ?_, ?_⟩
    · refine hs.toWeb.same ?_ ?_ ?_ ?_
      all_goals
        intro v
        by_cases hv : v = cur
        · subst hv; simp [d, setState]
        · simp [d, setState, hv]
    · show (if cur = cur then _ else _ : SInfo T).weight = ⊥
      rw [if_pos rfl]; exact h2
    · show (if cur = cur then _ else _ : SInfo T).weight ≠ ⊤
      rw [if_pos rfl]; exact hcur
  · right
    rw [h3]
    dsimp only
    rw [if_pos rfl]
    exact hs.process hA b hws

/-! ## The first loop -/

/-- The facts about the rounds of the first loop: after `k` rounds every state at the end of a path of at most `k`
transitions has been reached. -/
structure Level (A : WAut T) (s : FP T) : Prop where
  lim : s.limit = A.n
  rP : ∀ i p v w, i < A.m → A.Path i p v w → p.length ≤ s.rounds - 1 → s.d v ≠ ⊤
  rQ : 1 ≤ s.rounds → ∀ i p u w l v y, i < A.m → A.Path i p u w → p.length ≤ s.rounds - 1 → A.Edge u l v y →
    s.d v ≠ ⊤ ∨ u ∈ s.workset
  r0 : s.rounds = 0 → s.workset = []
  le : s.rounds ≤ s.limit

/-- The invariant of the first loop. -/
def G1 (A : WAut T) (s : FP T) : Prop :=
  (Gen A s ∧ Level A s ∧ (s.done = true → s.workset = [] ∧ s.next = [])) ∨ Halt A s

theorem Level.after (hA : A.OK) (hadd : ∀ a b : T, a ≠ ⊤ → b ≠ ⊤ → a + b ≠ ⊤) {s r : FP T} {ws : List Nat} {cur : Nat}
    (hs : Gen A s) (lim : s.limit = A.n)
    (rP : ∀ i p v w, i < A.m → A.Path i p v w → p.length ≤ s.rounds - 1 → s.d v ≠ ⊤)
    (rQ : ∀ i p u w l v y, i < A.m → A.Path i p u w → p.length ≤ s.rounds - 1 → A.Edge u l v y →
      s.d v ≠ ⊤ ∨ u ∈ s.workset) (h1 : 1 ≤ s.rounds) (le : s.rounds ≤ s.limit)
    (hws : s.workset = ws ++ [cur]) (ha : After A false { s with workset := ws } cur r) : Level A r := by
  have hcur : s.d cur ≠ ⊤ := hs.fin cur (.inl (by rw [hws]; simp))
  have hr : r.rounds = s.rounds := ha.rounds
  have hw : r.workset = ws := ha.workset
  have hl : r.limit = s.limit := ha.limit
  have hmono : ∀ v, r.d v ≤ s.d v := ha.mono
  refine ⟨hl.trans lim, ?_, ?_, ?_, by omega⟩
  · intro i p v w hi hp hlen
    rw [hr] at hlen
    exact ne_top_of_le (hmono v) (rP i p v w hi hp hlen)
  · intro _ i p u w l v y hi hp hlen e
    rw [hr] at hlen
    rcases rQ i p u w l v y hi hp hlen e with h | h
    · exact .inl (ne_top_of_le (hmono v) h)
    · rw [hws] at h
      rcases List.mem_append.1 h with h | h
      · right; rw [hw]; exact h
      · left
        rw [List.mem_singleton.1 h] at e
        exact ne_top_of_le (ha.edges l v y e) (hadd _ _ hcur (hA.weight _ _ _ _ e))
  · intro h; omega

theorem G1_step (hA : A.OK) (hadd : ∀ a b : T, a ≠ ⊤ → b ≠ ⊤ → a + b ≠ ⊤) {s : FP T} (hs : G1 A s)
    (hd : s.isDone = false) : G1 A (s.step A false) := by
  simp only [isDone, Bool.or_eq_false_iff, beq_eq_false_iff_ne] at hd
  obtain ⟨hnd, hne⟩ := hd
  rcases hs with ⟨hg, hl, hdn⟩ | hh
  · unfold step
    by_cases hw : s.workset = []
    · rw [if_pos hw]
      have hqn : ∀ v, s.q v = true → v ∈ s.next := by
        intro v hv
        rcases hg.queue v hv with h | h
        · rw [hw] at h; cases h
        · exact h
      have hlt : s.rounds < s.limit := Nat.lt_of_le_of_ne hl.le hne
      have hP : ∀ i p v w, i < A.m → A.Path i p v w → p.length ≤ s.rounds → s.d v ≠ ⊤ := by
        intro i p v w hi hp hlen
        by_cases h1 : p.length ≤ s.rounds - 1
        · exact hl.rP i p v w hi hp h1
        · cases hp with
          | nil => simp at h1
          | @snoc u _ l p w y hp e =>
            simp at h1 hlen
            rcases hl.rQ (by omega) i p u w l v y hi hp (by omega) e with h | h
            · exact h
            · rw [hw] at h; cases h
      have hQ : ∀ i p u w l v y, i < A.m → A.Path i p u w → p.length ≤ s.rounds → A.Edge u l v y →
          s.d v ≠ ⊤ ∨ u ∈ s.next := by
        intro i p u w l v y hi hp hlen e
        have hu := hP i p u w hi hp hlen
        by_cases hq : s.q u = true
        · exact .inr (hqn u hq)
        · left
          exact ne_top_of_le (hg.rel u l v y (by simpa using hq) hu e) (hadd _ _ hu (hA.weight _ _ _ _ e))
      by_cases hn : s.next = []
      · rw [if_pos hn]
        left
        refine ⟨?_, ?_, fun _ => ⟨hw, hn⟩⟩
        · exact { toWeb := hg.toWeb.same (fun _ => rfl) (fun _ => ⟨rfl, rfl⟩) (fun _ => rfl) (fun _ => rfl), toQue := ⟨hg.qd, hg.nodup⟩, rel := hg.rel, minLe := hg.minLe, queue := hg.queue, fin := hg.fin, minOk := hg.minOk }
        · refine ⟨hl.lim, ?_, ?_, ?_, hlt⟩
          · intro i p v w hi hp hlen
            exact hP i p v w hi hp (by simpa using hlen)
          · intro _ i p u w l v y hi hp hlen e
            rcases hQ i p u w l v y hi hp (by simpa using hlen) e with h | h
            · exact .inl h
            · rw [hn] at h; cases h
          · intro h; simp at h
      · rw [if_neg hn]
        have hg' : Gen A { s with rounds := s.rounds + 1, workset := s.next, next := [] } := by
          refine { toWeb := hg.toWeb.same (fun _ => rfl) (fun _ => ⟨rfl, rfl⟩) (fun _ => rfl) (fun _ => rfl), toQue := ⟨?_, ?_⟩, rel := hg.rel, minLe := hg.minLe, queue := fun v hv => .inl (hqn v hv), fin := ?_, minOk := hg.minOk }
          · rintro v (h | h)
            · exact hg.qd v (.inr h)
            · cases h
          · have := hg.nodup
            rw [hw] at this
            simpa using this
          · rintro v (h | h)
            · exact hg.fin v (.inr h)
            · cases h
        obtain ⟨ws, cur, hws⟩ : ∃ ws cur, s.next = ws ++ [cur] :=
          ⟨_, _, (List.dropLast_append_getLast hn).symm⟩
        rcases popStep_gen hA false hg' hnd (ws := ws) (cur := cur) hws with h | h
        · exact .inr h
        · refine .inl ⟨h.toGen, Level.after hA hadd hg' hl.lim ?_ ?_ (Nat.le_add_left _ _) hlt hws h, ?_⟩
          · intro i p v w hi hp hlen
            exact hP i p v w hi hp (by simpa using hlen)
          · intro i p u w l v y hi hp hlen e
            exact hQ i p u w l v y hi hp (by simpa using hlen) e
          · intro hd
            have : s.done = true := h.notDone.symm.trans hd
            rw [hnd] at this; cases this
    · rw [if_neg hw]
      obtain ⟨ws, cur, hws⟩ : ∃ ws cur, s.workset = ws ++ [cur] :=
        ⟨_, _, (List.dropLast_append_getLast hw).symm⟩
      have h1 : 1 ≤ s.rounds := by
        rcases Nat.eq_zero_or_pos s.rounds with h | h
        · exact absurd (hl.r0 h) hw
        · exact h
      rcases popStep_gen hA false hg hnd hws with h | h
      · exact .inr h
      · refine .inl ⟨h.toGen, Level.after hA hadd hg hl.lim hl.rP (hl.rQ h1) h1 hl.le hws h, ?_⟩
        intro hd
        have : s.done = true := h.notDone.symm.trans hd
        rw [hnd] at this; cases this
  · rw [hh.done] at hnd; cases hnd

theorem G1_init (hA : A.OK) (h0 : (0 : T) ≠ ⊤) : G1 A (init A) := by
  have hst : ∀ v, v < A.m → (init A).states v =
      { weight := 0, inQueue := true, firstPred := .noState, pred := .noState } := by
    intro v hv; unfold init; dsimp only; rw [if_pos hv]
  have hst' : ∀ v, ¬ v < A.m → (init A).states v = { weight := ⊤ } := by
    intro v hv; unfold init; dsimp only; rw [if_neg hv]
  have hd : ∀ v, (init A).d v ≠ ⊤ ↔ v < A.m := by
    intro v
    by_cases h : v < A.m
    · unfold d; rw [hst v h]; exact ⟨fun _ => h, fun _ => h0⟩
    · unfold d; rw [hst' v h]; exact ⟨fun h' => absurd rfl h', fun h' => absurd h' h⟩
  have hq : ∀ v, (init A).q v = true ↔ v < A.m := by
    intro v
    by_cases h : v < A.m
    · unfold q; rw [hst v h]; exact ⟨fun _ => h, fun _ => rfl⟩
    · unfold q; rw [hst' v h]; exact ⟨fun h' => (by cases h'), fun h' => absurd h' h⟩
  have hf : ∀ v, ((init A).states v).firstPred ≠ .uninitialized ↔ v < A.m := by
    intro v
    by_cases h : v < A.m
    · rw [hst v h]; exact ⟨fun _ => h, fun _ => by simp⟩
    · rw [hst' v h]; exact ⟨fun h' => absurd rfl h', fun h' => absurd h' h⟩
  have hw : (init A).workset = [] := rfl
  have hn : (init A).next = List.range A.m := rfl
  left
  refine ⟨?_, ?_, fun h => (by cases h)⟩
  · refine { toWeb := ⟨?_, ?_, ?_, ?_, ?_⟩, toQue := ⟨?_, ?_⟩, rel := ?_, minLe := ?_, queue := ?_, fin := ?_, minOk := ?_ }
    · intro v hv; exact Nat.lt_of_lt_of_le ((hd v).1 hv) hA.init
    · intro v; rw [hd, hf]
    · intro v hv
      have h := (hf v).1 hv
      exact ⟨v, [], .start (by rw [hst v h]) h⟩
    · intro v hv
      have h := (hf v).1 hv
      exact .inl ⟨by rw [hst v h], h⟩
    · intro i hi; exact (hd i).2 hi
    · intro v hv
      rw [hw, hn] at hv
      rcases hv with hv | hv
      · cases hv
      · exact (hq v).2 (List.mem_range.1 hv)
    · rw [hw, hn]; exact List.nodup_range
    · intro u l v y hu hut
      have := (hq u).2 ((hd u).1 hut)
      rw [hu] at this; cases this
    · intro v _ hvt; exact .inl ((hq v).2 ((hd v).1 hvt))
    · intro v hv
      right; rw [hn]; exact List.mem_range.2 ((hq v).1 hv)
    · intro v hv
      rw [hw, hn] at hv
      rcases hv with hv | hv
      · cases hv
      · exact (hd v).2 (List.mem_range.1 hv)
    · intro a ha; cases ha
  · refine ⟨rfl, ?_, ?_, fun _ => rfl, Nat.zero_le _⟩
    · intro i p v w hi hp hlen
      have hlen : p.length ≤ 0 := hlen
      cases hp with
      | nil => exact (hd _).2 hi
      | snoc _ _ => simp at hlen
    · intro h
      have : 1 ≤ 0 := h
      omega

/-! ## The second loop -/

/-- The facts about the rounds of the second loop. Every change gives a state the least weight, so each round needs one
more state of the least weight. -/
structure Level2 (A : WAut T) (s : FP T) : Prop where
  lim : s.limit = A.n
  acc : ∀ v, A.Reached v → A.accepting v = true → s.minAcc ≠ none ∨ s.rounds = 0 ∧ (v ∈ s.workset ∨ v ∈ s.next) ∨
    s.rounds = 1 ∧ v ∈ s.workset
  cnt1 : s.rounds = 1 → s.next.length ≤ bots A s ∧ s.workset.length + 1 ≤ A.n
  cnt : 2 ≤ s.rounds → s.workset.length + 1 + s.next.length + s.rounds ≤ bots A s + 2

/-- The invariant of the second loop. -/
def G2 (A : WAut T) (s : FP T) : Prop :=
  (Gen A s ∧ (s.done = false → 0 < A.n → Level2 A s) ∧ (s.done = true → s.workset = [] ∧ s.next = [])) ∨ Halt A s

omit [IsOrderedAddMonoid T] in
theorem After.acc' {b : Bool} {s r : FP T} {cur : Nat} (h : After A b s cur r) {v : Nat} (hv : A.accepting v = true)
    (hm : s.minAcc ≠ none ∨ v = cur) : r.minAcc ≠ none := by
  rcases hm with h' | rfl
  · exact h.keep h'
  · exact h.acc hv

theorem G2_step (hA : A.OK) {s : FP T} (hs : G2 A s) (hd : s.isDone = false) : G2 A (s.step A true) := by
  simp only [isDone, Bool.or_eq_false_iff, beq_eq_false_iff_ne] at hd
  obtain ⟨hnd, hne⟩ := hd
  rcases hs with ⟨hg, hl, hdn⟩ | hh
  · unfold step
    by_cases hw : s.workset = []
    · rw [if_pos hw]
      have hqn : ∀ v, s.q v = true → v ∈ s.next := by
        intro v hv
        rcases hg.queue v hv with h | h
        · rw [hw] at h; cases h
        · exact h
      by_cases hn : s.next = []
      · rw [if_pos hn]
        left
        refine ⟨?_, fun h => (by cases h), fun _ => ⟨hw, hn⟩⟩
        exact { toWeb := hg.toWeb.same (fun _ => rfl) (fun _ => ⟨rfl, rfl⟩) (fun _ => rfl) (fun _ => rfl), toQue := ⟨hg.qd, hg.nodup⟩, rel := hg.rel, minLe := hg.minLe, queue := hg.queue, fin := hg.fin, minOk := hg.minOk }
      · rw [if_neg hn]
        have hg' : Gen A { s with rounds := s.rounds + 1, workset := s.next, next := [] } := by
          refine { toWeb := hg.toWeb.same (fun _ => rfl) (fun _ => ⟨rfl, rfl⟩) (fun _ => rfl) (fun _ => rfl), toQue := ⟨?_, ?_⟩, rel := hg.rel, minLe := hg.minLe, queue := fun v hv => .inl (hqn v hv), fin := ?_, minOk := hg.minOk }
          · rintro v (h | h)
            · exact hg.qd v (.inr h)
            · cases h
          · have := hg.nodup
            rw [hw] at this
            simpa using this
          · rintro v (h | h)
            · exact hg.fin v (.inr h)
            · cases h
        obtain ⟨ws, cur, hws⟩ : ∃ ws cur, s.next = ws ++ [cur] :=
          ⟨_, _, (List.dropLast_append_getLast hn).symm⟩
        have hlen : s.next.length = ws.length + 1 := by rw [hws]; simp
        rcases popStep_gen hA true hg' hnd (ws := ws) (cur := cur) hws with h | h
        · exact .inr h
        · refine .inl ⟨h.toGen, fun _ hpos => ?_, ?_⟩
          · have hl := hl hnd hpos
            have hr : (popStep A true { s with rounds := s.rounds + 1, workset := s.next, next := [] }).rounds = s.rounds + 1 :=
              h.rounds
            have hw' := h.workset
            have hc := h.cnt rfl
            have hb : bots A ({ s with rounds := s.rounds + 1, workset := ws, next := [] } : FP T) = bots A s := rfl
            dsimp only at hc hw'
            rw [hb, List.length_nil, Nat.add_zero] at hc
            refine ⟨h.limit.trans hl.lim, ?_, ?_, ?_⟩
            · intro v hv hva
              rcases hl.acc v hv hva with h1 | ⟨h1, h2⟩ | ⟨h1, h2⟩
              · exact .inl (h.keep h1)
              · rw [hw] at h2
                rcases h2 with h2 | h2
                · cases h2
                · rw [hws] at h2
                  rcases List.mem_append.1 h2 with h2 | h2
                  · exact .inr (.inr ⟨by rw [hr, h1], by rw [hw']; exact h2⟩)
                  · exact .inl (h.acc' hva (.inr (List.mem_singleton.1 h2)))
              · rw [hw] at h2; cases h2
            · intro h1
              refine ⟨by omega, ?_⟩
              rw [hw', ← hlen]
              have hnd' : s.next.Nodup := by
                have := hg.nodup
                rw [hw] at this
                simpa using this
              have hsub : s.next ⊆ List.range A.n := fun v hv => List.mem_range.2 (hg.lt v (hg.fin v (.inr hv)))
              have := (hnd'.subperm hsub).length_le
              rwa [List.length_range] at this
            · intro h2
              rw [hw', hr]
              rw [hr] at h2
              rcases Nat.lt_or_ge s.rounds 2 with h3 | h3
              · have h4 : s.rounds = 1 := by omega
                have := (hl.cnt1 h4).1
                omega
              · have := hl.cnt h3
                rw [hw, List.length_nil] at this
                omega
          · intro hd
            have : s.done = true := h.notDone.symm.trans hd
            rw [hnd] at this; cases this
    · rw [if_neg hw]
      obtain ⟨ws, cur, hws⟩ : ∃ ws cur, s.workset = ws ++ [cur] :=
        ⟨_, _, (List.dropLast_append_getLast hw).symm⟩
      have hlen : s.workset.length = ws.length + 1 := by rw [hws]; simp
      rcases popStep_gen hA true hg hnd hws with h | h
      · exact .inr h
      · refine .inl ⟨h.toGen, fun _ hpos => ?_, ?_⟩
        · have hl := hl hnd hpos
          have hr : (popStep A true s).rounds = s.rounds := h.rounds
          have hw' : (popStep A true s).workset = ws := h.workset
          have hc := h.cnt rfl
          have hb : bots A ({ s with workset := ws } : FP T) = bots A s := rfl
          dsimp only at hc
          rw [hb] at hc
          refine ⟨h.limit.trans hl.lim, ?_, ?_, ?_⟩
          · intro v hv hva
            rw [hr, hw']
            rcases hl.acc v hv hva with h1 | ⟨h1, h2⟩ | ⟨h1, h2⟩
            · exact .inl (h.keep h1)
            · rcases h2 with h2 | h2
              · rw [hws] at h2
                rcases List.mem_append.1 h2 with h2 | h2
                · exact .inr (.inl ⟨h1, .inl h2⟩)
                · exact .inl (h.acc' hva (.inr (List.mem_singleton.1 h2)))
              · exact .inr (.inl ⟨h1, .inr (h.sub v h2)⟩)
            · rw [hws] at h2
              rcases List.mem_append.1 h2 with h2 | h2
              · exact .inr (.inr ⟨h1, h2⟩)
              · exact .inl (h.acc' hva (.inr (List.mem_singleton.1 h2)))
          · intro h1
            rw [hr] at h1
            have := hl.cnt1 h1
            rw [hw']
            omega
          · intro h2
            rw [hr] at h2
            have := hl.cnt h2
            rw [hw', hr]
            omega
        · intro hd
          have : s.done = true := h.notDone.symm.trans hd
          rw [hnd] at this; cases this
  · rw [hh.done] at hnd; cases hnd

/-- How the two loops can end: at an accepting state of the least weight, or with nothing left to do, or with all
states of the least weight. -/
inductive Ends (A : WAut T) (s : FP T) : Prop where
  | halt : Halt A s → Ends A s
  | closed : Gen A s → s.workset = [] → s.next = [] → Ends A s
  | bottom : Gen A s → (∀ v, v < A.n → s.d v = ⊥) → (∀ v, A.Reached v → A.accepting v = true → s.minAcc ≠ none) → Ends A s

omit [AddCommMonoid T] [IsOrderedAddMonoid T] [OrderTop T] in
theorem bots_le (s : FP T) : bots A s ≤ A.n := by
  unfold bots
  exact Nat.le_trans (List.length_filter_le _ _) (by rw [List.length_range])

omit [AddCommMonoid T] [IsOrderedAddMonoid T] [OrderTop T] in
theorem bots_all {s : FP T} (h : A.n ≤ bots A s) : ∀ v, v < A.n → s.d v = ⊥ := by
  have h1 : (List.range A.n).filter (fun v => decide (s.d v = ⊥)) = List.range A.n := by
    refine List.Sublist.eq_of_length_le List.filter_sublist ?_
    rw [List.length_range]; exact h
  intro v hv
  have : v ∈ (List.range A.n).filter (fun v => decide (s.d v = ⊥)) := by rw [h1]; exact List.mem_range.2 hv
  simpa using (List.mem_filter.1 this).2

theorem run_ends (hA : A.OK) (h0 : (0 : T) ≠ ⊤) (hadd : ∀ a b : T, a ≠ ⊤ → b ≠ ⊤ → a + b ≠ ⊤) {fuel : Nat} {r : FP T}
    (hr : run A fuel (init A) = some r) : Ends A r := by
  unfold run at hr
  rcases h1 : loop A false fuel (init A) with _ | s
  · rw [h1] at hr; cases hr
  · rw [h1] at hr
    have hr : loop A true fuel { s with rounds := 0 } = some r := hr
    obtain ⟨hs, hend⟩ := Verif.whileSome_inv (I := G1 A) (fun s s' hi hst => by
      by_cases hd : s.isDone = true
      · rw [if_pos hd] at hst; cases hst
      · rw [if_neg hd] at hst; cases hst
        exact G1_step hA hadd hi (by simpa using hd)) (G1_init hA h0) h1
    have hsd : s.isDone = true := by
      by_contra hd
      rw [if_neg hd] at hend; cases hend
    have h2 : G2 A { s with rounds := 0 } := by
      rcases hs with ⟨hg, hl, hdn⟩ | hh
      · left
        refine ⟨{ toWeb := hg.toWeb.same (fun _ => rfl) (fun _ => ⟨rfl, rfl⟩) (fun _ => rfl) (fun _ => rfl), toQue := ⟨hg.qd, hg.nodup⟩, rel := hg.rel, minLe := hg.minLe, queue := hg.queue, fin := hg.fin, minOk := hg.minOk }, ?_, hdn⟩
        intro hnd
        have hnd : s.done = false := hnd
        have hlim : s.rounds = s.limit := by
          unfold isDone at hsd
          rw [hnd] at hsd
          simpa using hsd
        intro _
        refine ⟨hl.lim, ?_, fun h => (by cases h), fun h => ?_⟩
        · intro v hv hva
          obtain ⟨i, p, w, hi, hp, hlen⟩ := hv.short hA
          have hvt := hl.rP i p v w hi hp (by rw [hlim, hl.lim]; exact hlen)
          rcases hg.minLe v hva hvt with h | ⟨a, ha, _⟩
          · exact .inr (.inl ⟨rfl, hg.queue v h⟩)
          · left
            show s.minAcc ≠ none
            rw [ha]; simp
        · have : 2 ≤ 0 := h
          omega
      · right
        exact ⟨hh.toWeb.same (fun _ => rfl) (fun _ => ⟨rfl, rfl⟩) (fun _ => rfl) (fun _ => rfl), hh.done, hh.bot⟩
    obtain ⟨hs2, hend2⟩ := Verif.whileSome_inv (I := G2 A) (fun s s' hi hst => by
      by_cases hd : s.isDone = true
      · rw [if_pos hd] at hst; cases hst
      · rw [if_neg hd] at hst; cases hst
        exact G2_step hA hi (by simpa using hd)) h2 hr
    have hrd : r.isDone = true := by
      by_contra hd
      rw [if_neg hd] at hend2; cases hend2
    rcases hs2 with ⟨hg, hl, hdn⟩ | hh
    · by_cases hd : r.done = true
      · exact .closed hg (hdn hd).1 (hdn hd).2
      · have hd : r.done = false := by simpa using hd
        have hnone : A.n = 0 → Ends A r := by
          intro h0
          refine .closed hg ?_ ?_
          · refine List.eq_nil_iff_forall_not_mem.2 fun v hv => ?_
            have := hg.lt v (hg.fin v (.inl hv))
            omega
          · refine List.eq_nil_iff_forall_not_mem.2 fun v hv => ?_
            have := hg.lt v (hg.fin v (.inr hv))
            omega
        rcases Nat.eq_zero_or_pos A.n with hn0 | hpos
        · exact hnone hn0
        have hl := hl hd hpos
        have hlim : r.rounds = A.n := by
          unfold isDone at hrd
          rw [hd] at hrd
          have : r.rounds = r.limit := by simpa using hrd
          rw [this, hl.lim]
        have hb := bots_le (A := A) r
        rcases Nat.lt_or_ge r.rounds 2 with h2 | h2
        · have h3 : r.rounds = 1 := by omega
          obtain ⟨h4, h5⟩ := hl.cnt1 h3
          have hw : r.workset = [] := List.eq_nil_of_length_eq_zero (by omega)
          by_cases hk : bots A r = 0
          · exact .closed hg hw (List.eq_nil_of_length_eq_zero (by omega))
          · refine .bottom hg (bots_all (by omega)) ?_
            intro v hv hva
            rcases hl.acc v hv hva with h | ⟨h, _⟩ | ⟨_, h⟩
            · exact h
            · omega
            · rw [hw] at h; cases h
        · have h3 := hl.cnt h2
          by_cases hk : A.n ≤ bots A r
          · refine .bottom hg (bots_all hk) ?_
            intro v hv hva
            rcases hl.acc v hv hva with h | ⟨h, _⟩ | ⟨h, _⟩
            · exact h
            · omega
            · omega
          · exact .closed hg (List.eq_nil_of_length_eq_zero (by omega)) (List.eq_nil_of_length_eq_zero (by omega))
    · exact .halt hh

/-! ## The answers -/

/-- What is used of the weights: adding to the least weight gives the least weight again, and adding a negative weight
makes any other weight smaller. -/
structure _root_.Verif.Bottomed (T : Type) [LinearOrder T] [AddCommMonoid T] [OrderTop T] [OrderBot T] : Prop where
  bot : ∀ x : T, x ≠ ⊤ → ⊥ + x = ⊥
  strict : ∀ a x : T, a ≠ ⊥ → a ≠ ⊤ → x < 0 → a + x < a

theorem Gen.path (hA : A.OK) (h0 : (0 : T) ≠ ⊤) (hadd : ∀ a b : T, a ≠ ⊤ → b ≠ ⊤ → a + b ≠ ⊤) {s : FP T} (hs : Gen A s)
    (hw : s.workset = []) (hn : s.next = []) {u v : Nat} {p : List (Nat × Nat)} {w : T} (hp : A.Path u p v w)
    (hu : s.d u ≠ ⊤) : s.d v ≤ s.d u + w ∧ s.d v ≠ ⊤ := by
  have hq : ∀ v, s.q v = false := by
    intro v
    by_contra h
    rcases hs.queue v (by simpa using h) with h | h
    · rw [hw] at h; cases h
    · rw [hn] at h; cases h
  induction hp with
  | nil => exact ⟨(add_zero _).ge, hu⟩
  | @snoc v t l p w x hp e ih =>
    obtain ⟨h1, h2⟩ := ih
    have h3 := hs.rel v l t x (hq v) h2 e
    refine ⟨le_trans h3 ?_, ne_top_of_le h3 (hadd _ _ h2 (hA.weight _ _ _ _ e))⟩
    rw [← add_assoc]
    exact add_le_add h1 le_rfl

/-- With a negative cycle on an accepting path the reported weight is the least one. -/
theorem run_unbounded (hA : A.OK) (h0 : (0 : T) ≠ ⊤) (hadd : ∀ a b : T, a ≠ ⊤ → b ≠ ⊤ → a + b ≠ ⊤) (hB : Bottomed T)
    {fuel : Nat} {r : FP T} (hr : run A fuel (init A) = some r) (hneg : ¬ A.NoNegativeCycle) :
    ∃ a, r.minAcc = some a ∧ r.d a = ⊥ := by
  unfold WAut.NoNegativeCycle at hneg
  simp only [not_forall] at hneg
  obtain ⟨i, v, a, p, c, q, w, x, y, hi, hp, hc, hq, ha, hx⟩ := hneg
  have hx : x < 0 := not_le.1 hx
  have hre : A.Reached a := ⟨i, _, _, hi, hp.append hq⟩
  rcases run_ends hA h0 hadd hr with hh | ⟨hg, hw, hn⟩ | ⟨hg, hall, hmin⟩
  · obtain ⟨a, h1, _, h2, _⟩ := hh.bot
    exact ⟨a, h1, h2⟩
  · obtain ⟨_, hv⟩ := hg.path hA h0 hadd hw hn hp (hg.ini i hi)
    obtain ⟨hcy, _⟩ := hg.path hA h0 hadd hw hn hc hv
    have hvb : r.d v = ⊥ := by
      by_contra hne
      exact absurd hcy (not_le.2 (hB.strict _ _ hne hv hx))
    obtain ⟨hqa, hat⟩ := hg.path hA h0 hadd hw hn hq hv
    rw [hvb, hB.bot y (hq.ne_top hA h0 hadd)] at hqa
    rcases hg.minLe a ha hat with h | ⟨b, hb, hle⟩
    · rcases hg.queue a h with h | h
      · rw [hw] at h; cases h
      · rw [hn] at h; cases h
    · exact ⟨b, hb, le_bot_iff.1 (le_trans hle hqa)⟩
  · rcases hm : r.minAcc with _ | b
    · exact absurd hm (hmin a hre ha)
    · exact ⟨b, rfl, hall b (hg.lt b (hg.minOk b hm).2)⟩

/-- A minimal accepting state is recorded exactly if an accepting state is reached. -/
theorem run_accepting (hA : A.OK) (h0 : (0 : T) ≠ ⊤) (hadd : ∀ a b : T, a ≠ ⊤ → b ≠ ⊤ → a + b ≠ ⊤)
    {fuel : Nat} {r : FP T} (hr : run A fuel (init A) = some r) :
    r.minAcc = none → ¬ ∃ i p a w, A.Accepting i p a w := by
  rintro hm ⟨i, p, a, w, hi, hp, ha⟩
  rcases run_ends hA h0 hadd hr with hh | ⟨hg, hw, hn⟩ | ⟨hg, hall, hmin⟩
  · obtain ⟨a, h1, _⟩ := hh.bot
    rw [h1] at hm; cases hm
  · obtain ⟨_, hv⟩ := hg.path hA h0 hadd hw hn hp (hg.ini i hi)
    rcases hg.minLe a ha hv with h | ⟨b, hb, hle⟩
    · rcases hg.queue a h with h | h
      · rw [hw] at h; cases h
      · rw [hn] at h; cases h
    · rw [hm] at hb; cases hb
  · exact hmin a ⟨i, p, w, hi, hp⟩ ha hm

/-- The recorded predecessors at the end. -/
theorem run_web (hA : A.OK) (h0 : (0 : T) ≠ ⊤) (hadd : ∀ a b : T, a ≠ ⊤ → b ≠ ⊤ → a + b ≠ ⊤)
    {fuel : Nat} {r : FP T} (hr : run A fuel (init A) = some r) :
    Web A r ∧ ∀ a, r.minAcc = some a → A.accepting a = true ∧ r.d a ≠ ⊤ := by
  rcases run_ends hA h0 hadd hr with hh | ⟨hg, hw, hn⟩ | ⟨hg, hall, hmin⟩
  · refine ⟨hh.toWeb, fun a ha => ?_⟩
    obtain ⟨b, h1, h2, _, h3⟩ := hh.bot
    rw [h1] at ha; cases ha
    exact ⟨h2, h3⟩
  · exact ⟨hg.toWeb, hg.minOk⟩
  · exact ⟨hg.toWeb, hg.minOk⟩

/-! ## `get_path_with_loop` -/

section
omit [LinearOrder T] [AddCommMonoid T] [IsOrderedAddMonoid T] [OrderTop T] [OrderBot T]
variable {S : Type}

theorem backNext_map (f : Nat → S) (b : Bool) (s : FP T) (v : Nat) (path : APath Nat) :
    backNext f b s v (path.map f) = (backNext id b s v path).map fun o => o.map fun x => (x.1, x.2.map f) := by
  unfold backNext
  split <;> rfl

theorem findLoop_map (f : Nat → S) (s : FP T) (k : Nat) (seen : List Nat) (v : Nat) (path : APath Nat) :
    findLoop f s k seen v (path.map f) = (findLoop id s k seen v path).map fun x => (x.1, x.2.map f) := by
  induction k generalizing seen v path with
  | zero => rfl
  | succ k ih =>
    unfold findLoop
    rw [backNext_map]
    rcases backNext id false s v path with _ | _ | ⟨u, p⟩
    · rfl
    · rfl
    · simp only [Option.map_some]
      split
      · rfl
      · exact ih _ _ _

theorem aroundLoop_map (f : Nat → S) (s : FP T) (e k v : Nat) (path : APath Nat) :
    aroundLoop f s e k v (path.map f) = (aroundLoop id s e k v path).map fun x => x.map f := by
  induction k generalizing v path with
  | zero => rfl
  | succ k ih =>
    unfold aroundLoop
    rw [backNext_map]
    rcases backNext id false s v path with _ | _ | ⟨u, p⟩
    · rfl
    · rfl
    · simp only [Option.map_some]
      split
      · rfl
      · exact ih _ _

theorem leaveLoop_map (f : Nat → S) (s : FP T) (k v : Nat) (path : APath Nat) :
    leaveLoop f s k v (path.map f) = (leaveLoop id s k v path).map fun x => x.map f := by
  induction k generalizing v path with
  | zero => rfl
  | succ k ih =>
    unfold leaveLoop
    rw [backNext_map]
    rcases backNext id true s v path with _ | _ | ⟨u, p⟩
    · rfl
    · rfl
    · simp only [Option.map_some]
      exact ih _ _

/-- The state map is applied to every state of the path. -/
theorem getPathWithLoop_map (f : Nat → S) (s : FP T) (fuel : Nat) :
    getPathWithLoop f s fuel = (getPathWithLoop id s fuel).map fun x => x.map f := by
  unfold getPathWithLoop
  rcases s.minAcc with _ | a
  · rfl
  · simp only [Option.bind_some]
    have := findLoop_map f s fuel [a] a ⟨a, []⟩
    rw [show (⟨a, []⟩ : APath Nat).map f = (⟨f a, []⟩ : APath S) from rfl] at this
    rw [this, show (id a : Nat) = a from rfl]
    rcases findLoop id s fuel [a] a ⟨a, []⟩ with _ | ⟨_ | e, path⟩
    · rfl
    · rfl
    · simp only [Option.map_some]
      rw [aroundLoop_map]
      rcases aroundLoop id s e fuel e path with _ | p
      · rfl
      · simp only [Option.map_some, Option.bind_some]
        exact leaveLoop_map f s fuel e p
end

section
omit [IsOrderedAddMonoid T] [OrderBot T]

/-- A path from `v` to `a`, as built backwards. -/
def Part (A : WAut T) (a v : Nat) (path : APath Nat) : Prop :=
  path.frontState = v ∧ path.fin = a ∧ ∃ w, A.Path v (steps path) a w

omit [LinearOrder T] [OrderTop T] in
theorem Part.emplace {a v u l : Nat} {x : T} {path : APath Nat} (h : Part A a v path) (e : A.Edge u l v x) :
    Part A a u (path.emplace u l) := by
  obtain ⟨h1, h2, w, h3⟩ := h
  refine ⟨rfl, h2, x + w, ?_⟩
  rw [steps_emplace, h1]
  exact (Path.single e).append h3

omit [LinearOrder T] [OrderTop T] in
theorem leaveLoop_part {s : FP T} {i v a : Nat} {q : List (Nat × Nat)} (hf : First A s i v q) {path : APath Nat}
    (hp : Part A a v path) {k : Nat} (hk : q.length < k) :
    ∃ r, (∀ k', k ≤ k' → leaveLoop id s k' v path = some r) ∧ i < A.m ∧ Part A a i r := by
  induction hf generalizing path k with
  | start h1 h2 =>
    refine ⟨path, ?_, h2, hp⟩
    intro k' hk'
    obtain ⟨k', rfl⟩ : ∃ j, k' = j + 1 := ⟨k' - 1, by omega⟩
    unfold leaveLoop backNext
    simp only [if_true, h1]
  | @step v u q x h1 e _ ih =>
    rw [List.length_append, List.length_singleton] at hk
    obtain ⟨r, h3, h4, h5⟩ := ih (hp.emplace e) (k := k - 1) (by omega)
    refine ⟨r, ?_, h4, h5⟩
    intro k' hk'
    obtain ⟨k', rfl⟩ : ∃ j, k' = j + 1 := ⟨k' - 1, by omega⟩
    unfold leaveLoop backNext
    simp only [if_true, h1]
    exact h3 k' (by omega)

/-- One step backwards. -/
def Prev (s : FP T) (v u : Nat) : Prop := (s.states v).pred = .state u

theorem aroundLoop_part {s : FP T} (hs : Web A s) {e v a : Nat} (ht : Relation.TransGen (Prev s) v e)
    (hv : (s.states v).firstPred ≠ .uninitialized) {path : APath Nat} (hp : Part A a v path) :
    ∃ r k, (∀ k', k ≤ k' → aroundLoop id s e k' v path = some r) ∧ Part A a e r := by
  have one : ∀ {v u : Nat}, Prev s v u → (s.states v).firstPred ≠ .uninitialized →
      ∃ x, (s.states u).firstPred ≠ .uninitialized ∧ A.Edge u (s.states v).label v x := by
    intro v u hvu hv
    rcases hs.prd v hv with ⟨h, _⟩ | ⟨u', x, h1, h2, h3⟩
    · rw [hvu] at h; cases h
    · rw [hvu] at h1; cases h1; exact ⟨x, h2, h3⟩
  induction ht using Relation.TransGen.head_induction_on generalizing path with
  | single h =>
    obtain ⟨x, _, hE⟩ := one h hv
    refine ⟨_, 1, ?_, hp.emplace hE⟩
    intro k' hk'
    obtain ⟨k', rfl⟩ : ∃ j, k' = j + 1 := ⟨k' - 1, by omega⟩
    unfold aroundLoop backNext
    unfold Prev at h
    simp only [Bool.false_eq_true, if_false, h, if_true]
    rfl
  | @head v u h _ ih =>
    obtain ⟨x, hu, hE⟩ := one h hv
    obtain ⟨r, k, h1, h2⟩ := ih hu (hp.emplace hE)
    unfold Prev at h
    by_cases hue : u = e
    · subst hue
      refine ⟨_, 1, ?_, hp.emplace hE⟩
      intro k' hk'
      obtain ⟨k', rfl⟩ : ∃ j, k' = j + 1 := ⟨k' - 1, by omega⟩
      unfold aroundLoop backNext
      simp only [Bool.false_eq_true, if_false, h, if_true]
      rfl
    · refine ⟨r, k + 1, ?_, h2⟩
      intro k' hk'
      obtain ⟨k', rfl⟩ : ∃ j, k' = j + 1 := ⟨k' - 1, by omega⟩
      unfold aroundLoop backNext
      simp only [Bool.false_eq_true, if_false, h, hue]
      exact h1 k' (by omega)

theorem findLoop_part {s : FP T} (hs : Web A s) {a v : Nat} {seen : List Nat} {path : APath Nat}
    (hv : (s.states v).firstPred ≠ .uninitialized) (hp : Part A a v path) (hnd : seen.Nodup)
    (hlt : ∀ u ∈ seen, u < A.n) (hback : ∀ u ∈ seen, Relation.ReflTransGen (Prev s) u v) :
    ∃ o r, (∀ k', A.n + 1 - seen.length ≤ k' → findLoop id s k' seen v path = some (o, r)) ∧
      match o with
      | none => ∃ i, i < A.m ∧ Part A a i r
      | some e => (s.states e).firstPred ≠ .uninitialized ∧ Relation.TransGen (Prev s) e e ∧ Part A a e r := by
  have hle : seen.length ≤ A.n := by
    have hsub : seen ⊆ List.range A.n := fun x hx => List.mem_range.2 (hlt x hx)
    have := (hnd.subperm hsub).length_le
    rwa [List.length_range] at this
  generalize hm : A.n - seen.length = m
  induction m using Nat.strongRecOn generalizing seen v path with
  | ind m ih =>
    rcases hs.prd v hv with ⟨h1, h2⟩ | ⟨u, x, h1, h2, h3⟩
    · refine ⟨none, path, ?_, v, h2, hp⟩
      intro k' hk'
      obtain ⟨k', rfl⟩ : ∃ j, k' = j + 1 := ⟨k' - 1, by omega⟩
      unfold findLoop backNext
      simp only [Bool.false_eq_true, if_false, h1]
    · by_cases hu : u ∈ seen
      · refine ⟨some u, path.emplace u (s.states v).label, ?_, h2, ?_, hp.emplace h3⟩
        · intro k' hk'
          obtain ⟨k', rfl⟩ : ∃ j, k' = j + 1 := ⟨k' - 1, by omega⟩
          unfold findLoop backNext
          simp only [Bool.false_eq_true, if_false, h1, hu, if_true]
          rfl
        · exact Relation.TransGen.tail' (hback u hu) h1
      · have hult : u < A.n := hs.lt u ((hs.seen u).2 h2)
        have hnd' : (u :: seen).Nodup := List.nodup_cons.2 ⟨hu, hnd⟩
        have hlt' : ∀ x ∈ u :: seen, x < A.n := by
          intro x hx
          rcases List.mem_cons.1 hx with rfl | hx
          · exact hult
          · exact hlt x hx
        have hle' : (u :: seen).length ≤ A.n := by
          have hsub : (u :: seen) ⊆ List.range A.n := fun x hx => List.mem_range.2 (hlt' x hx)
          have := (hnd'.subperm hsub).length_le
          rwa [List.length_range] at this
        rw [List.length_cons] at hle'
        obtain ⟨o, r, h4, h5⟩ := ih (A.n - (u :: seen).length) (by rw [List.length_cons]; omega) h2 (hp.emplace h3) hnd' hlt'
          (by
            intro x hx
            rcases List.mem_cons.1 hx with rfl | hx
            · exact .refl
            · exact .tail (hback x hx) h1) (by rw [List.length_cons]; exact hle') rfl
        refine ⟨o, r, ?_, h5⟩
        intro k' hk'
        obtain ⟨k', rfl⟩ : ∃ j, k' = j + 1 := ⟨k' - 1, by omega⟩
        unfold findLoop backNext
        simp only [Bool.false_eq_true, if_false, h1, hu]
        exact h4 k' (by rw [List.length_cons]; omega)

/-- `get_path_with_loop` returns a path from an initial state to the minimal accepting state. -/
theorem getPathWithLoop_part {s : FP T} (hs : Web A s) {a : Nat} (ha : s.minAcc = some a) (hat : s.d a ≠ ⊤) :
    ∃ r k i, (∀ k', k ≤ k' → getPathWithLoop id s k' = some r) ∧ i < A.m ∧ Part A a i r := by
  have haf := (hs.seen a).1 hat
  have hp0 : Part A a a ⟨a, []⟩ := by
    refine ⟨rfl, rfl, 0, ?_⟩
    have : steps ⟨a, []⟩ = [] := by simp [steps, APath.states, APath.stack_eq]
    rw [this]
    exact .nil a
  obtain ⟨o, r, h1, h2⟩ := findLoop_part hs haf hp0 (seen := [a]) (by simp)
    (by intro u hu; rw [List.mem_singleton.1 hu]; exact hs.lt a hat)
    (by intro u hu; rw [List.mem_singleton.1 hu])
  rcases o with _ | e
  · obtain ⟨i, h3, h4⟩ := h2
    refine ⟨r, A.n + 1, i, ?_, h3, h4⟩
    intro k' hk'
    unfold getPathWithLoop
    rw [ha]
    simp only [Option.bind_some]
    have := h1 k' (by simp; omega)
    rw [show (id a : Nat) = a from rfl, this]
  · obtain ⟨h3, h4, h5⟩ := h2
    obtain ⟨r2, k2, h6, h7⟩ := aroundLoop_part hs h4 h3 h5
    obtain ⟨i, q, hq⟩ := hs.fst e h3
    obtain ⟨r3, h8, h9, h10⟩ := leaveLoop_part hq h7 (k := q.length + 1) (by omega)
    refine ⟨r3, A.n + 1 + k2 + q.length + 1, i, ?_, h9, h10⟩
    intro k' hk'
    unfold getPathWithLoop
    rw [ha]
    simp only [Option.bind_some]
    have := h1 k' (by simp; omega)
    rw [show (id a : Nat) = a from rfl, this]
    dsimp only
    rw [h6 k' (by omega)]
    exact h8 k' (by omega)

end

end FP

end Verif
