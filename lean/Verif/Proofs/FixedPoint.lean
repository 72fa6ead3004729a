import Verif.Spec.Paths
import Verif.Proofs.ReducerSets
import Mathlib.Data.List.Perm.Subperm
import Mathlib.Data.List.Nodup

/-!
# Correctness of `PAutomatonFixedPoint`
-/

namespace Verif

open WAut

variable {T : Type} [LinearOrder T] [AddCommMonoid T] [IsOrderedAddMonoid T] [OrderTop T] [OrderBot T]

namespace WAut

variable {A : WAut T}

omit [LinearOrder T] [IsOrderedAddMonoid T] [OrderTop T] [OrderBot T] in
theorem Path.append {u v t : Nat} {p q : List (Nat × Nat)} {w x : T} (h : A.Path u p v w) (h' : A.Path v q t x) :
    A.Path u (p ++ q) t (w + x) := by
  induction h' with
  | nil => simpa using h
  | snoc _ e ih =>
    rw [← List.append_assoc, ← add_assoc]
    exact .snoc ih e

omit [LinearOrder T] [IsOrderedAddMonoid T] [OrderTop T] [OrderBot T] in
theorem Path.single {u l v : Nat} {x : T} (e : A.Edge u l v x) : A.Path u [(l, v)] v x := by
  have := Path.snoc (Path.nil (A := A) u) e
  simpa using this

/-- An accepting state can be reached. -/
def CoR (A : WAut T) (v : Nat) : Prop := ∃ q a y, A.Path v q a y ∧ A.accepting a = true

omit [LinearOrder T] [IsOrderedAddMonoid T] [OrderTop T] [OrderBot T] in
theorem CoR.edge {u l v : Nat} {x : T} (h : A.CoR v) (e : A.Edge u l v x) : A.CoR u := by
  obtain ⟨q, a, y, hp, ha⟩ := h
  exact ⟨_, a, _, (Path.single e).append hp, ha⟩

omit [LinearOrder T] [IsOrderedAddMonoid T] [OrderTop T] [OrderBot T] in
theorem CoR.of_accepting {a : Nat} (h : A.accepting a = true) : A.CoR a := ⟨[], a, 0, .nil a, h⟩

omit [LinearOrder T] [IsOrderedAddMonoid T] [OrderTop T] [OrderBot T] in
/-- Split a path at one of its states. -/
theorem Path.split {u v t : Nat} {p : List (Nat × Nat)} {w : T} (h : A.Path u p v w)
    (ht : t ∈ u :: p.map Prod.snd) :
    ∃ p1 p2 w1 w2, p = p1 ++ p2 ∧ A.Path u p1 t w1 ∧ A.Path t p2 v w2 ∧ w = w1 + w2 := by
  induction h with
  | nil =>
    have : t = u := by simpa using ht
    subst this
    exact ⟨[], [], 0, 0, rfl, .nil _, .nil _, by simp⟩
  | @snoc v t' l p w x hp e ih =>
    by_cases hm : t ∈ u :: p.map Prod.snd
    · obtain ⟨p1, p2, w1, w2, rfl, h1, h2, rfl⟩ := ih hm
      exact ⟨p1, p2 ++ [(l, t')], w1, w2 + x, by simp, h1, .snoc h2 e, by rw [add_assoc]⟩
    · have : t = t' := by
        simp only [List.map_append, List.map_cons, List.map_nil, List.mem_cons, List.mem_append,
          List.not_mem_nil, or_false] at ht hm
        grind
      subst this
      exact ⟨p ++ [(l, t)], [], w + x, 0, by simp, .snoc hp e, .nil _, by simp⟩

omit [IsOrderedAddMonoid T] [OrderBot T] in
theorem Path.ne_top (hA : A.OK) (h0 : (0 : T) ≠ ⊤) (ht : ∀ a b : T, a ≠ ⊤ → b ≠ ⊤ → a + b ≠ ⊤)
    {u v : Nat} {p : List (Nat × Nat)} {w : T} (h : A.Path u p v w) : w ≠ ⊤ := by
  induction h with
  | nil => exact h0
  | snoc _ e ih => exact ht _ _ ih (hA.weight _ _ _ _ e)

omit [IsOrderedAddMonoid T] [OrderBot T] in
theorem Path.states_lt (hA : A.OK) {u v : Nat} {p : List (Nat × Nat)} {w : T} (hu : u < A.n) (h : A.Path u p v w) :
    ∀ t ∈ u :: p.map Prod.snd, t < A.n := by
  induction h with
  | nil => simpa using hu
  | snoc _ e ih =>
    intro t ht
    simp only [List.map_append, List.map_cons, List.map_nil, List.mem_cons, List.mem_append,
      List.not_mem_nil, or_false] at ht ih
    rcases ht with rfl | ht | rfl
    · exact ih _ (.inl rfl)
    · exact ih _ (.inr ht)
    · exact hA.target _ _ _ _ e

omit [OrderTop T] [OrderBot T] in
/-- Removing cycles: a path without repeated states that is no heavier. -/
theorem Path.simple (hN : A.NoNegativeCycle) {i v : Nat} {p : List (Nat × Nat)} {w : T} (hi : i < A.m)
    (h : A.Path i p v w) (hv : A.CoR v) :
    ∃ p' w', A.Path i p' v w' ∧ w' ≤ w ∧ (i :: p'.map Prod.snd).Nodup := by
  induction h with
  | nil => exact ⟨[], 0, .nil _, le_rfl, by simp⟩
  | @snoc v t l p w x hp e ih =>
    obtain ⟨p', w', hp', hle, hnd⟩ := ih (hv.edge e)
    by_cases hm : t ∈ i :: p'.map Prod.snd
    · obtain ⟨p1, p2, w1, w2, rfl, h1, h2, rfl⟩ := hp'.split hm
      refine ⟨p1, w1, h1, ?_, ?_⟩
      · obtain ⟨q, a, y, hq, ha⟩ := hv
        have := hN i t a p1 (p2 ++ [(l, t)]) q w1 (w2 + x) y hi h1 (.snoc h2 e) hq ha
        calc w1 = w1 + 0 := (add_zero _).symm
          _ ≤ w1 + (w2 + x) := add_le_add le_rfl this
          _ = w1 + w2 + x := (add_assoc _ _ _).symm
          _ ≤ w + x := add_le_add hle le_rfl
      · refine hnd.sublist ?_
        simp
    · refine ⟨p' ++ [(l, t)], w' + x, .snoc hp' e, add_le_add hle le_rfl, ?_⟩
      rw [List.map_append, ← List.cons_append]
      refine List.nodup_append.2 ⟨hnd, by simp, ?_⟩
      intro a ha b hb
      have : b = t := by simpa using hb
      grind

omit [OrderBot T] in
theorem Path.short (hA : A.OK) (hN : A.NoNegativeCycle) {i v : Nat} {p : List (Nat × Nat)} {w : T} (hi : i < A.m)
    (h : A.Path i p v w) (hv : A.CoR v) :
    ∃ p' w', A.Path i p' v w' ∧ w' ≤ w ∧ p'.length ≤ A.n - 1 := by
  obtain ⟨p', w', hp, hle, hnd⟩ := h.simple hN hi hv
  refine ⟨p', w', hp, hle, ?_⟩
  have hlt := hp.states_lt hA (Nat.lt_of_lt_of_le hi hA.init)
  have hsub : (i :: p'.map Prod.snd) ⊆ List.range A.n := fun x hx => List.mem_range.2 (hlt x hx)
  have := (hnd.subperm hsub).length_le
  simp at this
  omega

end WAut

namespace FP

variable {A : WAut T}

/-- `d s v` is `_states[v].weight`. -/
abbrev d (s : FP T) (v : Nat) : T := (s.states v).weight

/-- `q s v` is `_states[v].in_queue`. -/
abbrev q (s : FP T) (v : Nat) : Bool := (s.states v).inQueue

omit [AddCommMonoid T] [IsOrderedAddMonoid T] [OrderTop T] [OrderBot T] in
theorem foldl_min (es : List (Nat × T)) (e : Nat × T) :
    let r := es.foldl (fun best x => if x.2 < best.2 then x else best) e
    (r = e ∨ r ∈ es) ∧ r.2 ≤ e.2 ∧ ∀ x ∈ es, r.2 ≤ x.2 := by
  induction es generalizing e with
  | nil => simp
  | cons a es ih =>
    dsimp only [List.foldl_cons]
    by_cases h : a.2 < e.2
    · rw [if_pos h]
      obtain ⟨h1, h2, h3⟩ := ih a
      refine ⟨?_, le_trans h2 h.le, ?_⟩
      · rcases h1 with h1 | h1
        · exact .inr (by rw [h1]; exact List.mem_cons_self)
        · exact .inr (List.mem_cons_of_mem _ h1)
      · intro x hx
        rcases List.mem_cons.1 hx with rfl | hx
        · exact h2
        · exact h3 x hx
    · rw [if_neg h]
      obtain ⟨h1, h2, h3⟩ := ih e
      refine ⟨?_, h2, ?_⟩
      · rcases h1 with h1 | h1
        · exact .inl h1
        · exact .inr (List.mem_cons_of_mem _ h1)
      · intro x hx
        rcases List.mem_cons.1 hx with rfl | hx
        · exact le_trans h2 (not_lt.1 h)
        · exact h3 x hx

omit [AddCommMonoid T] [IsOrderedAddMonoid T] [OrderTop T] [OrderBot T] in
theorem minElement_spec {es : List (Nat × T)} :
    (minElement es = none → es = []) ∧
      ∀ r, minElement es = some r → r ∈ es ∧ ∀ x ∈ es, r.2 ≤ x.2 := by
  cases es with
  | nil => simp [minElement]
  | cons e es =>
    refine ⟨by simp [minElement], ?_⟩
    intro r hr
    obtain ⟨h1, h2, h3⟩ := foldl_min es e
    have hr : es.foldl (fun best x => if x.2 < best.2 then x else best) e = r := by
      simpa [minElement] using hr
    rw [hr] at h1 h2 h3
    refine ⟨?_, ?_⟩
    · rcases h1 with h1 | h1
      · exact h1 ▸ List.mem_cons_self
      · exact List.mem_cons_of_mem _ h1
    · intro x hx
      rcases List.mem_cons.1 hx with rfl | hx
      · exact h2
      · exact h3 x hx

/-- What relaxing edges may change. -/
structure Ext (s r : FP T) : Prop where
  mono : ∀ v, r.d v ≤ s.d v
  chg : ∀ v, r.states v = s.states v ∨ r.q v = true
  workset : r.workset = s.workset
  minAcc : r.minAcc = s.minAcc
  done : r.done = s.done
  rounds : r.rounds = s.rounds
  limit : r.limit = s.limit
  sub : ∀ v ∈ s.next, v ∈ r.next
  queue : ∀ v, r.q v = true → s.q v = true ∨ v ∈ r.next
  fin : ∀ v ∈ r.next, v ∈ s.next ∨ r.d v ≠ ⊤

omit [AddCommMonoid T] [IsOrderedAddMonoid T] [OrderBot T] in
theorem Ext.refl (s : FP T) : Ext s s :=
  ⟨fun _ => le_rfl, fun _ => .inl rfl, rfl, rfl, rfl, rfl, rfl, fun _ h => h, fun _ h => .inl h, fun _ h => .inl h⟩

omit [AddCommMonoid T] [IsOrderedAddMonoid T] [OrderBot T] in
theorem ne_top_of_le {a b : T} (h : a ≤ b) (hb : b ≠ ⊤) : a ≠ ⊤ := fun e => hb (top_le_iff.1 (e ▸ h))

omit [AddCommMonoid T] [IsOrderedAddMonoid T] [OrderBot T] in
theorem Ext.trans {s r t : FP T} (h : Ext s r) (h' : Ext r t) : Ext s t where
  mono v := le_trans (h'.mono v) (h.mono v)
  chg v := by
    rcases h'.chg v with e | e
    · rcases h.chg v with e' | e'
      · exact .inl (e.trans e')
      · exact .inr (by rw [q, e]; exact e')
    · exact .inr e
  workset := h'.workset.trans h.workset
  minAcc := h'.minAcc.trans h.minAcc
  done := h'.done.trans h.done
  rounds := h'.rounds.trans h.rounds
  limit := h'.limit.trans h.limit
  sub v hv := h'.sub v (h.sub v hv)
  queue v hv := by
    rcases h'.queue v hv with e | e
    · rcases h.queue v e with e' | e'
      · exact .inl e'
      · exact .inr (h'.sub v e')
    · exact .inr e
  fin v hv := by
    rcases h'.fin v hv with e | e
    · rcases h.fin v e with e' | e'
      · exact .inl e'
      · exact .inr (ne_top_of_le (h'.mono v) e')
    · exact .inr e

/-- The two outcomes of `relax`. -/
theorem relax_cases (b : Bool) (cur : Nat) (s : FP T) (t : Nat) (ls : List (Nat × T)) :
    (relax b cur s (t, ls) = s ∧ ∀ l y, (l, y) ∈ ls → s.d t ≤ s.d cur + y) ∨
      ∃ lab x, (lab, x) ∈ ls ∧ s.d cur + x < s.d t ∧ (∀ l y, (l, y) ∈ ls → s.d cur + x ≤ s.d cur + y) ∧
        (relax b cur s (t, ls)).states = (s.setState t (improved b cur lab (s.d cur + x) (s.states t))).states ∧
        Ext s (relax b cur s (t, ls)) ∧ (∀ v ∈ (relax b cur s (t, ls)).next, v ∈ s.next ∨ v = t) := by
  unfold relax
  rcases hm : minElement ls with _ | ⟨lab, x⟩
  · left
    refine ⟨rfl, ?_⟩
    rw [minElement_spec.1 hm]
    simp
  · obtain ⟨hmem, hmin⟩ := minElement_spec.2 _ hm
    dsimp only
    have hle : ∀ l y, (l, y) ∈ ls → s.d cur + x ≤ s.d cur + y :=
      fun l y hy => add_le_add le_rfl (hmin _ hy)
    by_cases hlt : s.d cur + x < s.d t
    · right
      refine ⟨lab, x, hmem, hlt, hle, ?_⟩
      rw [if_pos hlt]
      have hmono : ∀ v, ((s.setState t (improved b cur lab (s.d cur + x) (s.states t))).states v).weight ≤ s.d v := by
        intro v
        unfold setState improved
        dsimp only
        split
        · subst v
          dsimp only
          cases b
          · exact hlt.le
          · exact bot_le
        · exact le_rfl
      have hchg : ∀ v, (s.setState t (improved b cur lab (s.d cur + x) (s.states t))).states v = s.states v ∨
          ((s.setState t (improved b cur lab (s.d cur + x) (s.states t))).states v).inQueue = true := by
        intro v
        unfold setState improved
        dsimp only
        split
        · exact .inr rfl
        · exact .inl rfl
      have hother : ∀ v, v ≠ t → (s.setState t (improved b cur lab (s.d cur + x) (s.states t))).states v = s.states v := by
        intro v hv
        unfold setState
        dsimp only
        rw [if_neg hv]
      have hnt : ((s.setState t (improved b cur lab (s.d cur + x) (s.states t))).states t).weight ≠ ⊤ := by
        unfold setState improved
        dsimp only
        rw [if_pos rfl]
        dsimp only
        cases b
        · exact (lt_of_lt_of_le hlt le_top).ne
        · refine (lt_of_le_of_lt bot_le (lt_of_lt_of_le hlt le_top)).ne
      by_cases hq : (s.states t).inQueue = true
      · rw [if_pos hq]
        refine ⟨rfl, ⟨hmono, hchg, rfl, rfl, rfl, rfl, rfl, fun _ h => h, ?_, fun _ h => .inl h⟩, fun _ h => .inl h⟩
        intro v hv
        by_cases e : v = t
        · subst e; exact .inl hq
        · rw [q, hother v e] at hv; exact .inl hv
      · rw [if_neg hq]
        refine ⟨rfl, ⟨hmono, hchg, rfl, rfl, rfl, rfl, rfl, fun _ h => List.mem_append_left _ h, ?_, ?_⟩, ?_⟩
        · intro v hv
          by_cases e : v = t
          · subst e; exact .inr (List.mem_append_right _ (List.mem_singleton.2 rfl))
          · left
            have := hother v e
            simp only [q] at hv
            rw [this] at hv; exact hv
        · intro v hv
          rcases List.mem_append.1 hv with h | h
          · exact .inl h
          · rw [List.mem_singleton.1 h]; exact .inr hnt
        · intro v hv
          rcases List.mem_append.1 hv with h | h
          · exact .inl h
          · exact .inr (List.mem_singleton.1 h)
    · left
      rw [if_neg hlt]
      exact ⟨rfl, fun l y hy => le_trans (not_lt.1 hlt) (hle l y hy)⟩

theorem relax_ext (b : Bool) (cur : Nat) (s : FP T) (e : Nat × List (Nat × T)) : Ext s (relax b cur s e) := by
  obtain ⟨t, ls⟩ := e
  rcases relax_cases b cur s t ls with ⟨h, _⟩ | ⟨lab, x, _, _, _, _, h, _⟩
  · rw [h]; exact .refl s
  · exact h

theorem fold_ext (b : Bool) (cur : Nat) (es : List (Nat × List (Nat × T))) (s : FP T) :
    Ext s (es.foldl (relax b cur) s) := by
  induction es generalizing s with
  | nil => exact .refl s
  | cons e es ih => exact (relax_ext b cur s e).trans (ih _)

/-- After the loop every edge is relaxed with respect to the weight of `cur` before the loop. -/
theorem fold_relaxed (b : Bool) (cur : Nat) (es : List (Nat × List (Nat × T))) (s : FP T) :
    ∀ t ls l y, (t, ls) ∈ es → (l, y) ∈ ls → (es.foldl (relax b cur) s).d t ≤ s.d cur + y := by
  induction es generalizing s with
  | nil => intro t ls l y h; cases h
  | cons e es ih =>
    intro t ls l y h hy
    have hext := fold_ext b cur es (relax b cur s e)
    rcases List.mem_cons.1 h with h | h
    · subst h
      refine le_trans (hext.mono t) ?_
      rcases relax_cases b cur s t ls with ⟨hr, h2⟩ | ⟨lab, x, hx, hlt, hmin, hst, _, _⟩
      · rw [hr]; exact h2 l y hy
      · rw [d, hst]
        refine le_trans ?_ (hmin l y hy)
        unfold setState improved
        dsimp only
        rw [if_pos rfl]
        dsimp only
        cases b
        · exact le_rfl
        · exact bot_le
    · exact le_trans (ih (relax b cur s e) t ls l y h hy) (add_le_add ((relax_ext b cur s e).mono cur) le_rfl)

/-! ## The predecessor pointers -/

/-- Following the predecessors from `v` leads to the initial state `i` along the path `p`. -/
inductive Back (A : WAut T) (s : FP T) : Nat → Nat → List (Nat × Nat) → T → Prop where
  | start {v : Nat} : (s.states v).pred = .noState → v < A.m → Back A s v v [] 0
  | step {i v u : Nat} {p : List (Nat × Nat)} {w x : T} : (s.states v).pred = .state u →
      A.Edge u (s.states v).label v x → Back A s i u p w → Back A s i v (p ++ [((s.states v).label, v)]) (w + x)

omit [LinearOrder T] [IsOrderedAddMonoid T] [OrderTop T] [OrderBot T] in
theorem Back.path {s : FP T} {i v : Nat} {p : List (Nat × Nat)} {w : T} (h : Back A s i v p w) :
    i < A.m ∧ A.Path i p v w := by
  induction h with
  | start _ hv => exact ⟨hv, .nil _⟩
  | step _ e _ ih => exact ⟨ih.1, .snoc ih.2 e⟩

/-- The facts about states from which an accepting state is reachable. -/
structure Core (A : WAut T) (s : FP T) : Prop where
  back : ∀ v, A.CoR v → s.d v ≠ ⊤ → ∃ i p w, Back A s i v p w
  loc : ∀ v u, A.CoR v → (s.states v).pred = .state u →
    s.d u ≠ ⊤ ∧ ∃ x, A.Edge u (s.states v).label v x ∧ s.d u + x ≤ s.d v
  init : ∀ v, A.CoR v → (s.states v).pred = .noState → v < A.m ∧ s.d v = 0
  real : ∀ v, A.CoR v → s.d v ≠ ⊤ → ∃ i p, i < A.m ∧ A.Path i p v (s.d v)
  minOk : ∀ a, s.minAcc = some a → A.accepting a = true ∧ s.d a ≠ ⊤

omit [LinearOrder T] [IsOrderedAddMonoid T] [OrderTop T] [OrderBot T] in
theorem Back.congr {s r : FP T} (h : ∀ v, A.CoR v → r.states v = s.states v) {i v : Nat} {p : List (Nat × Nat)}
    {w : T} (hb : Back A s i v p w) (hv : A.CoR v) : Back A r i v p w := by
  induction hb with
  | start h1 h2 => exact .start (by rw [h _ hv]; exact h1) h2
  | @step v u p w x h1 e _ ih =>
    have := ih (hv.edge e)
    rw [← h _ hv] at e h1 ⊢
    exact .step h1 e this

omit [IsOrderedAddMonoid T] [OrderBot T] in
theorem Core.congr {s r : FP T} (hs : Core A s) (h : ∀ v, A.CoR v → r.states v = s.states v)
    (hm : r.minAcc = s.minAcc) : Core A r where
  back v hv hd := by
    rw [d, h v hv] at hd
    obtain ⟨i, p, w, hb⟩ := hs.back v hv hd
    exact ⟨i, p, w, hb.congr h hv⟩
  loc v u hv hp := by
    rw [h v hv] at hp ⊢
    obtain ⟨hu, x, e, hle⟩ := hs.loc v u hv hp
    rw [d, d, h u (hv.edge e), h v hv]
    exact ⟨hu, x, e, hle⟩
  init v hv hp := by
    rw [h v hv] at hp
    rw [d, h v hv]
    exact hs.init v hv hp
  real v hv hd := by
    rw [d, h v hv] at hd ⊢
    exact hs.real v hv hd
  minOk a ha := by
    rw [hm] at ha
    obtain ⟨h1, h2⟩ := hs.minOk a ha
    rw [d, h a (.of_accepting h1)]
    exact ⟨h1, h2⟩

/-- Only the queue flags differ. -/
theorem Core.flags {s r : FP T} (hs : Core A s) (hd : ∀ v, r.d v = s.d v)
    (hp : ∀ v, (r.states v).pred = (s.states v).pred) (hl : ∀ v, (r.states v).label = (s.states v).label)
    (hm : ∀ a, r.minAcc = some a → A.accepting a = true ∧ r.d a ≠ ⊤) : Core A r where
  back v hv hdv := by
    rw [hd] at hdv
    obtain ⟨i, p, w, hb⟩ := hs.back v hv hdv
    refine ⟨i, p, w, ?_⟩
    clear hdv hv
    induction hb with
    | start h1 h2 => exact .start (by rw [hp]; exact h1) h2
    | @step v u p w x h1 e _ ih =>
      rw [← hl] at e ⊢
      exact .step (by rw [hp]; exact h1) e ih
  loc v u hv h := by
    rw [hp] at h
    rw [hd, hd, hl]
    exact hs.loc v u hv h
  init v hv h := by
    rw [hp] at h
    rw [hd]
    exact hs.init v hv h
  real v hv h := by
    rw [hd] at h ⊢
    exact hs.real v hv h
  minOk := hm

omit [OrderBot T] in
/-- The weights along the predecessor pointers. -/
theorem Back.le {s : FP T} (hs : Core A s) {i v : Nat} {p : List (Nat × Nat)} {w : T} (hb : Back A s i v p w)
    (hv : A.CoR v) : ∀ t ∈ i :: p.map Prod.snd, ∃ p1 w1 p2 w2, A.Path i p1 t w1 ∧ A.Path t p2 v w2 ∧ s.d t + w2 ≤ s.d v := by
  induction hb with
  | start h1 h2 =>
    intro t ht
    have : t = i := by simpa using ht
    subst this
    exact ⟨[], 0, [], 0, .nil _, .nil _, by rw [add_zero]⟩
  | @step v u p w x h1 e hb ih =>
    intro t ht
    by_cases hm : t ∈ i :: p.map Prod.snd
    · obtain ⟨p1, w1, p2, w2, hp1, hp2, hle⟩ := ih (hv.edge e) t hm
      obtain ⟨_, x', e', hle'⟩ := hs.loc v u hv h1
      exact ⟨p1, w1, _, _, hp1, .snoc hp2 e', by
        rw [← add_assoc]; exact le_trans (add_le_add hle le_rfl) hle'⟩
    · have : t = v := by
        simp only [List.map_append, List.map_cons, List.map_nil, List.mem_cons, List.mem_append,
          List.not_mem_nil, or_false] at ht hm
        grind
      subst this
      exact ⟨_, _, [], 0, (Back.step h1 e hb).path.2, .nil _, by rw [add_zero]⟩

/-- Chains that avoid `t` survive a change of `t`. -/
theorem Back.avoid {s r : FP T} {t : Nat} (h : ∀ v, v ≠ t → r.states v = s.states v) {i v : Nat}
    {p : List (Nat × Nat)} {w : T} (hb : Back A s i v p w) (ht : t ∉ i :: p.map Prod.snd) : Back A r i v p w := by
  induction hb with
  | start h1 h2 =>
    have : i ≠ t := by rintro rfl; simp at ht
    exact .start (by rw [h i this]; exact h1) h2
  | @step v u p w x h1 e hb ih =>
    simp only [List.map_append, List.map_cons, List.map_nil, List.mem_cons, List.mem_append,
      List.not_mem_nil, or_false, not_or] at ht ih
    have hv : v ≠ t := fun e => ht.2.2 e.symm
    have := ih ⟨ht.1, ht.2.1⟩
    rw [← h v hv] at h1 e ⊢
    exact .step h1 e this

/-- Redirecting `t` to a chain keeps every chain. -/
theorem Back.redirect {s r : FP T} {t : Nat} (h : ∀ v, v ≠ t → r.states v = s.states v)
    (hr : ∃ i p w, Back A r i t p w) {i v : Nat} {p : List (Nat × Nat)} {w : T} (hb : Back A s i v p w) :
    ∃ i p w, Back A r i v p w := by
  induction hb with
  | start h1 h2 =>
    by_cases hv : i = t
    · subst hv; exact hr
    · exact ⟨i, [], 0, .start (by rw [h i hv]; exact h1) h2⟩
  | @step v u p w x h1 e hb ih =>
    by_cases hv : v = t
    · subst hv; exact hr
    · obtain ⟨i', p', w', hb'⟩ := ih
      rw [← h v hv] at h1 e
      exact ⟨i', _, _, .step h1 e hb'⟩

theorem Core.relax_normal (hN : A.NoNegativeCycle) {s r : FP T} (hs : Core A s) {cur t lab : Nat} {x : T}
    (hcur : s.d cur ≠ ⊤) (e : A.Edge cur lab t x) (hlt : s.d cur + x < s.d t)
    (hother : ∀ v, v ≠ t → r.states v = s.states v) (hw : r.d t = s.d cur + x)
    (hp : (r.states t).pred = .state cur) (hl : (r.states t).label = lab) (hm : r.minAcc = s.minAcc) : Core A r := by
  have hmono : ∀ v, r.d v ≤ s.d v := by
    intro v
    by_cases hv : v = t
    · subst hv; rw [hw]; exact hlt.le
    · rw [d, d, hother v hv]
  have hnt : r.d t ≠ ⊤ := by rw [hw]; exact (lt_of_lt_of_le hlt le_top).ne
  by_cases ht : A.CoR t
  · have hc : A.CoR cur := ht.edge e
    obtain ⟨i, p, w, hb⟩ := hs.back cur hc hcur
    have havoid : t ∉ i :: p.map Prod.snd := by
      intro hmem
      obtain ⟨p1, w1, p2, w2, h1, h2, hle⟩ := hb.le hs hc t hmem
      obtain ⟨q, a, y, hq, ha⟩ := ht
      have hpos := hN i t a p1 _ q w1 _ y hb.path.1 h1 (.snoc h2 e) hq ha
      have : s.d t < s.d t := calc
        s.d t = s.d t + 0 := (add_zero _).symm
        _ ≤ s.d t + (w2 + x) := add_le_add le_rfl hpos
        _ = s.d t + w2 + x := (add_assoc _ _ _).symm
        _ ≤ s.d cur + x := add_le_add hle le_rfl
        _ < s.d t := hlt
      exact lt_irrefl _ this
    have hct : cur ≠ t := by
      rintro rfl
      apply havoid
      cases hb with
      | start => simp
      | step => simp
    have hback : ∃ i p w, Back A r i t p w := by
      refine ⟨i, _, _, .step (w := w) (x := x) hp (by rw [hl]; exact e) (hb.avoid hother havoid)⟩
    refine ⟨?_, ?_, ?_, ?_, ?_⟩
    · intro v hv hd
      by_cases hvt : v = t
      · subst hvt; exact hback
      · rw [d, hother v hvt] at hd
        obtain ⟨i', p', w', hb'⟩ := hs.back v hv hd
        exact hb'.redirect hother hback
    · intro v u hv hpu
      by_cases hvt : v = t
      · subst hvt
        rw [hp] at hpu
        cases hpu
        rw [hl, hw, d, hother cur hct]
        exact ⟨hcur, x, e, le_rfl⟩
      · rw [hother v hvt] at hpu
        obtain ⟨hu, x', e', hle⟩ := hs.loc v u hv hpu
        rw [hother v hvt]
        refine ⟨ne_top_of_le (hmono u) hu, x', e', ?_⟩
        have : r.d v = s.d v := by rw [d, hother v hvt]
        rw [this]
        exact le_trans (add_le_add (hmono u) le_rfl) hle
    · intro v hv hpn
      by_cases hvt : v = t
      · subst hvt; rw [hp] at hpn; cases hpn
      · rw [hother v hvt] at hpn
        have : r.d v = s.d v := by rw [d, hother v hvt]
        rw [this]
        exact hs.init v hv hpn
    · intro v hv hd
      by_cases hvt : v = t
      · subst hvt
        obtain ⟨j, p', hj, hp'⟩ := hs.real cur hc hcur
        exact ⟨j, _, hj, by rw [hw]; exact .snoc hp' e⟩
      · have : r.d v = s.d v := by rw [d, hother v hvt]
        rw [this] at hd ⊢
        exact hs.real v hv hd
    · intro a ha
      rw [hm] at ha
      obtain ⟨h1, h2⟩ := hs.minOk a ha
      exact ⟨h1, ne_top_of_le (hmono a) h2⟩
  · refine hs.congr ?_ hm
    intro v hv
    exact hother v (by rintro rfl; exact ht hv)

/-- The weights are at most those of all paths (for states from which an accepting state is reachable). -/
def Comp (A : WAut T) (s : FP T) : Prop :=
  ∀ (i v : Nat) (p : List (Nat × Nat)) (w : T), A.CoR v → i < A.m → A.Path i p v w → s.d v ≤ w

omit [IsOrderedAddMonoid T] [OrderTop T] [OrderBot T] in
theorem Comp.congr {s r : FP T} (hs : Comp A s) (h : ∀ v, A.CoR v → r.d v ≤ s.d v) : Comp A r := by
  intro i v p w hv hi hp
  exact le_trans (h v hv) (hs i v p w hv hi hp)

/-- Once the weights are right, relaxing changes nothing that matters. -/
theorem relax_stable (b : Bool) {cur : Nat} {s : FP T} (hs : Core A s) (hc : Comp A s) (hcur : s.d cur ≠ ⊤)
    {t : Nat} {ls : List (Nat × T)} (he : (t, ls) ∈ A.edges cur) :
    (∀ v, A.CoR v → (relax b cur s (t, ls)).states v = s.states v) ∧
      ∀ v ∈ (relax b cur s (t, ls)).next, A.CoR v → v ∈ s.next := by
  rcases relax_cases b cur s t ls with ⟨hr, _⟩ | ⟨lab, x, hx, hlt, _, hst, hext, hnx⟩
  · rw [hr]; exact ⟨fun _ _ => rfl, fun _ h _ => h⟩
  · have ht : ¬ A.CoR t := by
      intro ht
      have e : A.Edge cur lab t x := ⟨ls, he, hx⟩
      obtain ⟨i, p, hi, hp⟩ := hs.real cur (ht.edge e) hcur
      exact absurd (hc i t _ _ ht hi (.snoc hp e)) (not_le.2 hlt)
    refine ⟨?_, ?_⟩
    · intro v hv
      rw [hst]
      unfold setState
      dsimp only
      rw [if_neg (by rintro rfl; exact ht hv)]
    · intro v hv hco
      rcases hnx v hv with h | h
      · exact h
      · subst h; exact absurd hco ht

theorem fold_stable (b : Bool) {cur : Nat} (es : List (Nat × List (Nat × T))) {s : FP T} (hs : Core A s)
    (hc : Comp A s) (hcur : s.d cur ≠ ⊤) (hes : ∀ e ∈ es, e ∈ A.edges cur) :
    (∀ v, A.CoR v → (es.foldl (relax b cur) s).states v = s.states v) ∧
      ∀ v ∈ (es.foldl (relax b cur) s).next, A.CoR v → v ∈ s.next := by
  induction es generalizing s with
  | nil => exact ⟨fun _ _ => rfl, fun _ h _ => h⟩
  | cons e es ih =>
    obtain ⟨t, ls⟩ := e
    have hext := relax_ext b cur s (t, ls)
    obtain ⟨h1, h2⟩ := relax_stable b hs hc hcur (hes (t, ls) List.mem_cons_self)
    have hs' : Core A (relax b cur s (t, ls)) := hs.congr h1 hext.minAcc
    have hc' : Comp A (relax b cur s (t, ls)) := hc.congr fun v _ => hext.mono v
    obtain ⟨h3, h4⟩ := ih hs' hc' (ne_top_of_le (hext.mono cur) hcur)
      (fun e he => hes e (List.mem_cons_of_mem _ he))
    refine ⟨fun v hv => (h3 v hv).trans (h1 v hv), fun v hv hco => h2 v (h4 v hv hco) hco⟩

theorem Core.fold_normal (hN : A.NoNegativeCycle) {cur : Nat} (es : List (Nat × List (Nat × T))) {s : FP T}
    (hs : Core A s) (hcur : s.d cur ≠ ⊤) (hes : ∀ e ∈ es, e ∈ A.edges cur) :
    Core A (es.foldl (relax false cur) s) := by
  induction es generalizing s with
  | nil => exact hs
  | cons e es ih =>
    obtain ⟨t, ls⟩ := e
    have hext := relax_ext false cur s (t, ls)
    refine ih ?_ (ne_top_of_le (hext.mono cur) hcur) (fun e he => hes e (List.mem_cons_of_mem _ he))
    rcases relax_cases false cur s t ls with ⟨hr, _⟩ | ⟨lab, x, hx, hlt, _, hst, _, _⟩
    · rw [hr]; exact hs
    · refine hs.relax_normal hN hcur ⟨ls, hes _ List.mem_cons_self, hx⟩ hlt ?_ ?_ ?_ ?_ hext.minAcc
      · intro v hv
        rw [hst]
        unfold setState
        dsimp only
        rw [if_neg hv]
      all_goals
        show _ = _
        first | rw [d, hst] | rw [hst]
        unfold setState improved
        dsimp only
        rw [if_pos rfl]
      rfl

/-! ## The invariant -/

/-- The invariant of both loops. -/
structure Inv (A : WAut T) (s : FP T) : Prop extends Core A s where
  rel : ∀ u l v y, s.q u = false → s.d u ≠ ⊤ → A.Edge u l v y → s.d v ≤ s.d u + y
  minLe : ∀ v, A.accepting v = true → s.d v ≠ ⊤ → s.q v = true ∨ ∃ a, s.minAcc = some a ∧ s.d a ≤ s.d v
  queue : ∀ v, s.q v = true → v ∈ s.workset ∨ v ∈ s.next
  fin : ∀ v, v ∈ s.workset ∨ v ∈ s.next → s.d v ≠ ⊤

/-- The loop has stopped at an accepting state with the least weight. -/
structure Stopped (A : WAut T) (s : FP T) : Prop extends Core A s where
  done : s.done = true
  bot : ∃ a, s.minAcc = some a ∧ A.accepting a = true ∧ s.d a = ⊥

/-- The state after taking `cur` out of the queue and testing whether it is accepting. -/
def popped (A : WAut T) (s : FP T) (cur : Nat) : FP T :=
  let s := s.setState cur { s.states cur with inQueue := false }
  if A.accepting cur then s.updateMin cur else s

omit [AddCommMonoid T] [IsOrderedAddMonoid T] [OrderTop T] in
theorem updateMin_minAcc (s : FP T) (cur : Nat) :
    ∃ a, (s.updateMin cur).minAcc = some a ∧ (a = cur ∨ s.minAcc = some a) ∧ s.d a ≤ s.d cur ∧
      ∀ b, s.minAcc = some b → s.d a ≤ s.d b := by
  unfold updateMin
  rcases hm : s.minAcc with _ | b
  · exact ⟨cur, rfl, .inl rfl, le_rfl, fun b hb => (by cases hb)⟩
  · dsimp only
    by_cases h : (s.states cur).weight < (s.states b).weight
    · rw [if_pos h]
      exact ⟨cur, rfl, .inl rfl, le_rfl, fun c hc => by cases hc; exact h.le⟩
    · rw [if_neg h]
      exact ⟨b, hm, .inr rfl, not_lt.1 h, fun c hc => by cases hc; exact le_rfl⟩

omit [AddCommMonoid T] [IsOrderedAddMonoid T] [OrderTop T] in
theorem updateMin_fields (s : FP T) (cur : Nat) :
    (s.updateMin cur).states = s.states ∧ (s.updateMin cur).workset = s.workset ∧ (s.updateMin cur).next = s.next ∧
      (s.updateMin cur).rounds = s.rounds ∧ (s.updateMin cur).limit = s.limit ∧ (s.updateMin cur).done = s.done := by
  unfold updateMin
  split
  · exact ⟨rfl, rfl, rfl, rfl, rfl, rfl⟩
  · split <;> exact ⟨rfl, rfl, rfl, rfl, rfl, rfl⟩

omit [AddCommMonoid T] [IsOrderedAddMonoid T] [OrderTop T] in
theorem popped_fields (s : FP T) (cur : Nat) :
    (∀ v, (popped A s cur).d v = s.d v) ∧ (∀ v, ((popped A s cur).states v).pred = (s.states v).pred) ∧
      (∀ v, ((popped A s cur).states v).label = (s.states v).label) ∧
      (∀ v, v ≠ cur → (popped A s cur).q v = s.q v) ∧ (popped A s cur).q cur = false ∧
      (popped A s cur).workset = s.workset ∧ (popped A s cur).next = s.next ∧
      (popped A s cur).rounds = s.rounds ∧ (popped A s cur).limit = s.limit ∧ (popped A s cur).done = s.done := by
  have hst : (popped A s cur).states = (s.setState cur { s.states cur with inQueue := false }).states ∧
      (popped A s cur).workset = s.workset ∧ (popped A s cur).next = s.next ∧
      (popped A s cur).rounds = s.rounds ∧ (popped A s cur).limit = s.limit ∧ (popped A s cur).done = s.done := by
    unfold popped
    dsimp only
    split
    · obtain ⟨h1, h2, h3, h4, h5, h6⟩ := updateMin_fields (s.setState cur { s.states cur with inQueue := false }) cur
      exact ⟨h1, h2, h3, h4, h5, h6⟩
    · exact ⟨rfl, rfl, rfl, rfl, rfl, rfl⟩
  obtain ⟨h1, h2, h3, h4, h5, h6⟩ := hst
  simp only [d, q, h1]
  refine ⟨?_, ?_, ?_, ?_, ?_, h2, h3, h4, h5, h6⟩
  · intro v; unfold setState; dsimp only; split <;> simp_all
  · intro v; unfold setState; dsimp only; split <;> simp_all
  · intro v; unfold setState; dsimp only; split <;> simp_all
  · intro v hv; unfold setState; dsimp only; rw [if_neg hv]
  · unfold setState; dsimp only; rw [if_pos rfl]

omit [AddCommMonoid T] [IsOrderedAddMonoid T] [OrderTop T] in
theorem popped_min (s : FP T) (cur : Nat) :
    (A.accepting cur = false → (popped A s cur).minAcc = s.minAcc) ∧
      (A.accepting cur = true → ∃ a, (popped A s cur).minAcc = some a ∧ (a = cur ∨ s.minAcc = some a) ∧
        s.d a ≤ s.d cur ∧ ∀ b, s.minAcc = some b → s.d a ≤ s.d b) := by
  refine ⟨?_, ?_⟩
  · intro h
    unfold popped
    rw [h]
    rfl
  · intro h
    have hd : ∀ v, (s.setState cur { s.states cur with inQueue := false }).d v = s.d v := by
      intro v; unfold setState; dsimp only [d]; split <;> simp_all
    obtain ⟨a, h1, h2, h3, h4⟩ := updateMin_minAcc (s.setState cur { s.states cur with inQueue := false }) cur
    refine ⟨a, ?_, h2, ?_, ?_⟩
    · unfold popped; rw [h]; exact h1
    · rw [hd, hd] at h3; exact h3
    · intro b hb
      have := h4 b hb
      rw [hd, hd] at this; exact this

/-- `stepWith` is a stop, or `popped` followed by the loop over the edges. -/
theorem stepWith_cases (b : Bool) (s : FP T) (cur : Nat) :
    (A.accepting cur = true ∧ s.d cur = ⊥ ∧
      stepWith A b s cur = ({ s.setState cur { s.states cur with inQueue := false } with minAcc := some cur }, false)) ∨
    (¬ (A.accepting cur = true ∧ s.d cur = ⊥) ∧
      stepWith A b s cur = ((A.edges cur).foldl (relax b cur) (popped A s cur), true)) := by
  have hd : ((s.setState cur { s.states cur with inQueue := false }).states cur).weight = s.d cur := by
    unfold setState; dsimp only; rw [if_pos rfl]
  unfold stepWith
  dsimp only
  rw [hd]
  by_cases h : A.accepting cur = true ∧ s.d cur = ⊥
  · left
    refine ⟨h.1, h.2, ?_⟩
    rw [if_pos (by rw [h.1, h.2]; simp)]
  · right
    refine ⟨h, ?_⟩
    rw [if_neg]
    · rfl
    · simpa using h

/-- Processing one state: the invariant and what the round argument needs. -/
structure Processed (A : WAut T) (s r : FP T) (cur : Nat) : Prop extends Inv A r where
  mono : ∀ v, r.d v ≤ s.d v
  edges : ∀ l v y, A.Edge cur l v y → r.d v ≤ s.d cur + y
  workset : r.workset = s.workset
  rounds : r.rounds = s.rounds
  limit : r.limit = s.limit
  notDone : r.done = s.done
  stable : Comp A s → (∀ v, A.CoR v → r.q v = true → s.q v = true ∧ v ≠ cur) ∧ ∀ v ∈ r.next, A.CoR v → v ∈ s.next

theorem Inv.process (b : Bool) {s : FP T} {cur : Nat} (hb : b = false ∧ A.NoNegativeCycle ∨ Comp A s)
    (hcore : Core A s)
    (rel : ∀ u l v y, u ≠ cur → s.q u = false → s.d u ≠ ⊤ → A.Edge u l v y → s.d v ≤ s.d u + y)
    (minLe : ∀ v, v ≠ cur → A.accepting v = true → s.d v ≠ ⊤ → s.q v = true ∨ ∃ a, s.minAcc = some a ∧ s.d a ≤ s.d v)
    (queue : ∀ v, v ≠ cur → s.q v = true → v ∈ s.workset ∨ v ∈ s.next)
    (fin : ∀ v, v ∈ s.workset ∨ v ∈ s.next → s.d v ≠ ⊤) (hcur : s.d cur ≠ ⊤) :
    Processed A s ((A.edges cur).foldl (relax b cur) (popped A s cur)) cur := by
  obtain ⟨hd, hp, hl, hq, hqc, hw, hn, hr, hlim, hdn⟩ := popped_fields (A := A) s cur
  obtain ⟨hm0, hm1⟩ := popped_min (A := A) s cur
  have hmin : ∀ a, (popped A s cur).minAcc = some a → A.accepting a = true ∧ (popped A s cur).d a ≠ ⊤ := by
    intro a ha
    rw [hd]
    by_cases hacc : A.accepting cur = true
    · obtain ⟨a', h1, h2, _, _⟩ := hm1 hacc
      rw [h1] at ha; cases ha
      rcases h2 with rfl | h2
      · exact ⟨hacc, hcur⟩
      · exact hcore.minOk _ h2
    · rw [hm0 (by simpa using hacc)] at ha
      exact hcore.minOk _ ha
  have hcore' : Core A (popped A s cur) := hcore.flags hd hp hl hmin
  have hcur' : (popped A s cur).d cur ≠ ⊤ := by rw [hd]; exact hcur
  have hext := fold_ext b cur (A.edges cur) (popped A s cur)
  have hrel := fold_relaxed b cur (A.edges cur) (popped A s cur)
  have hcomp' : Comp A s → Comp A (popped A s cur) := fun h => h.congr fun v _ => (hd v).le
  have hstab : Comp A s → _ := fun h => fold_stable (A := A) b (A.edges cur) hcore' (hcomp' h) hcur' (fun _ h => h)
  have hcoreR : Core A ((A.edges cur).foldl (relax b cur) (popped A s cur)) := by
    rcases hb with ⟨rfl, hN⟩ | hc
    · exact hcore'.fold_normal hN _ hcur' (fun _ h => h)
    · exact hcore'.congr (hstab hc).1 hext.minAcc
  generalize hrdef : (A.edges cur).foldl (relax b cur) (popped A s cur) = r at *
  have hmono : ∀ v, r.d v ≤ s.d v := fun v => (hext.mono v).trans (hd v).le
  have hedges : ∀ l v y, A.Edge cur l v y → r.d v ≤ s.d cur + y := by
    rintro l v y ⟨ls, h1, h2⟩
    have := hrel v ls l y h1 h2
    rw [hd] at this
    exact this
  have hsame : ∀ v, r.q v = false → r.d v = s.d v := by
    intro v hv
    rcases hext.chg v with h | h
    · rw [d, h]; exact hd v
    · rw [h] at hv; cases hv
  have hqf : ∀ v, v ≠ cur → r.q v = false → s.q v = false := by
    intro v hvc hv
    rcases hext.chg v with h | h
    · rw [← hq v hvc]; rw [q, h] at hv; exact hv
    · rw [h] at hv; cases hv
  refine { toInv := ⟨hcoreR, ?_, ?_, ?_, ?_⟩, mono := hmono, edges := hedges, workset := hext.workset.trans hw, rounds := hext.rounds.trans hr, limit := hext.limit.trans hlim, notDone := hext.done.trans hdn, stable := ?_ }
  · intro u l v y hu hut he
    rw [hsame u hu]
    by_cases huc : u = cur
    · subst huc; exact hedges l v y he
    · refine le_trans (hmono v) (rel u l v y huc (hqf u huc hu) ?_ he)
      rw [← hsame u hu]; exact hut
  · intro v hv hvt
    by_cases hqv : r.q v = true
    · exact .inl hqv
    · right
      have hqv' : r.q v = false := by simpa using hqv
      rw [hsame v hqv'] at hvt ⊢
      by_cases hacc : A.accepting cur = true
      · obtain ⟨a, h1, h2, h3, h4⟩ := hm1 hacc
        refine ⟨a, hext.minAcc.trans h1, le_trans (hmono a) ?_⟩
        by_cases hvc : v = cur
        · subst hvc; exact h3
        · rcases minLe v hvc hv hvt with h | ⟨a', ha', hle⟩
          · rw [hqf v hvc hqv'] at h; cases h
          · exact le_trans (h4 a' ha') hle
      · have hvc : v ≠ cur := by rintro rfl; exact hacc hv
        rcases minLe v hvc hv hvt with h | ⟨a', ha', hle⟩
        · rw [hqf v hvc hqv'] at h; cases h
        · refine ⟨a', ?_, le_trans (hmono a') hle⟩
          rw [hext.minAcc, hm0 (by simpa using hacc)]; exact ha'
  · intro v hv
    rcases hext.queue v hv with h | h
    · by_cases hvc : v = cur
      · subst hvc; rw [hqc] at h; cases h
      · rw [hq v hvc] at h
        rcases queue v hvc h with h' | h'
        · left; rw [hext.workset, hw]; exact h'
        · right; exact hext.sub v (by rw [hn]; exact h')
    · exact .inr h
  · intro v hv
    rcases hv with hv | hv
    · rw [hext.workset, hw] at hv
      exact ne_top_of_le (hmono v) (fin v (.inl hv))
    · rcases hext.fin v hv with h | h
      · rw [hn] at h
        exact ne_top_of_le (hmono v) (fin v (.inr h))
      · exact h
  · intro hc
    obtain ⟨h1, h2⟩ := hstab hc
    refine ⟨?_, ?_⟩
    · intro v hv hqv
      rw [q, h1 v hv] at hqv
      by_cases hvc : v = cur
      · subst hvc; rw [q] at hqc; rw [hqc] at hqv; cases hqv
      · exact ⟨by rw [← hq v hvc]; exact hqv, hvc⟩
    · intro v hv hco
      have := h2 v hv hco
      rw [hn] at this
      exact this

end FP

end Verif
