import Verif.Spec.CostTrace
import Verif.Proofs.TraceBack
import Verif.Model.ShortestPost
import Verif.Proofs.FixedSat
import Mathlib.Algebra.BigOperators.Group.List.Basic

/-! # Transitions with traces and weights in the order in which they were settled -/

namespace Verif

variable {W T : Type}

/-- A list of transitions, from the newest: every one that is not in `E0` is justified, together with its trace and weight,
by older ones and their weights. -/
inductive BuiltW (J : (Tr → T → Prop) → Tr → Trace → T → Prop) (E0 : List (AEdge T)) : List (AEdge T) → Prop where
  | base : BuiltW J E0 E0
  | cons {E : List (AEdge T)} {t : Tr} {tr : Trace} {w : T} : BuiltW J E0 E → t ∉ keys E →
      J (fun u x => ∃ tr, (u, (tr, x)) ∈ E) t tr w → BuiltW J E0 ((t, (tr, w)) :: E)

theorem BuiltW.suffix {J : (Tr → T → Prop) → Tr → Trace → T → Prop} {E0 E : List (AEdge T)} (h : BuiltW J E0 E) : E0 <:+ E := by
  induction h with
  | base => exact List.suffix_refl _
  | cons _ _ _ ih => exact ih.trans (List.suffix_cons _ _)

theorem BuiltW.nodup {J : (Tr → T → Prop) → Tr → Trace → T → Prop} {E0 E : List (AEdge T)} (h : BuiltW J E0 E)
    (h0 : (keys E0).Nodup) : (keys E).Nodup := by
  induction h with
  | base => exact h0
  | cons _ h2 _ ih => exact List.nodup_cons.2 ⟨h2, ih⟩

theorem mem_keys_of {E : List (AEdge T)} {e : AEdge T} (h : e ∈ E) : e.1 ∈ keys E := List.mem_map_of_mem h

/-- Every transition of the list is of the input, or has a reason in terms of older transitions. -/
theorem BuiltW.annotation {J : (Tr → T → Prop) → Tr → Trace → T → Prop} {E0 E : List (AEdge T)}
    (hmono : ∀ P Q : Tr → T → Prop, (∀ t x, P t x → Q t x) → ∀ t tr w, J P t tr w → J Q t tr w)
    (h : BuiltW J E0 E) {e : AEdge T} (he : e ∈ E) :
    e ∈ E0 ∨ J (fun u x => (∃ tr, (u, (tr, x)) ∈ E) ∧ rank E u < rank E e.1) e.1 e.2.1 e.2.2 := by
  induction h with
  | base => exact .inl he
  | @cons E t' tr' w' hb hn hj ih =>
    rcases List.mem_cons.1 he with rfl | he
    · right
      refine hmono _ _ ?_ _ _ _ hj
      rintro u x ⟨tr, hu⟩
      have hk := mem_keys_of hu
      dsimp only at hk
      refine ⟨⟨tr, List.mem_cons_of_mem _ hu⟩, ?_⟩
      have hne : t' ≠ u := by rintro rfl; exact hn hk
      simp only [rank, hne, if_false, if_true]
      exact rank_lt hk
    · have hrank : ∀ u ∈ keys E, rank ((t', ((tr', w') : Ann T)) :: E) u = rank E u := by
        intro u hu
        have hne : t' ≠ u := by rintro rfl; exact hn hu
        simp [rank, hne]
      rcases ih he with h1 | h1
      · exact .inl h1
      · right
        refine hmono _ _ ?_ _ _ _ h1
        rintro u x ⟨⟨tr, hu⟩, hr⟩
        refine ⟨⟨tr, List.mem_cons_of_mem _ hu⟩, ?_⟩
        rw [hrank u (mem_keys_of hu), hrank e.1 (mem_keys_of he)]
        exact hr

/-- The weight of a list of transitions. -/
def sumW [AddCommMonoid T] (a : Aut T) (l : List Tr) : T := (l.map fun t => (a.wt t).getD 0).sum

theorem sumW_cons [AddCommMonoid T] (a : Aut T) (t : Tr) (l : List Tr) : sumW a (t :: l) = (a.wt t).getD 0 + sumW a l := by
  simp [sumW]

theorem sumW_zero [AddCommMonoid T] (a : Aut T) (l : List Tr) (h : ∀ t ∈ l, a.wt t = some 0) : sumW a l = 0 := by
  induction l with
  | nil => rfl
  | cons t l ih =>
    rw [sumW_cons, h t (List.mem_cons_self ..), ih fun u hu => h u (List.mem_cons_of_mem _ hu)]
    simp

/-- The list holds annotations of the automaton. -/
def HoldsIn (L : List (AEdge T)) (a : Aut T) : Prop := ∀ e ∈ L, a.getEdge e.1 = some e.2

theorem HoldsIn.wt {L : List (AEdge T)} {a : Aut T} (h : HoldsIn L a) {u : Tr} {tr : Trace} {x : T} (hu : (u, (tr, x)) ∈ L) :
    a.wt u = some x := by
  unfold Aut.wt
  rw [h _ hu]
  rfl

theorem HoldsIn.self {a : Aut T} (h : (keys a.edges).Nodup) : HoldsIn a.edges a := by
  intro e he
  unfold Aut.getEdge
  have : a.edges.find? (fun u => u.1 == e.1) = some e := by
    obtain ⟨acc, E⟩ := a
    dsimp only at h he ⊢
    induction E with
    | nil => cases he
    | cons y E ih =>
      rw [keys, List.map_cons, List.nodup_cons] at h
      rcases List.mem_cons.1 he with rfl | he
      · simp
      · have hne : y.1 ≠ e.1 := fun hh => h.1 (hh ▸ mem_keys_of he)
        rw [List.find?_cons_of_neg (by simpa using hne)]
        exact ih h.2 he
  rw [this]
  rfl

theorem Aut.mem_of_wt {a : Aut T} {u : Tr} {x : T} (h : a.wt u = some x) : ∃ tr, (u, (tr, x)) ∈ a.edges := by
  unfold Aut.wt Aut.getEdge at h
  obtain ⟨ann, h1, h2⟩ := Option.map_eq_some_iff.1 h
  obtain ⟨e, h3, h4⟩ := Option.map_eq_some_iff.1 h1
  have h5 := List.mem_of_find?_eq_some h3
  have h6 := List.find?_some h3
  have h6 : e.1 = u := by simpa using h6
  obtain ⟨t, tr, y⟩ := e
  dsimp only at h4 h6
  subst h4 h6 h2
  exact ⟨tr, h5⟩

theorem HoldsIn.mem_keys {L : List (AEdge T)} {a : Aut T} (h : HoldsIn L a) {t : Tr} (ht : t ∈ keys L) : t ∈ keys a.edges := by
  obtain ⟨e, he, rfl⟩ := List.mem_map.1 ht
  have h1 := h e he
  by_contra hn
  have : a.getEdge e.1 = none := (getEdge_none_iff a e.1).2 hn
  rw [this] at h1
  cases h1

theorem HoldsIn.length {L : List (AEdge T)} {a : Aut T} (h : HoldsIn L a) (hn : (keys L).Nodup) : L.length ≤ a.edges.length := by
  have h1 : (keys L).length ≤ (keys a.edges).length := (List.subperm_of_subset hn fun t ht => h.mem_keys ht).length_le
  simpa [keys] using h1

/-! ## Justifications -/

section
variable [AddCommMonoid T]

/-- The reasons for a transition, its trace and its weight in shortest post*. -/
inductive PostJW (p : Pda W) (val : W → T) (qp : List ((Nat × Nat) × Nat)) (P : Tr → T → Prop) : Tr → Trace → T → Prop where
  | pop {a g q id : Nat} {r : Rule W} {l : Labels} {x : T} : (p.st a).rules[id]? = some (r, l) → g ∈ p.expand l → r.op = .pop →
      P ⟨a, g, q⟩ x → PostJW p val qp P ⟨r.to, epsilon, q⟩ (Trace.post a id g) (x + val r.weight)
  | swap {a g q id : Nat} {r : Rule W} {l : Labels} {x : T} : (p.st a).rules[id]? = some (r, l) → g ∈ p.expand l → r.op = .swap →
      P ⟨a, g, q⟩ x → PostJW p val qp P ⟨r.to, r.opLabel, q⟩ (Trace.post a id g) (x + val r.weight)
  | noop {a g q id : Nat} {r : Rule W} {l : Labels} {x : T} : (p.st a).rules[id]? = some (r, l) → g ∈ p.expand l → r.op = .noop →
      P ⟨a, g, q⟩ x → PostJW p val qp P ⟨r.to, g, q⟩ (Trace.post a id g) (x + val r.weight)
  | push1 {a g id : Nat} {r : Rule W} {l : Labels} : (p.st a).rules[id]? = some (r, l) → g ∈ p.expand l → r.op = .push →
      PostJW p val qp P ⟨r.to, r.opLabel, qFind qp (r.to, r.opLabel)⟩ (Trace.post a id g) 0
  | push2 {a g q id : Nat} {r : Rule W} {l : Labels} {x : T} : (p.st a).rules[id]? = some (r, l) → g ∈ p.expand l → r.op = .push →
      P ⟨a, g, q⟩ x → PostJW p val qp P ⟨qFind qp (r.to, r.opLabel), g, q⟩ (Trace.post a id g) (x + val r.weight)
  | eps {f m g q : Nat} {x y : T} : P ⟨f, epsilon, m⟩ x → P ⟨m, g, q⟩ y →
      PostJW p val qp P ⟨f, g, q⟩ (Trace.postEps m) (x + y)

theorem PostJW.mono (p : Pda W) (val : W → T) (qp : List ((Nat × Nat) × Nat)) (P Q : Tr → T → Prop) (h : ∀ t x, P t x → Q t x)
    (t : Tr) (tr : Trace) (w : T) (hj : PostJW p val qp P t tr w) : PostJW p val qp Q t tr w := by
  cases hj with
  | pop h1 h2 h3 h4 => exact .pop h1 h2 h3 (h _ _ h4)
  | swap h1 h2 h3 h4 => exact .swap h1 h2 h3 (h _ _ h4)
  | noop h1 h2 h3 h4 => exact .noop h1 h2 h3 (h _ _ h4)
  | push1 h1 h2 h3 => exact .push1 h1 h2 h3
  | push2 h1 h2 h3 h4 => exact .push2 h1 h2 h3 (h _ _ h4)
  | eps h1 h2 => exact .eps (h _ _ h1) (h _ _ h2)

/-- The reasons for a transition, its trace and its weight in shortest pre*. -/
inductive PreJW (p : Pda W) (val : W → T) (P : Tr → T → Prop) : Tr → Trace → T → Prop where
  | pop {a g id : Nat} {r : Rule W} {l : Labels} : (p.st a).rules[id]? = some (r, l) →
      g ∈ p.expand l → r.op = .pop → PreJW p val P ⟨a, g, r.to⟩ (Trace.pre id) (val r.weight)
  | swap {a g q id : Nat} {r : Rule W} {l : Labels} {x : T} : (p.st a).rules[id]? = some (r, l) →
      g ∈ p.expand l → r.op = .swap → P ⟨r.to, r.opLabel, q⟩ x → PreJW p val P ⟨a, g, q⟩ (Trace.pre id) (val r.weight + x)
  | noop {a g q id : Nat} {r : Rule W} {l : Labels} {x : T} : (p.st a).rules[id]? = some (r, l) →
      g ∈ p.expand l → r.op = .noop → P ⟨r.to, g, q⟩ x → PreJW p val P ⟨a, g, q⟩ (Trace.pre id) (val r.weight + x)
  | push {a g q m id : Nat} {r : Rule W} {l : Labels} {x y : T} : (p.st a).rules[id]? = some (r, l) →
      g ∈ p.expand l → r.op = .push → P ⟨r.to, r.opLabel, m⟩ x → P ⟨m, g, q⟩ y →
      PreJW p val P ⟨a, g, q⟩ (Trace.preTemp id m) (val r.weight + (x + y))

theorem PreJW.mono (p : Pda W) (val : W → T) (P Q : Tr → T → Prop) (h : ∀ t x, P t x → Q t x) (t : Tr) (tr : Trace) (w : T)
    (hj : PreJW p val P t tr w) : PreJW p val Q t tr w := by
  cases hj with
  | pop h1 h2 h3 => exact .pop h1 h2 h3
  | swap h1 h2 h3 h4 => exact .swap h1 h2 h3 (h _ _ h4)
  | noop h1 h2 h3 h4 => exact .noop h1 h2 h3 (h _ _ h4)
  | push h1 h2 h3 h4 h5 => exact .push h1 h2 h3 (h _ _ h4) (h _ _ h5)

end

/-! ## Runs -/

section
variable [AddCommMonoid T]

/-- A trail against the direction of the rules, with remaining weights. -/
theorem Trail.costTrace_rev {p : Pda W} {val : W → T} {c c' : Config × T} {rs : List (URule W)} {cs : List (Config × T)}
    (h : Trail (fun c r c' => ∃ w, Move (fun r => p.Has { r with weight := w }) c'.1 r c.1 ∧ c.2 = c'.2 + val w) c rs cs c') :
    ∃ x, CostTrace p.Has val ((c :: cs).map Prod.fst).reverse x ∧ c.2 = c'.2 + x ∧
      ((c :: cs).map Prod.fst).reverse.head? = some c'.1 := by
  have snoc : ∀ (l : List Config) (x : T), CostTrace p.Has val l x → ∀ (r : URule W) (w : List Nat), p.Has r →
      l.getLast? = some (r.src, r.pre :: w) →
      CostTrace p.Has val (l ++ [(r.dst, effect r.op r.pre r.opLabel w)]) (x + val r.weight) := by
    intro l x hl
    induction hl with
    | one c =>
      intro r w hr hlast
      simp only [List.getLast?_singleton, Option.some.injEq] at hlast
      subst hlast
      rw [zero_add, ← add_zero (val r.weight)]
      exact .cons r w [] 0 hr (.one _)
    | cons r1 w1 cs x hr1 _ ih =>
      intro r w hr hlast
      rw [List.getLast?_cons_cons] at hlast
      rw [add_assoc]
      exact .cons r1 w1 _ _ hr1 (ih r w hr hlast)
  induction h with
  | nil c => exact ⟨0, .one _, by rw [add_zero], rfl⟩
  | @cons c c1 c2 r rs cs hm _ ih =>
    obtain ⟨wt, ⟨w, hok, h1, h2⟩, h3⟩ := hm
    obtain ⟨x, h4, h5, h6⟩ := ih
    refine ⟨x + val wt, ?_, by rw [h3, h5, add_assoc], ?_⟩
    · rw [List.map_cons, List.reverse_cons, h2]
      refine snoc _ _ h4 { r with weight := wt } w hok ?_
      rw [List.getLast?_reverse]
      simp [h1]
    · rw [List.map_cons, List.reverse_cons, List.head?_append, h6]
      rfl

/-- A trail along the rules, with remaining weights. -/
theorem Trail.costTrace {p : Pda W} {val : W → T} {c c' : Config × T} {rs : List (URule W)} {cs : List (Config × T)}
    (h : Trail (fun c r c' => Move p.Has c.1 r c'.1 ∧ c.2 = val r.weight + c'.2) c rs cs c') :
    ∃ x, CostTrace p.Has val ((c :: cs).map Prod.fst) x ∧ c.2 = x + c'.2 ∧
      ((c :: cs).map Prod.fst).getLast? = some c'.1 := by
  induction h with
  | nil c => exact ⟨0, .one _, by rw [zero_add], rfl⟩
  | @cons c c1 c2 r rs cs hm _ ih =>
    obtain ⟨⟨w, hok, h1, h2⟩, h3⟩ := hm
    obtain ⟨x, h4, h5, h6⟩ := ih
    refine ⟨val r.weight + x, ?_, by rw [h3, h5, add_assoc], ?_⟩
    · rw [List.map_cons, List.map_cons, h1, h2]
      rw [List.map_cons, h2] at h4
      exact .cons r w _ _ hok h4
    · rw [List.map_cons, List.map_cons, List.getLast?_cons_cons]
      rw [List.map_cons] at h6
      exact h6

end

end Verif
