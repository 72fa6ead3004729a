import Verif.Proofs.FixedHistory
import Verif.Proofs.BuiltW
import Verif.Model.FixedProduct
import Verif.Spec.ShortestPath
import Verif.Props.TraceBack
import Mathlib.Order.WellFounded

/-!
# Fixed-point saturation: the last traces

The second trace of a transition says how its weight was computed last. If no weight can be pumped below itself, following
these traces cannot lead back to the transition they started from.
-/

namespace Verif

variable {T X : Type}

theorem mem_of_getEdge {a : Aut T} {t : Tr} {x : Ann T} (h : a.getEdge t = some x) : (t, x) ∈ a.edges := by
  unfold Aut.getEdge at h
  rw [Option.map_eq_some_iff] at h
  obtain ⟨⟨u, y⟩, h1, rfl⟩ := h
  have h2 := List.find?_some h1
  have h3 : u = t := by simpa using h2
  subst h3
  exact List.mem_of_find?_eq_some h1

section
variable [LinearOrder T] [AddCommMonoid T]

/-- What is needed of the reasons `J` for a transition with a trace and a weight, in terms of the weights `D` that can
be derived. -/
structure JOK (D : Tr → T → Prop) (J : (Tr → T → Prop) → Tr → Trace → T → Prop) : Prop where
  lower : ∀ (P Q : Tr → T → Prop), (∀ u x, P u x → ∃ x', x' ≤ x ∧ Q u x') → ∀ t tr w, J P t tr w → ∃ w', w' ≤ w ∧ J Q t tr w'
  split : ∀ (P : Tr → T → Prop), (∀ u x, P u x → D u x) → ∀ t tr w, J P t tr w → ∃ L : List (Tr × T),
    J (fun u x => (u, x) ∈ L) t tr w ∧ ∀ u x, (u, x) ∈ L → P u x ∧ ∃ c, c + x = w ∧ ∀ y, D u y → D t (c + y)
  mono : ∀ (P Q : Tr → T → Prop), (∀ u x, P u x → Q u x) → ∀ t tr w, J P t tr w → J Q t tr w

/-- The traces are in order: `prem t v` holds for the transitions `v` that the trace of `t` refers to, and `I` for the
transitions of the input. -/
structure TrOK (D : Tr → T → Prop) (J : (Tr → T → Prop) → Tr → Trace → T → Prop) (I : Tr → Prop) (s : FixSt T X)
    (prem : Tr → Tr → Prop) : Prop where
  sound : ∀ t x, s.wt t = some x → D t x
  why : ∀ t tr1 tr2 w, s.aut.getEdge t = some (tr1, tr2, w) → (I t ∧ tr2 = Trace.null ∧ w = 0) ∨
    ∃ w', w' ≤ w ∧ J (fun u x => prem t u ∧ s.wt u = some x) t tr2 w'
  link : ∀ t v, prem t v → ∃ c a b, s.wt t = some a ∧ s.wt v = some b ∧ c + b ≤ a ∧ ∀ y, D v y → D t (c + y)
  acyc : ∀ t, ¬ Relation.TransGen prem t t

/-- There are such premises. -/
def Traced (D : Tr → T → Prop) (J : (Tr → T → Prop) → Tr → Trace → T → Prop) (I : Tr → Prop) (s : FixSt T X) : Prop :=
  ∃ prem, TrOK D J I s prem

variable {D : Tr → T → Prop} {J : (Tr → T → Prop) → Tr → Trace → T → Prop} {I : Tr → Prop}

omit [AddCommMonoid T] in
theorem FixSt.wt_eq_of_getEdge {s s' : FixSt T X} {t : Tr} (h : s'.aut.getEdge t = s.aut.getEdge t) : s'.wt t = s.wt t := by
  unfold FixSt.wt; rw [h]

/-- Only the transitions matter. -/
theorem Traced.congr {Y : Type} {s : FixSt T X} {s' : FixSt T Y} (h : Traced D J I s) (h1 : s'.aut.edges = s.aut.edges) :
    Traced D J I s' := by
  obtain ⟨prem, h⟩ := h
  have hg : ∀ t, s'.aut.getEdge t = s.aut.getEdge t := fun t => by unfold Aut.getEdge; rw [h1]
  have hw : ∀ t, s'.wt t = s.wt t := fun t => by unfold FixSt.wt; rw [hg]
  refine ⟨prem, ?_, ?_, ?_, h.acyc⟩
  · simp only [hw]; exact h.sound
  · simp only [hw, hg]; exact h.why
  · simp only [hw]; exact h.link

/-- At the start. -/
theorem Traced.start {s : FixSt T X} (h : ∀ t tr1 tr2 w, s.aut.getEdge t = some (tr1, tr2, w) → I t ∧ tr2 = Trace.null ∧ w = 0)
    (hD : ∀ t, I t → D t 0) : Traced D J I s := by
  refine ⟨fun _ _ => False, ?_, fun t tr1 tr2 w hg => .inl (h t tr1 tr2 w hg), fun _ _ hf => hf.elim, ?_⟩
  · intro t x hx
    unfold FixSt.wt at hx
    rw [Option.map_eq_some_iff] at hx
    obtain ⟨⟨tr1, tr2, w⟩, hg, rfl⟩ := hx
    obtain ⟨h1, _, h2⟩ := h t _ _ _ hg
    rw [h2]; exact hD t h1
  · intro t ht
    cases ht with
    | single h => exact h
    | tail _ h => exact h

end

section
variable [LinearOrder T] [OrderBot T]

/-- What `update_edge` changes in the first phase. -/
theorem fixUpdate_ann (ins : X → Tr → X) (q : Tr → Bool) (s : FixSt T X) (t : Tr) (w : T) (tr : Trace) :
    (fixUpdate ins q false s t w tr).1 = s ∨
    ((∀ y, s.wt t = some y → w < y) ∧ ∃ tr1, ∀ u,
      (fixUpdate ins q false s t w tr).1.aut.getEdge u = if u = t then some (tr1, tr, w) else s.aut.getEdge u) := by
  unfold fixUpdate
  split
  · rename_i h0
    right
    simp only [Bool.false_eq_true, if_false]
    refine ⟨?_, tr, fun u => getEdge_emplace _ _ _ _ h0⟩
    intro y hy
    exact absurd (s.wt_some hy) ((getEdge_none_iff _ _).1 h0)
  · rename_i tr1 tr2 y h0
    have hy : s.wt t = some y := by show Option.map _ _ = _; rw [h0]; rfl
    have hk : t ∈ keys s.aut.edges := s.wt_some hy
    split
    · rename_i hlt
      right
      simp only [Bool.false_eq_true, if_false]
      refine ⟨?_, tr1, fun u => getEdge_set _ _ _ _ hk⟩
      intro y' hy'
      rw [hy] at hy'; cases hy'; exact hlt
    · exact .inl rfl

end

section
variable [LinearOrder T] [AddCommMonoid T] [IsOrderedAddMonoid T]
variable {D : Tr → T → Prop} {J : (Tr → T → Prop) → Tr → Trace → T → Prop} {I : Tr → Prop}

theorem TrOK.path {s : FixSt T X} {prem : Tr → Tr → Prop} (h : TrOK D J I s prem) {v t : Tr}
    (hp : Relation.ReflTransGen prem v t) {b : T} (hb : s.wt v = some b) :
    ∃ x a, s.wt t = some a ∧ x + a ≤ b ∧ ∀ y, D t y → D v (x + y) := by
  induction hp with
  | refl => exact ⟨0, b, hb, by rw [zero_add], fun y hy => by rwa [zero_add]⟩
  | tail _ hstep ih =>
    obtain ⟨x, a, h1, h2, h3⟩ := ih
    obtain ⟨x', a1, b1, k1, k2, k3, k4⟩ := h.link _ _ hstep
    rw [h1] at k1
    cases k1
    refine ⟨x + x', b1, k2, ?_, fun y hy => ?_⟩
    · rw [add_assoc]
      exact le_trans (add_le_add le_rfl k3) h2
    · rw [add_assoc]
      exact h3 _ (k4 _ hy)

variable [OrderBot T]

/-- An update keeps the traces in order. -/
theorem Traced.update (hJ : JOK D J) (hB : NoPump D) {s : FixSt T X} (h : Traced D J I s) (ins : X → Tr → X) (q : Tr → Bool)
    {t : Tr} {w : T} {tr : Trace} (hD : D t w) (hj : J (fun u x => D u x ∧ s.Bound u x) t tr w) :
    Traced D J I (fixUpdate ins q false s t w tr).1 := by
  obtain ⟨prem, h⟩ := h
  rcases fixUpdate_ann ins q s t w tr with he | ⟨h1, tr1, h2⟩
  · rw [he]; exact ⟨prem, h⟩
  generalize (fixUpdate ins q false s t w tr).1 = s' at *
  obtain ⟨L, hL1, hL2⟩ := hJ.split _ (fun u x hx => hx.1) t tr w hj
  have hwt : ∀ u, s'.wt u = if u = t then some w else s.wt u := by
    intro u
    unfold FixSt.wt
    rw [h2]
    split <;> rfl
  have hdown : ∀ u x, s.wt u = some x → ∃ x', x' ≤ x ∧ s'.wt u = some x' := by
    intro u x hx
    rw [hwt]
    by_cases hu : u = t
    · rw [if_pos hu]
      subst hu
      exact ⟨w, le_of_lt (h1 x hx), rfl⟩
    · rw [if_neg hu]
      exact ⟨x, le_rfl, hx⟩
  have hmemL : ∀ u x, (u, x) ∈ L → ∃ x', x' ≤ x ∧ s'.wt u = some x' := by
    intro u x hx
    obtain ⟨y, hy1, hy2⟩ := (hL2 u x hx).1.2
    obtain ⟨x', k1, k2⟩ := hdown u y hy1
    exact ⟨x', le_trans k1 hy2, k2⟩
  classical
  refine ⟨fun u v => if u = t then ∃ x, (v, x) ∈ L else prem u v, ?_, ?_, ?_, ?_⟩
  · intro u x hx
    rw [hwt] at hx
    split at hx
    · rename_i hu
      cases hx
      rw [hu]; exact hD
    · exact h.sound u x hx
  · intro u a1 a2 x hx
    rw [h2] at hx
    by_cases hu : u = t
    · subst hu
      rw [if_pos rfl] at hx
      cases hx
      right
      simp only [if_true]
      exact hJ.lower _ _ (fun v x hv => by
        obtain ⟨x', k1, k2⟩ := hmemL v x hv
        exact ⟨x', k1, ⟨x, hv⟩, k2⟩) _ _ _ hL1
    · rw [if_neg hu] at hx
      rcases h.why u a1 a2 x hx with hw | ⟨w', k1, k2⟩
      · exact .inl hw
      · right
        simp only [if_neg hu]
        obtain ⟨w'', k3, k4⟩ := hJ.lower _ (fun v y => prem u v ∧ s'.wt v = some y) (fun v x hv => by
          obtain ⟨x', m1, m2⟩ := hdown v x hv.2
          exact ⟨x', m1, hv.1, m2⟩) _ _ _ k2
        exact ⟨w'', le_trans k3 k1, k4⟩
  · intro u v hv
    split at hv
    · rename_i hu
      subst hu
      obtain ⟨x, hx⟩ := hv
      obtain ⟨_, c, k1, k2⟩ := hL2 v x hx
      obtain ⟨b, k3, k4⟩ := hmemL v x hx
      exact ⟨c, w, b, by rw [hwt, if_pos rfl], k4, le_trans (add_le_add le_rfl k3) (le_of_eq k1), k2⟩
    · rename_i hu
      obtain ⟨c, a, b, k1, k2, k3, k4⟩ := h.link u v hv
      obtain ⟨b', k5, k6⟩ := hdown v b k2
      exact ⟨c, a, b', by rw [hwt, if_neg hu]; exact k1, k6, le_trans (add_le_add le_rfl k5) k3, k4⟩
  · -- a cycle would be a way to pump
    have reach : ∀ a b, Relation.TransGen (fun u v => if u = t then ∃ x, (v, x) ∈ L else prem u v) a b →
        Relation.TransGen prem a b ∨
        Relation.ReflTransGen prem a t ∧ ∃ v x, (v, x) ∈ L ∧ Relation.ReflTransGen prem v b := by
      intro a b hab
      induction hab with
      | single hst =>
        split at hst
        · rename_i hu
          obtain ⟨x, hx⟩ := hst
          subst hu
          exact .inr ⟨.refl, _, x, hx, .refl⟩
        · exact .inl (.single hst)
      | tail _ hst ih =>
        split at hst
        · rename_i hu
          obtain ⟨x, hx⟩ := hst
          subst hu
          rcases ih with ih | ⟨ih, _⟩
          · exact .inr ⟨ih.to_reflTransGen, _, x, hx, .refl⟩
          · exact .inr ⟨ih, _, x, hx, .refl⟩
        · rcases ih with ih | ⟨ih, v, y, hv, ihv⟩
          · exact .inl (ih.tail hst)
          · exact .inr ⟨ih, v, y, hv, ihv.tail hst⟩
    intro u hu
    rcases reach u u hu with hu | ⟨k1, v, x, hv, k2⟩
    · exact h.acyc u hu
    · obtain ⟨⟨_, b, m1, m0⟩, c, m2, m3⟩ := hL2 v x hv
      obtain ⟨x', a, n1, n2, n3⟩ := h.path (k2.trans k1) m1
      have hlt := h1 a n1
      have h0 := hB t a (c + x') (h.sound t a n1) (fun y hy => by rw [add_assoc]; exact m3 _ (n3 y hy))
      have h6 : c + (x' + a) ≤ w := le_trans (add_le_add le_rfl (le_trans n2 m0)) (le_of_eq m2)
      rw [← add_assoc] at h6
      have h7 : 0 + a ≤ c + x' + a := add_le_add h0 le_rfl
      rw [zero_add] at h7
      exact absurd (lt_of_lt_of_le hlt (le_trans h7 h6)) (lt_irrefl _)

end

/-! ## The order of the traces -/

section
variable [LinearOrder T] [AddCommMonoid T]
variable {D : Tr → T → Prop} {J : (Tr → T → Prop) → Tr → Trace → T → Prop} {I : Tr → Prop}

/-- When nothing is left to improve, the transitions can be ordered such that every transition comes after those that its
trace refers to, and its weight is exactly the one that the trace gives. -/
theorem Traced.built (hJ : JOK D J) {s : FixSt T X} (h : Traced D J I s)
    (hcl : ∀ t tr w x, J (fun u x => s.wt u = some x) t tr w → s.wt t = some x → x ≤ w) :
    ∃ E0 L : List (AEdge T), BuiltW J E0 L ∧ (keys E0).Nodup ∧ (∀ e ∈ E0, I e.1 ∧ e.2.1 = Trace.null ∧ e.2.2 = 0) ∧
      (∀ e ∈ L, ∃ tr1, s.aut.getEdge e.1 = some (tr1, e.2.1, e.2.2)) ∧ ∀ t ∈ keys s.aut.edges, t ∈ keys L := by
  obtain ⟨prem, h⟩ := h
  have hget : ∀ t ∈ keys s.aut.edges, ∃ tr1 tr2 w, s.aut.getEdge t = some (tr1, tr2, w) := by
    intro t ht
    rcases hg : s.aut.getEdge t with _ | ⟨tr1, tr2, w⟩
    · exact absurd ht ((getEdge_none_iff _ _).1 hg)
    · exact ⟨tr1, tr2, w, rfl⟩
  have hmem : ∀ {t ann}, s.aut.getEdge t = some ann → t ∈ keys s.aut.edges := by
    intro t ann hg
    by_contra hc
    rw [(getEdge_none_iff _ _).2 hc] at hg; cases hg
  let K := { t : Tr // t ∈ keys s.aut.edges }
  let r : K → K → Prop := fun a b => Relation.TransGen prem b.1 a.1
  haveI : Finite K := inferInstanceAs (Finite { t : Tr // t ∈ keys s.aut.edges })
  haveI : IsTrans K r := ⟨fun a b c h1 h2 => h2.trans h1⟩
  haveI : Std.Irrefl r := ⟨fun a h1 => h.acyc _ h1⟩
  have wf : WellFounded r := Finite.wellFounded_of_trans_of_irrefl r
  have main : ∀ n (E L : List (AEdge T)), BuiltW J E L → (∀ e ∈ E, I e.1 ∧ e.2.1 = Trace.null ∧ e.2.2 = 0) →
      (∀ e ∈ L, ∃ tr1, s.aut.getEdge e.1 = some (tr1, e.2.1, e.2.2)) → (keys L).Nodup →
      (∀ t tr1 tr2 w, s.aut.getEdge t = some (tr1, tr2, w) → I t ∧ tr2 = Trace.null ∧ w = 0 → t ∈ keys E) →
      s.aut.edges.length ≤ L.length + n →
      ∃ L' : List (AEdge T), BuiltW J E L' ∧ (∀ e ∈ L', ∃ tr1, s.aut.getEdge e.1 = some (tr1, e.2.1, e.2.2)) ∧
        ∀ t ∈ keys s.aut.edges, t ∈ keys L' := by
    intro n
    induction n with
    | zero =>
      intro E L hb hE hL hnd hE0 hn
      refine ⟨L, hb, hL, ?_⟩
      have hsub : keys L ⊆ keys s.aut.edges := by
        intro t ht
        obtain ⟨e, he, rfl⟩ := List.mem_map.1 ht
        obtain ⟨tr1, hg⟩ := hL e he
        exact hmem hg
      have hperm : (keys L).Perm (keys s.aut.edges) := by
        refine List.Subperm.perm_of_length_le (hnd.subperm hsub) ?_
        unfold keys
        rw [List.length_map, List.length_map]
        omega
      exact fun t ht => hperm.mem_iff.2 ht
    | succ n ih =>
      intro E L hb hE hL hnd hE0 hn
      by_cases hall : ∀ t ∈ keys s.aut.edges, t ∈ keys L
      · exact ⟨L, hb, hL, hall⟩
      · have hex : ∃ t : K, t.1 ∉ keys L := by
          by_contra hc
          refine hall fun t ht => ?_
          by_contra hn
          exact hc ⟨⟨t, ht⟩, hn⟩
        obtain ⟨⟨t, ht⟩, htL, hmin⟩ := wf.has_min { t : K | t.1 ∉ keys L } hex
        obtain ⟨tr1, tr2, w, hg⟩ := hget t ht
        have hpremL : ∀ u, prem t u → u ∈ keys L := by
          intro u hu
          obtain ⟨c, a, b, _, k2, _⟩ := h.link t u hu
          by_contra hc
          exact hmin ⟨u, s.wt_some k2⟩ hc (.single hu)
        rcases h.why t tr1 tr2 w hg with hi | ⟨w', k1, k2⟩
        · exact absurd (by
            have := hE0 t tr1 tr2 w hg hi
            obtain ⟨e, he, rfl⟩ := List.mem_map.1 this
            exact List.mem_map_of_mem (hb.suffix.subset he)) htL
        · have hwt : s.wt t = some w := by unfold FixSt.wt; rw [hg]; rfl
          have hle := hcl t tr2 w' w (hJ.mono _ _ (fun u x hx => hx.2) _ _ _ k2) hwt
          have heq : w' = w := le_antisymm k1 hle
          subst heq
          refine ih E ((t, tr2, w') :: L) (.cons hb htL (hJ.mono _ _ ?_ _ _ _ k2)) hE ?_ (List.nodup_cons.2 ⟨htL, hnd⟩) hE0
            (by rw [List.length_cons]; omega)
          · rintro u x ⟨hu, hx⟩
            obtain ⟨⟨u', tr, y⟩, he, rfl⟩ := List.mem_map.1 (hpremL u hu)
            obtain ⟨tr1', hg'⟩ := hL _ he
            unfold FixSt.wt at hx
            dsimp only at hg' hx
            rw [hg'] at hx
            cases hx
            exact ⟨tr, he⟩
          · intro e he
            rcases List.mem_cons.1 he with rfl | he
            · exact ⟨tr1, hg⟩
            · exact hL e he
  have hbase : ∀ l : List Tr, ∃ E0 : List (AEdge T), (keys E0).Nodup ∧ (∀ e ∈ E0, I e.1 ∧ e.2.1 = Trace.null ∧ e.2.2 = 0) ∧
      (∀ e ∈ E0, ∃ tr1, s.aut.getEdge e.1 = some (tr1, e.2.1, e.2.2)) ∧
      ∀ t ∈ l, ∀ tr1 tr2 w, s.aut.getEdge t = some (tr1, tr2, w) → I t ∧ tr2 = Trace.null ∧ w = 0 → t ∈ keys E0 := by
    intro l
    induction l with
    | nil => exact ⟨[], List.nodup_nil, (fun _ he => by cases he), (fun _ he => by cases he), (fun _ ht => by cases ht)⟩
    | cons t l ih =>
      obtain ⟨E0, h1, h2, h3, h4⟩ := ih
      by_cases hc : t ∉ keys E0 ∧ ∃ tr1 tr2 w, s.aut.getEdge t = some (tr1, tr2, w) ∧ I t ∧ tr2 = Trace.null ∧ w = 0
      · obtain ⟨hn, tr1, tr2, w, hg, hi⟩ := hc
        refine ⟨(t, tr2, w) :: E0, List.nodup_cons.2 ⟨hn, h1⟩, ?_, ?_, ?_⟩
        · intro e he
          rcases List.mem_cons.1 he with rfl | he
          · exact hi
          · exact h2 e he
        · intro e he
          rcases List.mem_cons.1 he with rfl | he
          · exact ⟨tr1, hg⟩
          · exact h3 e he
        · intro u hu a b w' hg' hi'
          rcases List.mem_cons.1 hu with rfl | hu
          · exact List.mem_cons_self ..
          · exact List.mem_cons_of_mem _ (h4 u hu a b w' hg' hi')
      · refine ⟨E0, h1, h2, h3, ?_⟩
        intro u hu a b w' hg' hi'
        rcases List.mem_cons.1 hu with rfl | hu
        · by_contra hn
          exact hc ⟨hn, a, b, w', hg', hi'⟩
        · exact h4 u hu a b w' hg' hi'
  obtain ⟨E0, h1, h2, h3, h4⟩ := hbase (keys s.aut.edges)
  obtain ⟨L, k1, k2, k3⟩ := main s.aut.edges.length E0 E0 .base h2 h3 h1
    (fun t tr1 tr2 w hg hi => h4 t (hmem hg) tr1 tr2 w hg hi) (by omega)
  exact ⟨E0, L, k1, h1, h2, k2, k3⟩

end

/-! ## The last traces as annotations -/

theorem getEdge_last (a : Aut (Trace × T)) (t : Tr) : a.lastTraces.getEdge t = (a.getEdge t).map Prod.snd := by
  unfold Aut.getEdge Aut.lastTraces
  dsimp only
  rw [List.find?_map, Option.map_map, Option.map_map]
  rfl

theorem keys_last (a : Aut (Trace × T)) : keys a.lastTraces.edges = keys a.edges := by
  unfold keys Aut.lastTraces
  dsimp only
  rw [List.map_map]
  rfl

theorem holds_last {a : Aut (Trace × T)} {L : List (AEdge T)}
    (h : ∀ e ∈ L, ∃ tr1, a.getEdge e.1 = some (tr1, e.2.1, e.2.2)) : HoldsIn L a.lastTraces := by
  intro e he
  obtain ⟨tr1, h1⟩ := h e he
  rw [getEdge_last, h1]
  rfl

/-- The fuel suffices if there are no more transitions in the order than in the automaton. -/
theorem fuel_last {a : Aut (Trace × T)} {L : List (AEdge T)} (hn : (keys L).Nodup)
    (h : ∀ e ∈ L, ∃ tr1, a.getEdge e.1 = some (tr1, e.2.1, e.2.2)) {path : APath Nat} (hp : ∀ t ∈ path.trs, t ∈ keys L) :
    pathMeasure L path.trs < tbFuel a.lastTraces path := by
  have h1 := pathMeasure_le L path.trs hp
  have hlen : L.length ≤ a.edges.length := by
    have hsub : keys L ⊆ keys a.edges := by
      intro t ht
      obtain ⟨e, he, rfl⟩ := List.mem_map.1 ht
      obtain ⟨tr1, hg⟩ := h e he
      exact List.mem_map_of_mem (mem_of_getEdge hg)
    have := (hn.subperm hsub).length_le
    unfold keys at this
    rwa [List.length_map, List.length_map] at this
  have h2 : 3 ^ L.length ≤ 3 ^ a.edges.length := Nat.pow_le_pow_right (by decide) hlen
  have h3 := Nat.mul_le_mul_left path.edges.length h2
  unfold tbFuel
  rw [APath.trs, trs_length] at h1
  rw [APath.trs]
  have h4 : a.lastTraces.edges.length = a.edges.length := List.length_map ..
  rw [h4]
  omega

/-- The weight of a path is the sum of the weights of its transitions. -/
theorem spells_last [AddCommMonoid T] {a : Aut (Trace × T)} {w : T} (path : APath Nat)
    (h : CostSpells (fun t x => ∃ tr1 tr2, a.getEdge t = some (tr1, tr2, x)) path.states path.stack w) :
    (∀ t ∈ path.trs, t ∈ keys a.edges) ∧ sumW a.lastTraces path.trs = w := by
  rcases path with ⟨f, es⟩
  rw [APath.stack_eq] at h
  unfold APath.states at h
  unfold APath.trs
  dsimp only at *
  induction es generalizing w with
  | nil =>
    simp only [List.map_nil, CostSpells, List.nil_append] at h
    subst h
    exact ⟨fun _ ht => by simp [trs] at ht, rfl⟩
  | cons x es ih =>
    have h' : ∃ y z, (∃ tr1 tr2, a.getEdge ⟨x.2, x.1, APath.frontState ⟨f, es⟩⟩ = some (tr1, tr2, y)) ∧
        CostSpells (fun t x => ∃ tr1 tr2, a.getEdge t = some (tr1, tr2, x)) (es.map Prod.snd ++ [f]) (es.map Prod.fst) z ∧
        w = y + z := by
      cases es with
      | nil => simpa [CostSpells, APath.frontState] using h
      | cons y es => simpa [CostSpells, APath.frontState] using h
    obtain ⟨y, z, ⟨tr1, tr2, hg⟩, h2, rfl⟩ := h'
    obtain ⟨k1, k2⟩ := ih h2
    refine ⟨?_, ?_⟩
    · simp only [trs, List.forall_mem_cons]
      exact ⟨List.mem_map_of_mem (mem_of_getEdge hg), k1⟩
    · simp only [trs]
      rw [sumW_cons, k2]
      congr 1
      unfold Aut.wt
      rw [getEdge_last, hg]
      rfl

/-- The second phase changes no transition if nothing waits. -/
theorem fixFinalize_aut [LinearOrder T] [OrderBot T] (stepWith : Bool → FixSt T X → Tr → FixSt T X) {s r : FixSt T X}
    (hi : s.workset = [] ∧ s.next = []) {fuel : Nat} (hr : fixFinalize stepWith fuel s = some r) : r.aut = s.aut := by
  refine (whileSome_inv (I := fun r => r.aut = s.aut ∧ r.workset = [] ∧ r.next = []) ?_ ⟨rfl, hi⟩ hr).1.1
  rintro s1 s2 ⟨h1, h2, h3⟩ hst
  split at hst
  · cases hst
  · cases hst
    unfold fixStep
    rw [if_pos h2, if_pos h3]
    exact ⟨h1, h2, h3⟩

end Verif
