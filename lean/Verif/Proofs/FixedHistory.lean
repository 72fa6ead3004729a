import Verif.Proofs.FixedFinalize
import Mathlib.Algebra.Order.Monoid.Defs
import Mathlib.Logic.Relation
import Mathlib.Data.Fintype.Card
import Mathlib.Data.Fintype.Sets
import Mathlib.Data.Fintype.EquivFin
import Mathlib.Data.List.Perm.Subperm

/-!
# Fixed-point saturation: why the first phase does not stop too early

The first phase stops at the latest when the number of rounds reaches the number of transitions. If no weight can
be pumped below itself, nothing is left to do at that point. The proof keeps a history: for every transition the round
in which it was inserted and the round of its last change, for every state the round in which it could first be
reached, and for every transition some of the transitions that its weight was computed from.
-/

namespace Verif

variable {T X : Type}

/-- A history of the changes. `prem` lists transitions that the weight of a transition was computed from, each
with what was added to its weight. -/
structure Hist (T : Type) where
  ins : Tr → Nat
  chg : Tr → Nat
  born : Nat → Nat
  prem : Tr → List (Tr × T)

/-- `v` is one of the transitions that the weight of `t` was computed from. -/
def Hist.Prem (g : Hist T) (t v : Tr) : Prop := ∃ x, (v, x) ∈ g.prem t

/-- Why `t` could change in round `k`. -/
inductive Cause (cnt : Tr → Bool) (ch : Tr → Nat) (born : Nat → Nat) (P : Tr → Prop) (t : Tr) (k : Nat) : Prop where
  | start : k = 0 → Cause cnt ch born P t k
  | leaf : born t.dst = k → Cause cnt ch born P t k
  | same {v : Tr} : P v → v.dst = t.dst → k ≤ ch v + 1 → cnt v = true → Cause cnt ch born P t k
  | both {v e : Tr} : P v → P e → e.dst = t.dst → k ≤ ch v + 1 → cnt v = true → born v.dst ≤ ch e + 1 →
      (cnt e = true ∨ born v.dst = 0) → Cause cnt ch born P t k

theorem Cause.mono {cnt : Tr → Bool} {ch ch' : Tr → Nat} {born : Nat → Nat} {P P' : Tr → Prop} {t : Tr} {k : Nat}
    (h : Cause cnt ch born P t k) (hP : ∀ v, P v → P' v ∧ ch v ≤ ch' v) : Cause cnt ch' born P' t k := by
  cases h with
  | start h => exact .start h
  | leaf h => exact .leaf h
  | same h1 h2 h3 h4 => exact .same (hP _ h1).1 h2 (by have := (hP _ h1).2; omega) h4
  | both h1 h2 h3 h4 h5 h6 h7 =>
    have a := (hP _ h1).2
    have b := (hP _ h2).2
    exact .both (hP _ h1).1 (hP _ h2).1 h3 (by omega) h5 (by omega) h7

section
variable [LinearOrder T] [AddCommMonoid T]

/-- The history fits the state. `D` are the weights that can be derived and `cnt` the transitions that are counted. -/
structure HistOK (D : Tr → T → Prop) (cnt : Tr → Bool) (s : FixSt T X) (g : Hist T) : Prop where
  le : ∀ t ∈ keys s.aut.edges, g.born t.dst ≤ g.ins t ∧ g.ins t ≤ g.chg t ∧ g.chg t ≤ s.rounds
  none : ∀ t, t ∉ keys s.aut.edges → g.prem t = []
  prem : ∀ t v x, (v, x) ∈ g.prem t → (∃ a b, s.wt t = some a ∧ s.wt v = some b ∧ x + b ≤ a) ∧ ∀ y, D v y → D t (x + y)
  acyc : ∀ t, ¬ Relation.TransGen g.Prem t t
  cause : ∀ t ∈ keys s.aut.edges, Cause cnt g.chg g.born (g.Prem t) t (g.chg t)
  work : ∀ t ∈ s.workset, t ∈ keys s.aut.edges ∧ cnt t = true ∧ s.rounds ≤ g.chg t + 1
  next : ∀ t ∈ s.next, t ∈ keys s.aut.edges ∧ cnt t = true ∧ g.chg t = s.rounds
  past : ∀ j, j < s.rounds → ∃ t ∈ keys s.aut.edges, cnt t = true ∧ g.ins t ≤ j ∧ j ≤ g.chg t

/-- No weight can be pumped below itself. -/
def NoPump (D : Tr → T → Prop) : Prop := ∀ t x c, D t x → (∀ y, D t y → D t (c + y)) → 0 ≤ c

variable {D : Tr → T → Prop} {cnt : Tr → Bool}

theorem HistOK.mem {s : FixSt T X} {g : Hist T} (h : HistOK D cnt s g) {t v : Tr} (hp : g.Prem t v) :
    t ∈ keys s.aut.edges ∧ v ∈ keys s.aut.edges := by
  obtain ⟨x, hx⟩ := hp
  obtain ⟨⟨a, b, h1, h2, _⟩, _⟩ := h.prem t v x hx
  exact ⟨s.wt_some h1, s.wt_some h2⟩

/-- Only some members matter. -/
theorem HistOK.congr {s s' : FixSt T X} {g : Hist T} (h : HistOK D cnt s g) (h1 : s'.aut = s.aut)
    (h2 : s'.rounds = s.rounds) (h3 : s'.workset = s.workset) (h4 : s'.next = s.next) : HistOK D cnt s' g := by
  have hw : ∀ t, s'.wt t = s.wt t := fun t => by unfold FixSt.wt; rw [h1]
  refine ⟨?_, ?_, ?_, h.acyc, ?_, ?_, ?_, ?_⟩
  · rw [h1, h2]; exact h.le
  · rw [h1]; exact h.none
  · simp only [hw]; exact h.prem
  · rw [h1]; exact h.cause
  · rw [h1, h2, h3]; exact h.work
  · rw [h1, h2, h4]; exact h.next
  · rw [h1, h2]; exact h.past

/-- A state that no transition leads into can be born now. -/
theorem HistOK.birth {s : FixSt T X} {g : Hist T} (h : HistOK D cnt s g) {q : Nat}
    (hq : ∀ t ∈ keys s.aut.edges, t.dst ≠ q) (k : Nat) :
    HistOK D cnt s { g with born := fun f => if f = q then k else g.born f } := by
  refine ⟨?_, h.none, h.prem, h.acyc, ?_, h.work, h.next, h.past⟩
  · intro t ht
    have := h.le t ht
    simpa only [if_neg (hq t ht)] using this
  · intro t ht
    have := h.cause t ht
    dsimp only
    cases this with
    | start h => exact .start h
    | leaf h => exact .leaf (by simpa only [if_neg (hq t ht)] using h)
    | same h1 h2 h3 h4 => exact .same h1 h2 h3 h4
    | both h1 h2 h3 h4 h5 h6 h7 =>
      have hv := hq _ (h.mem h1).2
      exact .both h1 h2 h3 h4 h5 (by simpa only [if_neg hv] using h6) (by simpa only [if_neg hv] using h7)

/-- In a round without change nothing could have changed later. -/
theorem HistOK.gapless {s : FixSt T X} {g : Hist T} (h : HistOK D cnt s g) {j : Nat} (hj : j < s.rounds) :
    ∃ t ∈ keys s.aut.edges, cnt t = true ∧ g.chg t = j := by
  by_contra hno
  have hno : ∀ t ∈ keys s.aut.edges, cnt t = true → g.chg t ≠ j := fun t h1 h2 h3 => hno ⟨t, h1, h2, h3⟩
  let K := { t : Tr // t ∈ keys s.aut.edges }
  let r : K → K → Prop := fun a b => Relation.TransGen g.Prem b.1 a.1
  haveI : Finite K := inferInstanceAs (Finite { t : Tr // t ∈ keys s.aut.edges })
  haveI : IsTrans K r := ⟨fun a b c h1 h2 => h2.trans h1⟩
  haveI : Std.Irrefl r := ⟨fun a h1 => h.acyc _ h1⟩
  have wf : WellFounded r := Finite.wellFounded_of_trans_of_irrefl r
  have key : ∀ t : K, j < g.chg t.1 → g.born t.1.dst ≤ j → False := by
    intro t
    induction t using wf.induction with
    | h t ih =>
      intro h1 h2
      cases h.cause t.1 t.2 with
      | start h => omega
      | leaf h => omega
      | @same v hp hd hk hc =>
        have hv := (h.mem hp).2
        have := hno v hv hc
        exact ih ⟨v, hv⟩ (.single hp) (by show j < g.chg v; omega) (by show g.born v.dst ≤ j; rw [hd]; exact h2)
      | @both v e hp he hd hk hc hb hce =>
        have hv := (h.mem hp).2
        have he' := (h.mem he).2
        have := hno v hv hc
        by_cases hj' : j < g.chg e
        · exact ih ⟨e, he'⟩ (.single he) hj' (by show g.born e.dst ≤ j; rw [hd]; exact h2)
        · refine ih ⟨v, hv⟩ (.single hp) (by show j < g.chg v; omega) ?_
          show g.born v.dst ≤ j
          rcases hce with hce | hce
          · have := hno e he' hce
            omega
          · omega
  obtain ⟨t, ht, hc, h1, h2⟩ := h.past j hj
  have h3 := h.le t ht
  have h4 := hno t ht hc
  exact key ⟨t, ht⟩ (by show j < g.chg t; omega) (by show g.born t.dst ≤ j; omega)

/-- If as many rounds have passed as there are counted transitions, then nothing is waiting besides the
transition that is processed. -/
theorem HistOK.exit {s : FixSt T X} {g : Hist T} (h : HistOK D cnt s g) (hn : (keys s.aut.edges).Nodup)
    (hc : ((keys s.aut.edges).filter cnt).length = s.rounds) {t : Tr} (ht : t ∈ keys s.aut.edges) (htc : cnt t = true)
    (htk : s.rounds ≤ g.chg t + 1) (htw : t ∉ s.workset) : s.workset = [] ∧ s.next = [] := by
  have hnd : ((keys s.aut.edges).filter cnt).Nodup := hn.filter _
  have mem : ∀ u, u ∈ keys s.aut.edges → cnt u = true → u ∈ (keys s.aut.edges).filter cnt :=
    fun u h1 h2 => List.mem_filter.2 ⟨h1, h2⟩
  generalize (keys s.aut.edges).filter cnt = l at *
  have sub : ∀ n (l' : List Tr), (∀ j, j < n → ∃ u ∈ l', g.chg u = j) → n ≤ l'.length := by
    intro n l' hl
    have : (List.range n).Subperm (l'.map g.chg) :=
      List.nodup_range.subperm (fun j hj => by
        obtain ⟨u, h1, h2⟩ := hl j (List.mem_range.1 hj)
        exact List.mem_map.2 ⟨u, h1, h2⟩)
    have := this.length_le
    simpa using this
  have top : ∀ u, u ∈ keys s.aut.edges → cnt u = true → g.chg u ≠ s.rounds := by
    intro u h1 h2 h3
    have := sub (s.rounds + 1) l (fun j hj => by
      by_cases hjr : j < s.rounds
      · obtain ⟨v, hv1, hv2, hv3⟩ := h.gapless hjr
        exact ⟨v, mem v hv1 hv2, hv3⟩
      · exact ⟨u, mem u h1 h2, by omega⟩)
    omega
  constructor
  · rw [List.eq_nil_iff_forall_not_mem]
    intro w hw
    obtain ⟨h1, h2, h3⟩ := h.work w hw
    have e1 := top w h1 h2
    have e2 := top t ht htc
    have e3 := (h.le w h1).2.2
    have e4 := (h.le t ht).2.2
    have hne : w ≠ t := fun hc => htw (hc ▸ hw)
    have := sub s.rounds (l.erase t) (fun j hj => by
      obtain ⟨v, hv1, hv2, hv3⟩ := h.gapless hj
      by_cases hv : v = t
      · exact ⟨w, (hnd.mem_erase_iff).2 ⟨hne, mem w h1 h2⟩, by subst hv; omega⟩
      · exact ⟨v, (hnd.mem_erase_iff).2 ⟨hv, mem v hv1 hv2⟩, hv3⟩)
    rw [List.length_erase_of_mem (mem t ht htc)] at this
    have := List.length_pos_of_mem (mem t ht htc)
    omega
  · rw [List.eq_nil_iff_forall_not_mem]
    intro w hw
    obtain ⟨h1, h2, h3⟩ := h.next w hw
    exact top w h1 h2 h3

end

/-! ## Updates -/

section
variable [LinearOrder T] [OrderBot T]

/-- What `update_edge` changes in the first phase. -/
theorem fixUpdate_changes (ins : X → Tr → X) (q : Tr → Bool) (s : FixSt T X) (t : Tr) (w : T) (tr : Trace) :
    (fixUpdate ins q false s t w tr).1 = s ∨
    ((∀ y, s.wt t = some y → w < y) ∧
      (∀ u, (fixUpdate ins q false s t w tr).1.wt u = if u = t then some w else s.wt u) ∧
      (∀ u, u ∈ keys (fixUpdate ins q false s t w tr).1.aut.edges ↔ u = t ∨ u ∈ keys s.aut.edges) ∧
      (∀ u ∈ (fixUpdate ins q false s t w tr).1.next, u ∈ s.next ∨ u = t ∧ q t = true) ∧
      (fixUpdate ins q false s t w tr).1.rounds = s.rounds ∧
      (fixUpdate ins q false s t w tr).1.workset = s.workset) := by
  have hqueue : ∀ u, u ∈ (if q t = true then s.next ++ [t] else s.next) → u ∈ s.next ∨ u = t ∧ q t = true := by
    intro u hu
    split at hu
    · rename_i hq
      rcases List.mem_append.1 hu with h | h
      · exact .inl h
      · exact .inr ⟨List.mem_singleton.1 h, hq⟩
    · exact .inl hu
  unfold fixUpdate
  split
  · rename_i h0
    right
    simp only [Bool.false_eq_true, if_false]
    refine ⟨?_, fun u => wt_emplace h0 rfl u, ?_, hqueue, by trivial, by trivial⟩
    · intro y hy
      exact absurd (s.wt_some hy) ((getEdge_none_iff _ _).1 h0)
    · intro u
      unfold keys
      rw [keys_emplace _ _ _ h0, List.map_cons, List.mem_cons]
  · rename_i tr1 tr2 y h0
    have hy : s.wt t = some y := by show Option.map _ _ = _; rw [h0]; rfl
    have hk : t ∈ keys s.aut.edges := s.wt_some hy
    split
    · rename_i hlt
      right
      simp only [Bool.false_eq_true, if_false]
      refine ⟨?_, fun u => wt_set hk rfl u, ?_, hqueue, by trivial, by trivial⟩
      · intro y' hy'
        rw [hy] at hy'; cases hy'; exact hlt
      · intro u
        rw [keys_set]
        constructor
        · exact .inr
        · rintro (rfl | h)
          · exact hk
          · exact h
    · exact .inl rfl

end

section
variable [LinearOrder T] [AddCommMonoid T] [IsOrderedAddMonoid T]
variable {D : Tr → T → Prop} {cnt : Tr → Bool}

/-- What the weight of `t` depends on goes down with a path of premises. -/
theorem HistOK.path {s : FixSt T X} {g : Hist T} (h : HistOK D cnt s g) {v t : Tr}
    (hp : Relation.ReflTransGen g.Prem v t) {b : T} (hb : s.wt v = some b) :
    ∃ x a, s.wt t = some a ∧ x + a ≤ b ∧ ∀ y, D t y → D v (x + y) := by
  induction hp with
  | refl => exact ⟨0, b, hb, by rw [zero_add], fun y hy => by rwa [zero_add]⟩
  | tail _ hstep ih =>
    obtain ⟨x, a, h1, h2, h3⟩ := ih
    obtain ⟨x', hx'⟩ := hstep
    obtain ⟨⟨a1, b1, k1, k2, k3⟩, k4⟩ := h.prem _ _ _ hx'
    rw [h1] at k1
    cases k1
    refine ⟨x + x', b1, k2, ?_, fun y hy => ?_⟩
    · rw [add_assoc]
      exact le_trans (add_le_add le_rfl k3) h2
    · rw [add_assoc]
      exact h3 _ (k4 _ hy)

/-- How an update changes the history. -/
structure Grows (s : FixSt T X) (g g' : Hist T) (t : Tr) : Prop where
  born : g'.born = g.born
  ins : ∀ u ∈ keys s.aut.edges, g'.ins u = g.ins u
  chg : ∀ u ∈ keys s.aut.edges, g.chg u ≤ g'.chg u
  new : t ∉ keys s.aut.edges → g'.ins t = s.rounds

variable [OrderBot T]

/-- An update keeps the history in order: the new weight is computed from the weights of the transitions in `L`. -/
theorem HistOK.update (hB : NoPump D) {s : FixSt T X} {g : Hist T} (h : HistOK D cnt s g)
    (hs : ∀ t x, s.wt t = some x → D t x) (ins : X → Tr → X) (q : Tr → Bool) {t : Tr} {w : T} (tr : Trace)
    (hq : q t = true → cnt t = true) (L : List (Tr × T))
    (hL : ∀ v x, (v, x) ∈ L → (∃ b, s.wt v = some b ∧ x + b ≤ w) ∧ ∀ y, D v y → D t (x + y))
    (hb : g.born t.dst ≤ s.rounds)
    (hc : (∀ y, s.wt t = some y → w < y) → Cause cnt g.chg g.born (fun v => ∃ x, (v, x) ∈ L) t s.rounds) :
    ∃ g', HistOK D cnt (fixUpdate ins q false s t w tr).1 g' ∧ Grows s g g' t := by
  rcases fixUpdate_changes ins q s t w tr with he | ⟨h1, h2, h3, h4, h5, h6⟩
  · rw [he]
    by_cases hk : t ∈ keys s.aut.edges
    · exact ⟨g, h, rfl, fun _ _ => rfl, fun _ _ => Nat.le_refl _, fun hn => absurd hk hn⟩
    · -- an unchanged state has the transition
      exfalso
      have := (fixUpdate_spec ins q s t w tr).2.1
      rw [he] at this
      exact hk this.mem
  generalize (fixUpdate ins q false s t w tr).1 = s' at *
  classical
  refine ⟨{ ins := fun u => if u = t ∧ t ∉ keys s.aut.edges then s.rounds else g.ins u,
            chg := fun u => if u = t then s.rounds else g.chg u,
            born := g.born,
            prem := fun u => if u = t then L else g.prem u }, ?_, ?_⟩
  · have hchg : ∀ u ∈ keys s.aut.edges, g.chg u ≤ (if u = t then s.rounds else g.chg u) := by
      intro u hu
      split
      · exact (h.le u hu).2.2
      · exact Nat.le_refl _
    have hprem : ∀ u v x, (v, x) ∈ (if u = t then L else g.prem u) → u = t ∧ (v, x) ∈ L ∨ u ≠ t ∧ (v, x) ∈ g.prem u := by
      intro u v x hx
      split at hx
      · exact .inl ⟨by assumption, hx⟩
      · exact .inr ⟨by assumption, hx⟩
    have hcase := hc h1
    refine ⟨?_, ?_, ?_, ?_, ?_, ?_, ?_, ?_⟩
    · intro u hu
      dsimp only
      rw [h5]
      by_cases hut : u = t
      · subst hut
        rw [if_pos rfl]
        by_cases hk : u ∈ keys s.aut.edges
        · rw [if_neg (fun hc => hc.2 hk)]
          have := h.le u hk
          omega
        · rw [if_pos ⟨rfl, hk⟩]
          omega
      · rw [if_neg (fun hc => hut hc.1), if_neg hut]
        exact h.le u (((h3 u).1 hu).resolve_left hut)
    · intro u hu
      rw [h3] at hu
      dsimp only
      rw [if_neg (fun hc => hu (.inl hc))]
      exact h.none u (fun hc => hu (.inr hc))
    · intro u v x hx
      rcases hprem u v x hx with ⟨rfl, hx2⟩ | ⟨hne, hx2⟩
      · obtain ⟨⟨b, k1, k2⟩, k3⟩ := hL v x hx2
        refine ⟨?_, k3⟩
        by_cases hv : v = u
        · subst hv
          exact ⟨w, w, by rw [h2, if_pos rfl], by rw [h2, if_pos rfl],
            le_trans (add_le_add le_rfl (le_of_lt (h1 b k1))) k2⟩
        · exact ⟨w, b, by rw [h2, if_pos rfl], by rw [h2, if_neg hv]; exact k1, k2⟩
      · obtain ⟨⟨a, b, k1, k2, k3⟩, k4⟩ := h.prem u v x hx2
        refine ⟨?_, k4⟩
        by_cases hv : v = t
        · subst hv
          exact ⟨a, w, by rw [h2, if_neg hne]; exact k1, by rw [h2, if_pos rfl],
            le_trans (add_le_add le_rfl (le_of_lt (h1 b k2))) k3⟩
        · exact ⟨a, b, by rw [h2, if_neg hne]; exact k1, by rw [h2, if_neg hv]; exact k2, k3⟩
    · -- a cycle would be a way to pump
      have reach : ∀ a b, Relation.TransGen (fun u v => ∃ x, (v, x) ∈ (if u = t then L else g.prem u)) a b →
          Relation.TransGen g.Prem a b ∨
          Relation.ReflTransGen g.Prem a t ∧ ∃ v x, (v, x) ∈ L ∧ Relation.ReflTransGen g.Prem v b := by
        intro a b hab
        induction hab with
        | single hst =>
          obtain ⟨x, hx⟩ := hst
          rcases hprem _ _ _ hx with ⟨rfl, hx2⟩ | ⟨_, hx2⟩
          · exact .inr ⟨.refl, _, x, hx2, .refl⟩
          · exact .inl (.single ⟨x, hx2⟩)
        | tail _ hst ih =>
          obtain ⟨x, hx⟩ := hst
          rcases hprem _ _ _ hx with ⟨rfl, hx2⟩ | ⟨_, hx2⟩
          · rcases ih with ih | ⟨ih, _⟩
            · exact .inr ⟨ih.to_reflTransGen, _, x, hx2, .refl⟩
            · exact .inr ⟨ih, _, x, hx2, .refl⟩
          · rcases ih with ih | ⟨ih, v, y, hv, ihv⟩
            · exact .inl (ih.tail ⟨x, hx2⟩)
            · exact .inr ⟨ih, v, y, hv, ihv.tail ⟨x, hx2⟩⟩
      intro u hu
      rcases reach u u hu with hu | ⟨k1, v, x, hv, k2⟩
      · exact h.acyc u hu
      · obtain ⟨⟨b, m1, m2⟩, m3⟩ := hL v x hv
        obtain ⟨x', a, n1, n2, n3⟩ := h.path (k2.trans k1) m1
        have hlt := h1 a n1
        have h0 := hB t a (x + x') (hs t a n1) (fun y hy => by rw [add_assoc]; exact m3 _ (n3 y hy))
        have h6 : x + (x' + a) ≤ w := le_trans (add_le_add le_rfl n2) m2
        rw [← add_assoc] at h6
        have h7 : 0 + a ≤ x + x' + a := add_le_add h0 le_rfl
        rw [zero_add] at h7
        exact absurd (lt_of_lt_of_le hlt (le_trans h7 h6)) (lt_irrefl _)
    · intro u hu
      dsimp only [Hist.Prem]
      by_cases hut : u = t
      · subst hut
        simp only [if_true]
        refine hcase.mono ?_
        rintro v ⟨x, hx⟩
        obtain ⟨b, k1, _⟩ := (hL v x hx).1
        exact ⟨⟨x, by show (v, x) ∈ if u = u then L else _; rw [if_pos rfl]; exact hx⟩, hchg v (s.wt_some k1)⟩
      · simp only [if_neg hut]
        refine (h.cause u (((h3 u).1 hu).resolve_left hut)).mono ?_
        intro v hv
        refine ⟨?_, hchg v (h.mem hv).2⟩
        obtain ⟨x, hx⟩ := hv
        exact ⟨x, by show (v, x) ∈ if u = t then L else g.prem u; rw [if_neg hut]; exact hx⟩
    · intro u hu
      rw [h6] at hu
      rw [h5]
      obtain ⟨k1, k2, k3⟩ := h.work u hu
      have := hchg u k1
      exact ⟨(h3 u).2 (.inr k1), k2, by dsimp only; omega⟩
    · intro u hu
      rw [h5]
      by_cases hut : u = t
      · subst hut
        refine ⟨(h3 u).2 (.inl rfl), ?_, by simp⟩
        rcases h4 u hu with hu | hu
        · exact (h.next u hu).2.1
        · exact hq hu.2
      · have := h.next u ((h4 u hu).resolve_right (fun hc => hut hc.1))
        exact ⟨(h3 u).2 (.inr this.1), this.2.1, by simp only [if_neg hut]; exact this.2.2⟩
    · intro j hj
      rw [h5] at hj
      obtain ⟨u, k1, k2, k3, k4⟩ := h.past j hj
      have := hchg u k1
      refine ⟨u, (h3 u).2 (.inr k1), k2, ?_, by dsimp only; omega⟩
      dsimp only
      rw [if_neg (fun hc => hc.2 (hc.1 ▸ k1))]
      exact k3
  · refine ⟨rfl, ?_, ?_, ?_⟩
    · intro u hu
      dsimp only
      rw [if_neg (fun hc => hc.2 (hc.1 ▸ hu))]
    · intro u hu
      dsimp only
      split
      · exact (h.le u hu).2.2
      · exact Nat.le_refl _
    · intro hk
      dsimp only
      rw [if_pos ⟨rfl, hk⟩]

end

/-! ## Rounds -/

section
variable [LinearOrder T] [AddCommMonoid T] {D : Tr → T → Prop} {cnt : Tr → Bool}

/-- A transition is taken from the workset. -/
theorem HistOK.pop {s : FixSt T X} {g : Hist T} (h : HistOK D cnt s g) {ws : List Tr} (hw : ∀ u ∈ ws, u ∈ s.workset) :
    HistOK D cnt { s with workset := ws } g :=
  ⟨h.le, h.none, h.prem, h.acyc, h.cause, fun u hu => h.work u (hw u hu), h.next, h.past⟩

/-- A new round begins. -/
theorem HistOK.swap {s : FixSt T X} {g : Hist T} (h : HistOK D cnt s g) {ws : List Tr} (hw : ∀ u ∈ ws, u ∈ s.next)
    (hne : s.next ≠ []) : HistOK D cnt { s with rounds := s.rounds + 1, workset := ws, next := [] } g := by
  refine ⟨fun u hu => ?_, h.none, h.prem, h.acyc, h.cause, fun u hu => ?_, (fun u hu => by cases hu), ?_⟩
  · have := h.le u hu
    dsimp only
    omega
  · obtain ⟨h1, h2, h3⟩ := h.next u (hw u hu)
    exact ⟨h1, h2, by dsimp only; omega⟩
  · intro j hj
    dsimp only at hj
    by_cases hj' : j < s.rounds
    · exact h.past j hj'
    · obtain ⟨u, hu⟩ := List.exists_mem_of_ne_nil _ hne
      obtain ⟨h1, h2, h3⟩ := h.next u hu
      have := h.le u h1
      exact ⟨u, h1, h2, by omega, by omega⟩

end

/-- The cases of `step`, with what is known about the workset. -/
theorem fixStep_split [LinearOrder T] [OrderBot T] (stepWith : Bool → FixSt T X → Tr → FixSt T X) (bot : Bool) (s : FixSt T X) :
    (s.workset = [] ∧ s.next = [] ∧ fixStep stepWith bot s = { s with rounds := s.rounds + 1, done := true }) ∨
    (∃ t ws, s.workset = [] ∧ (∀ u, u ∈ s.next ↔ u = t ∨ u ∈ ws) ∧ t ∉ ws ∧ fixStep stepWith bot s =
          stepWith bot { s with rounds := s.rounds + 1, workset := ws, next := [] } t) ∨
    (∃ t ws, s.workset ≠ [] ∧ (∀ u, u ∈ s.workset ↔ u = t ∨ u ∈ ws) ∧
          fixStep stepWith bot s = stepWith bot { s with workset := ws } t) := by
  have pop : ∀ (r : FixSt T X) (hr : r.workset ≠ []), (∀ u, u ∈ r.workset ↔ u = r.workset.getLast hr ∨ u ∈ r.workset.dropLast) ∧
      fixPop stepWith bot r = stepWith bot { r with workset := r.workset.dropLast } (r.workset.getLast hr) := by
    intro r hr
    refine ⟨?_, ?_⟩
    · intro u
      conv => lhs; rw [← List.dropLast_append_getLast hr]
      rw [List.mem_append, List.mem_singleton, or_comm]
    · unfold fixPop
      rw [List.getLast?_eq_some_getLast hr]
  by_cases h1 : s.workset = []
  · by_cases h2 : s.next = []
    · left; refine ⟨h1, h2, ?_⟩
      unfold fixStep; rw [if_pos h1, if_pos h2]
    · right; left
      have hne : uniqTr (sortBy trLt s.next) ≠ [] := by
        obtain ⟨a, ha⟩ := List.exists_mem_of_ne_nil _ h2
        exact List.ne_nil_of_mem ((mem_uniqTr _ _).2 ((mem_sortBy trLt _ _).2 ha))
      obtain ⟨h3, h5⟩ := pop { s with rounds := s.rounds + 1, workset := uniqTr (sortBy trLt s.next), next := [] } hne
      refine ⟨(uniqTr (sortBy trLt s.next)).getLast hne, (uniqTr (sortBy trLt s.next)).dropLast, h1, ?_, ?_, ?_⟩
      · intro u
        rw [← h3 u, mem_uniqTr, mem_sortBy]
      · have hn := nodup_uniqTr s.next
        rw [← List.dropLast_append_getLast hne, List.nodup_append] at hn
        intro hm
        exact hn.2.2 _ hm _ (List.mem_singleton.2 rfl) rfl
      · unfold fixStep; rw [if_pos h1, if_neg h2]; exact h5
  · right; right
    obtain ⟨h3, h5⟩ := pop s h1
    refine ⟨_, _, h1, h3, ?_⟩
    unfold fixStep; rw [if_neg h1]; exact h5

end Verif
