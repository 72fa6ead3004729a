import Verif.Model.FromNfa
import Verif.Proofs.AutOps
import Verif.Proofs.NfaRun

/-! # P-automata from NFAs -/

namespace Verif

variable {W : Type}

theorem Aut.special_spec (size : Nat) {sp : List Nat} (hs : SSorted sp) (acc : Bool) :
    (Aut.special (W := W) size sp acc).n = size ∧ (Aut.special (W := W) size sp acc).edges = [] ∧
    ∀ q, (Aut.special (W := W) size sp acc).isAcc q = true ↔ q < size ∧ q ∈ sp ∧ acc = true := by
  suffices h : ∀ k, ((List.range k).foldl (Aut.specialRound (W := W) sp acc) ({}, 0)).1.n = k ∧
      ((List.range k).foldl (Aut.specialRound (W := W) sp acc) ({}, 0)).1.edges = [] ∧
      (∀ q, ((List.range k).foldl (Aut.specialRound (W := W) sp acc) ({}, 0)).1.isAcc q = true ↔
        q < k ∧ q ∈ sp ∧ acc = true) ∧
      (∀ (i x : Nat), sp[i]? = some x → (i < ((List.range k).foldl (Aut.specialRound (W := W) sp acc) ({}, 0)).2 ↔ x < k)) ∧
      ((List.range k).foldl (Aut.specialRound (W := W) sp acc) ({}, 0)).2 ≤ sp.length by
    obtain ⟨h1, h2, h3, _⟩ := h size
    exact ⟨h1, h2, h3⟩
  intro k
  induction k with
  | zero => simp [Aut.n, Aut.isAcc]
  | succ k ih =>
    rw [List.range_succ, List.foldl_append, List.foldl_cons, List.foldl_nil]
    generalize (List.range k).foldl (Aut.specialRound (W := W) sp acc) ({}, 0) = s at ih
    obtain ⟨a, j⟩ := s
    obtain ⟨h1, h2, h3, h4, h5⟩ := ih
    dsimp only at h1 h2 h3 h4 h5
    have hlt : ∀ (i i' x x' : Nat), sp[i]? = some x → sp[i']? = some x' → i < i' → x < x' := by
      intro i i' x x' hi hi' hii
      obtain ⟨hi1, rfl⟩ := List.getElem?_eq_some_iff.1 hi
      obtain ⟨hi2, rfl⟩ := List.getElem?_eq_some_iff.1 hi'
      exact List.pairwise_iff_getElem.1 hs i i' hi1 hi2 hii
    have key : k ∈ sp ↔ j < sp.length ∧ sp[j]? = some k := by
      constructor
      · intro hk
        obtain ⟨i, hi⟩ := List.mem_iff_getElem?.1 hk
        have hij : ¬ i < j := fun h => by have := (h4 i k hi).1 h; omega
        have hil := (List.getElem?_eq_some_iff.1 hi).1
        have hjl : j < sp.length := by omega
        refine ⟨hjl, ?_⟩
        have hj : sp[j]? = some sp[j] := List.getElem?_eq_getElem hjl
        have := h4 j _ hj
        by_cases hji : j = i
        · subst hji; exact hi
        · have := hlt j i _ _ hj hi (by omega)
          omega
      · rintro ⟨_, h⟩; exact List.mem_of_getElem? h
    unfold Aut.specialRound
    by_cases hc : j < sp.length ∧ sp[j]? = some k
    · rw [if_pos hc]
      refine ⟨by rw [Aut.n_addState, h1], h2, ?_, ?_, by dsimp only; omega⟩
      · intro q
        dsimp only
        rw [Aut.isAcc_addState, h1]
        have := key.2 hc
        by_cases hq : q = k
        · subst hq; rw [if_pos rfl]; simp [this]
        · rw [if_neg hq, h3]; grind
      · intro i x hi
        dsimp only
        have h6 := h4 i x hi
        constructor
        · intro h7
          by_cases hij : i = j
          · subst hij; rw [hc.2] at hi; simp at hi; omega
          · have := h6.1 (by omega); omega
        · intro h7
          by_contra h8
          have := hlt j i _ _ hc.2 hi (by omega)
          omega
    · rw [if_neg hc]
      refine ⟨by rw [Aut.n_addState, h1], h2, ?_, ?_, h5⟩
      · intro q
        dsimp only
        rw [Aut.isAcc_addState, h1]
        have : k ∉ sp := fun h => hc (key.1 h)
        by_cases hq : q = k
        · subst hq; rw [if_pos rfl]; simp [this]
        · rw [if_neg hq, h3]; grind
      · intro i x hi
        dsimp only
        have h6 := h4 i x hi
        have : x ≠ k := by rintro rfl; exact hc (key.1 (List.mem_of_getElem? hi))
        rw [h6]; omega

theorem addEdges_nodup [Zero W] (nl : Nat) {a : Aut W} (h : (keys a.edges).Nodup) (src dst : Nat) (negated : Bool)
    (labels : List Nat) : (keys (a.addEdges nl src dst negated labels).edges).Nodup := by
  have h1 : ∀ (ls : List Nat) (a : Aut W), (keys a.edges).Nodup →
      (keys (ls.foldl (fun a l => a.addEdge src dst l) a).edges).Nodup := by
    intro ls
    induction ls with
    | nil => exact fun a h => h
    | cons l ls ih => exact fun a h => ih _ (Aut.nodup_emplaceEdge h _ _)
  unfold Aut.addEdges
  split
  · refine h1 _ _ ?_
    suffices h2 : ∀ (ls : List Nat) (s : Aut W × Nat), (keys s.1.edges).Nodup →
        (keys (ls.foldl (fun (s : Aut W × Nat) label =>
          (s.1.addRange src dst s.2 label, max s.2 label + 1)) s).1.edges).Nodup from h2 labels (a, 0) h
    intro ls
    induction ls with
    | nil => exact fun s h => h
    | cons l ls ih => exact fun s h => ih _ (h1 _ _ h)
  · exact h1 _ _ h

theorem addEdgesFrom_nodup [Zero W] (nl : Nat) {a : Aut W} (h : (keys a.edges).Nodup) (srcs : List Nat) (dst : Nat)
    (negated : Bool) (labels : List Nat) : (keys (a.addEdgesFrom nl srcs dst negated labels).edges).Nodup := by
  have h0 : ∀ (ss : List Nat) (i : Nat) (a : Aut W), (keys a.edges).Nodup →
      (keys (a.addFrom ss dst i).edges).Nodup := by
    intro ss i
    unfold Aut.addFrom
    induction ss with
    | nil => exact fun a h => h
    | cons l ls ih => exact fun a h => ih _ (Aut.nodup_emplaceEdge h _ _)
  have h1 : ∀ (ls : List Nat) (a : Aut W), (keys a.edges).Nodup →
      (keys (ls.foldl (fun a l => a.addFrom srcs dst l) a).edges).Nodup := by
    intro ls
    induction ls with
    | nil => exact fun a h => h
    | cons l ls ih => exact fun a h => ih _ (h0 _ _ _ h)
  unfold Aut.addEdgesFrom
  split
  · refine h1 _ _ ?_
    suffices h2 : ∀ (ls : List Nat) (s : Aut W × Nat), (keys s.1.edges).Nodup →
        (keys (ls.foldl (fun (s : Aut W × Nat) label =>
          (s.1.addRangeFrom srcs dst s.2 label, max s.2 label + 1)) s).1.edges).Nodup from h2 labels (a, 0) h
    intro ls
    induction ls with
    | nil => exact fun s h => h
    | cons l ls ih => exact fun s h => ih _ (h1 _ _ h)
  · suffices h2 : ∀ (ss : List Nat) (a : Aut W), (keys a.edges).Nodup →
        (keys (ss.foldl (fun a f => labels.foldl (fun a l => a.addEdge f dst l) a) a).edges).Nodup from h2 srcs a h
    intro ss
    induction ss with
    | nil => exact fun s h => h
    | cons s ss ih =>
      intro a h
      refine ih _ ?_
      generalize labels = ls
      induction ls generalizing a with
      | nil => exact h
      | cons l ls ih => exact ih _ (Aut.nodup_emplaceEdge h _ _)

namespace ConSt

open Nfa

/-- The labels an edge of the NFA gets in the P-automaton. -/
def Lab (nl : Nat) (e : NEdge) (g : Nat) : Prop := if e.neg then g < nl ∧ g ∉ e.syms else g ∈ e.syms

/-- The bookkeeping of `construct`: ids are distinct, not PDA states, and have the right accepting flag. -/
structure Inv (m : Nfa) (size : Nat) (F : Nat → Prop) (s : ConSt W) : Prop where
  n : s.a.n = size + s.ids.length
  fst : (s.ids.map Prod.fst).Nodup
  snd : (s.ids.map Prod.snd).Nodup
  range : ∀ x ∈ s.ids, size ≤ x.2 ∧ x.2 < s.a.n
  ptr : ∀ x ∈ s.ids, x.1 ∈ m.ptrs
  acc : ∀ x ∈ s.ids, (s.a.isAcc x.2 = true ↔ m.Acc x.1)
  ctl : ∀ q, q < size → (s.a.isAcc q = true ↔ F q)
  wait : ∀ x ∈ s.waiting, x ∈ s.ids
  nodup : (keys s.a.edges).Nodup
  wnodup : s.waiting.Nodup

/-- `s'` knows more states than `s`; the new ones wait. -/
structure Ext (s s' : ConSt W) : Prop where
  ids : ∀ x ∈ s.ids, x ∈ s'.ids
  wait : ∀ x, x ∈ s'.waiting ↔ x ∈ s.waiting ∨ (x ∈ s'.ids ∧ x ∉ s.ids)
  meas : s'.waiting.length + s.ids.length = s.waiting.length + s'.ids.length

theorem Ext.refl (s : ConSt W) : Ext s s := ⟨fun _ h => h, fun x => by simp, rfl⟩

theorem Ext.trans {s t u : ConSt W} (h : Ext s t) (h' : Ext t u) : Ext s u := by
  refine ⟨fun x hx => h'.ids x (h.ids x hx), fun x => ?_, ?_⟩
  · rw [h'.wait, h.wait]
    have := h.ids x
    have := h'.ids x
    grind
  · have := h.meas; have := h'.meas; omega

theorem lookup_mem {l : List (Nat × Nat)} {q id : Nat} (h : l.lookup q = some id) : (q, id) ∈ l := by
  induction l with
  | nil => simp at h
  | cons x l ih =>
    obtain ⟨a, b⟩ := x
    rw [List.lookup_cons] at h
    by_cases hq : q == a
    · simp only [hq, if_true, Option.some.injEq] at h
      have : q = a := by simpa using hq
      simp [this, h]
    · simp only [hq, Bool.false_eq_true, if_false] at h
      exact List.mem_cons_of_mem _ (ih h)

theorem lookup_none {l : List (Nat × Nat)} {q : Nat} (h : l.lookup q = none) : q ∉ l.map Prod.fst := by
  induction l with
  | nil => simp
  | cons x l ih =>
    obtain ⟨a, b⟩ := x
    rw [List.lookup_cons] at h
    by_cases hq : q == a
    · simp [hq] at h
    · simp only [hq, Bool.false_eq_true, if_false] at h
      simp only [List.map_cons, List.mem_cons, not_or]
      exact ⟨by simpa using hq, ih h⟩

theorem fst_unique {l : List (Nat × Nat)} (h : (l.map Prod.fst).Nodup) {q a b : Nat} (ha : (q, a) ∈ l) (hb : (q, b) ∈ l) :
    a = b := by
  have := List.inj_on_of_nodup_map h ha hb rfl
  simpa using this

theorem snd_unique {l : List (Nat × Nat)} (h : (l.map Prod.snd).Nodup) {q a b : Nat} (ha : (a, q) ∈ l) (hb : (b, q) ∈ l) :
    a = b := by
  have := List.inj_on_of_nodup_map h ha hb rfl
  simpa using this

theorem getId_spec {m : Nfa} (hm : m.WF) {size : Nat} {F : Nat → Prop} {s : ConSt W} (hi : Inv m size F s) {q : Nat}
    (hq : q ∈ m.ptrs) :
    Inv m size F (s.getId m q).1 ∧ Ext s (s.getId m q).1 ∧ (q, (s.getId m q).2) ∈ (s.getId m q).1.ids ∧
    (s.getId m q).1.a.edges = s.a.edges := by
  unfold getId
  cases hl : s.ids.lookup q with
  | some id => exact ⟨hi, Ext.refl s, lookup_mem hl, rfl⟩
  | none =>
    have hn := lookup_none hl
    have hfresh : ∀ x ∈ s.ids, x.2 ≠ s.a.n := fun x hx => by have := (hi.range x hx).2; omega
    refine ⟨⟨?_, ?_, ?_, ?_, ?_, ?_, ?_, ?_, hi.nodup,
      List.nodup_cons.2 ⟨fun hc => hfresh _ (hi.wait _ hc) rfl, hi.wnodup⟩⟩, ⟨?_, ?_, ?_⟩, by simp, rfl⟩
    · simp only [Aut.n_addState, hi.n, List.length_cons]; omega
    · exact List.nodup_cons.2 ⟨hn, hi.fst⟩
    · refine List.nodup_cons.2 ⟨?_, hi.snd⟩
      intro hc
      obtain ⟨x, h1, h2⟩ := List.mem_map.1 hc
      exact hfresh x h1 h2
    · intro x hx
      rw [Aut.n_addState]
      rcases List.mem_cons.1 hx with rfl | hx
      · have := hi.n; dsimp only; omega
      · have := hi.range x hx; omega
    · intro x hx
      rcases List.mem_cons.1 hx with rfl | hx
      · exact hq
      · exact hi.ptr x hx
    · intro x hx
      dsimp only
      rw [Aut.isAcc_addState]
      rcases List.mem_cons.1 hx with rfl | hx
      · dsimp only
        rw [if_pos rfl, acc_get hm.nodup]
        simp [hq]
      · rw [if_neg (hfresh x hx)]
        exact hi.acc x hx
    · intro x hx
      dsimp only
      rw [Aut.isAcc_addState, if_neg (by have := hi.n; omega)]
      exact hi.ctl x hx
    · intro x hx
      rcases List.mem_cons.1 hx with rfl | hx
      · simp
      · exact List.mem_cons_of_mem _ (hi.wait x hx)
    · intro x hx; exact List.mem_cons_of_mem _ hx
    · intro x
      have hnot : (q, s.a.n) ∉ s.ids := fun hc => hfresh _ hc rfl
      simp only [List.mem_cons]
      constructor
      · rintro (rfl | h)
        · exact .inr ⟨.inl rfl, hnot⟩
        · exact .inl h
      · rintro (h | ⟨rfl | h, h'⟩)
        · exact .inr h
        · exact .inl rfl
        · exact absurd h h'
    · simp only [List.length_cons]; omega

/-- What a call of `add_edges` does. -/
def AddOK (add : Aut W → Nat → Aut W) (S R : Nat → Prop) : Prop :=
  ∀ a id, (∀ t, t ∈ keys (add a id).edges ↔ t ∈ keys a.edges ∨ (S t.src ∧ R t.label ∧ t.dst = id)) ∧
    (add a id).acc = a.acc ∧ ((keys a.edges).Nodup → (keys (add a id).edges).Nodup)

theorem Inv.setA {m : Nfa} {size : Nat} {F : Nat → Prop} {s : ConSt W} (hi : Inv m size F s) {a : Aut W}
    (ha : a.acc = s.a.acc) (hn : (keys a.edges).Nodup) : Inv m size F { s with a := a } := by
  have h1 : a.n = s.a.n := by simp [Aut.n, ha]
  have h2 : ∀ q, a.isAcc q = s.a.isAcc q := fun q => Aut.isAcc_congr ha q
  refine ⟨by rw [h1]; exact hi.n, hi.fst, hi.snd, ?_, hi.ptr, ?_, ?_, hi.wait, hn, hi.wnodup⟩
  · intro x hx; rw [h1]; exact hi.range x hx
  · intro x hx; rw [h2]; exact hi.acc x hx
  · intro q hq; rw [h2]; exact hi.ctl q hq

theorem targets_spec {m : Nfa} (hm : m.WF) {size : Nat} {F : Nat → Prop} {add : Aut W → Nat → Aut W} {S R : Nat → Prop}
    (hadd : AddOK add S R) (qs : List Nat) (hqs : ∀ q ∈ qs, q ∈ m.ptrs) (s : ConSt W) (hi : Inv m size F s) :
    Inv m size F (qs.foldl (target m add) s) ∧ Ext s (qs.foldl (target m add) s) ∧
    (∀ q ∈ qs, ∃ id, (q, id) ∈ (qs.foldl (target m add) s).ids) ∧
    ∀ t, t ∈ keys (qs.foldl (target m add) s).a.edges ↔ t ∈ keys s.a.edges ∨
      (S t.src ∧ R t.label ∧ ∃ q ∈ qs, (q, t.dst) ∈ (qs.foldl (target m add) s).ids) := by
  induction qs generalizing s with
  | nil => exact ⟨hi, Ext.refl s, by simp, by simp⟩
  | cons q qs ih =>
    rw [List.foldl_cons]
    obtain ⟨g1, g2, g3, g4⟩ := getId_spec hm hi (hqs q (by simp))
    have hs1 : target m add s q = { (s.getId m q).1 with a := add (s.getId m q).1.a (s.getId m q).2 } := rfl
    rw [hs1]
    generalize s.getId m q = r at g1 g2 g3 g4
    obtain ⟨s1, id⟩ := r
    dsimp only at g1 g2 g3 g4 ⊢
    obtain ⟨a1, a2, a3⟩ := hadd s1.a id
    have hi2 : Inv m size F { s1 with a := add s1.a id } := g1.setA a2 (a3 g1.nodup)
    have he2 : Ext s { s1 with a := add s1.a id } := ⟨g2.ids, g2.wait, g2.meas⟩
    obtain ⟨i1, i2, i3, i4⟩ := ih (fun q hq => hqs q (by simp [hq])) _ hi2
    have hid := i2.ids _ g3
    refine ⟨i1, he2.trans i2, ?_, ?_⟩
    · intro x hx
      rcases List.mem_cons.1 hx with rfl | hx
      · exact ⟨id, hid⟩
      · exact i3 x hx
    · intro t
      rw [i4]
      dsimp only
      rw [a1, g4]
      constructor
      · rintro ((h | ⟨h1, h2, rfl⟩) | ⟨h1, h2, x, h3, h4⟩)
        · exact .inl h
        · exact .inr ⟨h1, h2, q, by simp, hid⟩
        · exact .inr ⟨h1, h2, x, by simp [h3], h4⟩
      · rintro (h | ⟨h1, h2, x, h3, h4⟩)
        · exact .inl (.inl h)
        · rcases List.mem_cons.1 h3 with rfl | h3
          · exact .inl (.inr ⟨h1, h2, fst_unique i1.fst h4 hid⟩)
          · exact .inr ⟨h1, h2, x, h3, h4⟩

/-- A move of the NFA as `construct` sees it: an edge, then ε moves to a useful state. -/
def Mv (m : Nfa) (nl : Nat) (es : List NEdge) (g q : Nat) : Prop :=
  ∃ e ∈ es, Lab nl e g ∧ q ∈ m.followEps [e.dst]

theorem edges_spec {m : Nfa} (hm : m.WF) {size nl : Nat} {F : Nat → Prop} {add : NEdge → Aut W → Nat → Aut W}
    {S : Nat → Prop} (es : List NEdge) (hadd : ∀ e ∈ es, AddOK (add e) S (Lab nl e)) (hes : ∀ e ∈ es, e.dst ∈ m.ptrs)
    (s : ConSt W) (hi : Inv m size F s) :
    Inv m size F (edges m add es s) ∧ Ext s (edges m add es s) ∧
    (∀ e ∈ es, ∀ q ∈ m.followEps [e.dst], ∃ id, (q, id) ∈ (edges m add es s).ids) ∧
    ∀ t, t ∈ keys (edges m add es s).a.edges ↔ t ∈ keys s.a.edges ∨
      (S t.src ∧ ∃ q, Mv m nl es t.label q ∧ (q, t.dst) ∈ (edges m add es s).ids) := by
  induction es generalizing s with
  | nil => exact ⟨hi, Ext.refl s, by simp, by simp [edges, Mv]⟩
  | cons e es ih =>
    have hd := hes e (by simp)
    have hstep : edges m add (e :: es) s = edges m add es ((m.followEps [e.dst]).foldl (target m (add e)) s) := rfl
    rw [hstep]
    obtain ⟨j1, j2, j3, j4⟩ := targets_spec hm (hadd e (by simp)) (m.followEps [e.dst]) (by
      intro q hq
      obtain ⟨⟨p, hp, hpath⟩, _⟩ := ((followEps_spec hm (List.pairwise_singleton _ _) (by simpa using hd)).2 q).1 hq
      rw [List.mem_singleton] at hp
      subst hp
      exact WPath.mem_ptrs hm hpath hd) s hi
    generalize (m.followEps [e.dst]).foldl (target m (add e)) s = s1 at j1 j2 j3 j4
    obtain ⟨i1, i2, i3, i4⟩ := ih (fun e he => hadd e (by simp [he])) (fun e he => hes e (by simp [he])) s1 j1
    refine ⟨i1, j2.trans i2, ?_, ?_⟩
    · intro e' he' q hq
      rcases List.mem_cons.1 he' with rfl | he'
      · obtain ⟨id, h1⟩ := j3 q hq
        exact ⟨id, i2.ids _ h1⟩
      · exact i3 e' he' q hq
    · intro t
      rw [i4, j4]
      constructor
      · rintro ((h | ⟨h1, h2, q, h3, h4⟩) | ⟨h1, q, ⟨e', h2, h3, h4⟩, h5⟩)
        · exact .inl h
        · exact .inr ⟨h1, q, ⟨e, by simp, h2, h3⟩, i2.ids _ h4⟩
        · exact .inr ⟨h1, q, ⟨e', by simp [h2], h3, h4⟩, h5⟩
      · rintro (h | ⟨h1, q, ⟨e', h2, h3, h4⟩, h5⟩)
        · exact .inl (.inl h)
        · rcases List.mem_cons.1 h2 with rfl | h2
          · obtain ⟨id, h6⟩ := j3 q h4
            have := fst_unique i1.fst h5 (i2.ids _ h6)
            exact .inl (.inr ⟨h1, h3, q, h4, by rw [this]; exact h6⟩)
          · exact .inr ⟨h1, q, ⟨e', h2, h3, h4⟩, h5⟩

theorem initial_spec [Zero W] {m : Nfa} (hm : m.WF) {size nl : Nat} {F : Nat → Prop} {states : List Nat}
    (hlab : ∀ p s, (p, s) ∈ m.states → ∀ e ∈ s.edges, ∀ g ∈ e.syms, g < nl)
    (s : ConSt W) (hi : Inv m size F s) :
    Inv m size F (initial m nl states s) ∧ Ext s (initial m nl states s) ∧
    (∀ i ∈ m.initial, ∀ g q, Mv m nl (m.get i).edges g q → ∃ id, (q, id) ∈ (initial m nl states s).ids) ∧
    ∀ t, t ∈ keys (initial m nl states s).a.edges ↔ t ∈ keys s.a.edges ∨
      (t.src ∈ states ∧ ∃ i ∈ m.initial, ∃ q, Mv m nl (m.get i).edges t.label q ∧
        (q, t.dst) ∈ (initial m nl states s).ids) := by
  unfold initial
  have hI := hm.init
  revert hI
  generalize m.initial = I
  intro hI
  induction I generalizing s with
  | nil => exact ⟨hi, Ext.refl s, by simp, by simp⟩
  | cons i I ih =>
    rw [List.foldl_cons]
    have hg := mem_get hm.nodup (hI i (by simp))
    obtain ⟨j1, j2, j3, j4⟩ := edges_spec hm (S := (· ∈ states)) (nl := nl)
      (add := fun e a id => a.addEdgesFrom nl states id e.neg e.syms) (m.get i).edges
      (by
        intro e he a id
        obtain ⟨h1, h2⟩ := Aut.addEdgesFrom_spec nl a states id e.neg e.syms
          (fun _ => ⟨hm.syms _ _ hg e he, hlab _ _ hg e he⟩)
        exact ⟨h1, h2, fun h => addEdgesFrom_nodup nl h states id e.neg e.syms⟩)
      (fun e he => hm.dst _ _ hg e he) s hi
    generalize edges m (fun e a id => a.addEdgesFrom nl states id e.neg e.syms) (m.get i).edges s = s1 at j1 j2 j3 j4
    obtain ⟨i1, i2, i3, i4⟩ := ih s1 j1 (fun q hq => hI q (by simp [hq]))
    refine ⟨i1, j2.trans i2, ?_, ?_⟩
    · rintro i' hi' g q hmv
      rcases List.mem_cons.1 hi' with rfl | hi'
      · obtain ⟨e, h1, _, h2⟩ := hmv
        obtain ⟨id, h3⟩ := j3 e h1 q h2
        exact ⟨id, i2.ids _ h3⟩
      · exact i3 i' hi' g q hmv
    · intro t
      rw [i4, j4]
      constructor
      · rintro ((h | ⟨h1, q, h2, h3⟩) | ⟨h1, i', h2, q, h3, h4⟩)
        · exact .inl h
        · exact .inr ⟨h1, i, by simp, q, h2, i2.ids _ h3⟩
        · exact .inr ⟨h1, i', by simp [h2], q, h3, h4⟩
      · rintro (h | ⟨h1, i', h2, q, h3, h4⟩)
        · exact .inl (.inl h)
        · rcases List.mem_cons.1 h2 with rfl | h2
          · obtain ⟨e, h5, h8, h6⟩ := h3
            obtain ⟨id, h7⟩ := j3 e h5 q h6
            have := fst_unique i1.fst h4 (i2.ids _ h7)
            exact .inl (.inr ⟨h1, q, ⟨e, h5, h8, h6⟩, by rw [this]; exact h7⟩)
          · exact .inr ⟨h1, i', h2, q, h3, h4⟩

theorem loop_spec [Zero W] {m : Nfa} (hm : m.WF) {size nl : Nat} {F : Nat → Prop} {states : List Nat}
    (hlab : ∀ p s, (p, s) ∈ m.states → ∀ e ∈ s.edges, ∀ g ∈ e.syms, g < nl)
    (k : Nat) (s : ConSt W) (hi : Inv m size F s)
    (hk : s.waiting.length + m.states.length < k + s.ids.length)
    (hinit : ∀ i ∈ m.initial, ∀ g q, Mv m nl (m.get i).edges g q → ∃ id, (q, id) ∈ s.ids)
    (hcl : ∀ x ∈ s.ids, x ∉ s.waiting → ∀ g q, Mv m nl (m.get x.1).edges g q → ∃ id, (q, id) ∈ s.ids)
    (hE : ∀ t, t ∈ keys s.a.edges ↔
      (t.src ∈ states ∧ ∃ i ∈ m.initial, ∃ q, Mv m nl (m.get i).edges t.label q ∧ (q, t.dst) ∈ s.ids) ∨
      ∃ p, (p, t.src) ∈ s.ids ∧ (p, t.src) ∉ s.waiting ∧ ∃ q, Mv m nl (m.get p).edges t.label q ∧ (q, t.dst) ∈ s.ids) :
    Inv m size F (loop m nl k s) ∧
    (∀ i ∈ m.initial, ∀ g q, Mv m nl (m.get i).edges g q → ∃ id, (q, id) ∈ (loop m nl k s).ids) ∧
    (∀ x ∈ (loop m nl k s).ids, ∀ g q, Mv m nl (m.get x.1).edges g q → ∃ id, (q, id) ∈ (loop m nl k s).ids) ∧
    ∀ t, t ∈ keys (loop m nl k s).a.edges ↔
      (t.src ∈ states ∧ ∃ i ∈ m.initial, ∃ q, Mv m nl (m.get i).edges t.label q ∧ (q, t.dst) ∈ (loop m nl k s).ids) ∨
      ∃ p, (p, t.src) ∈ (loop m nl k s).ids ∧ ∃ q, Mv m nl (m.get p).edges t.label q ∧
        (q, t.dst) ∈ (loop m nl k s).ids := by
  induction k generalizing s with
  | zero =>
    have : s.ids.length ≤ m.states.length := by
      have h1 : (s.ids.map Prod.fst).length ≤ m.ptrs.length :=
        (List.subperm_of_subset hi.fst (by
          intro q hq
          obtain ⟨x, h1, rfl⟩ := List.mem_map.1 hq
          exact hi.ptr x h1)).length_le
      simpa [ptrs] using h1
    omega
  | succ k ih =>
    unfold loop
    cases hw : s.waiting with
    | nil =>
      rw [hw] at hcl hE
      refine ⟨hi, hinit, fun x hx => hcl x hx (by simp), ?_⟩
      intro t
      simpa using hE t
    | cons x ws =>
      obtain ⟨top, id⟩ := x
      dsimp only
      have hx : (top, id) ∈ s.ids := hi.wait _ (by simp [hw])
      have htop := hi.ptr _ hx
      have hg := mem_get hm.nodup htop
      have hwn := hi.wnodup
      rw [hw, List.nodup_cons] at hwn
      have hi' : Inv m size F { s with waiting := ws } :=
        ⟨hi.n, hi.fst, hi.snd, hi.range, hi.ptr, hi.acc, hi.ctl, fun x hx => hi.wait x (by simp [hw, hx]), hi.nodup, hwn.2⟩
      obtain ⟨j1, j2, j3, j4⟩ := edges_spec hm (S := (· = id)) (nl := nl)
        (add := fun e a q => a.addEdges nl id q e.neg e.syms) (m.get top).edges
        (by
          intro e he a q
          obtain ⟨h1, h2⟩ := Aut.addEdges_spec nl a id q e.neg e.syms
            (fun _ => ⟨hm.syms _ _ hg e he, hlab _ _ hg e he⟩)
          exact ⟨h1, h2, fun h => addEdges_nodup nl h id q e.neg e.syms⟩)
        (fun e he => hm.dst _ _ hg e he) { s with waiting := ws } hi'
      generalize edges m (fun e a q => a.addEdges nl id q e.neg e.syms) (m.get top).edges
        { s with waiting := ws } = s1 at j1 j2 j3 j4
      have hids : ∀ x ∈ s.ids, x ∈ s1.ids := j2.ids
      have hwait : ∀ x, x ∈ s1.waiting ↔ x ∈ ws ∨ (x ∈ s1.ids ∧ x ∉ s.ids) := j2.wait
      have hmeas : s1.waiting.length + s.ids.length = ws.length + s1.ids.length := j2.meas
      have hback : ∀ {q d}, (∃ id, (q, id) ∈ s.ids) → (q, d) ∈ s1.ids → (q, d) ∈ s.ids := by
        rintro q d ⟨id', h1⟩ h2
        rw [fst_unique j1.fst h2 (hids _ h1)]
        exact h1
      have hdone : ∀ x, x ∈ s1.ids ∧ x ∉ s1.waiting ↔ (x ∈ s.ids ∧ x ∉ s.waiting) ∨ x = (top, id) := by
        intro x
        rw [hwait, hw, List.mem_cons]
        constructor
        · rintro ⟨h1, h2⟩
          have h3 : x ∈ s.ids := by
            by_contra hc
            exact h2 (.inr ⟨h1, hc⟩)
          by_cases hxt : x = (top, id)
          · exact .inr hxt
          · refine .inl ⟨h3, ?_⟩
            rintro (h4 | h4)
            · exact hxt h4
            · exact h2 (.inl h4)
        · rintro (⟨h1, h2⟩ | rfl)
          · refine ⟨hids _ h1, ?_⟩
            rintro (h3 | h3)
            · exact h2 (.inr h3)
            · exact h3.2 h1
          · refine ⟨hids _ hx, ?_⟩
            rintro (h3 | h3)
            · exact hwn.1 h3
            · exact h3.2 hx
      apply ih s1 j1
      · rw [hw, List.length_cons] at hk; omega
      · intro i hi g q h
        obtain ⟨id', h1⟩ := hinit i hi g q h
        exact ⟨id', hids _ h1⟩
      · intro x h1 h2 g q h3
        rcases (hdone x).1 ⟨h1, h2⟩ with h4 | rfl
        · obtain ⟨id', h5⟩ := hcl x h4.1 h4.2 g q h3
          exact ⟨id', hids _ h5⟩
        · obtain ⟨e, h4, _, h5⟩ := h3
          exact j3 e h4 q h5
      · intro t
        rw [j4]
        dsimp only
        rw [hE]
        constructor
        · rintro ((⟨h1, i, h2, q, h3, h4⟩ | ⟨p, h1, h2, q, h3, h4⟩) | ⟨h1, q, h2, h3⟩)
          · exact .inl ⟨h1, i, h2, q, h3, hids _ h4⟩
          · have := (hdone (p, t.src)).2 (.inl ⟨h1, h2⟩)
            exact .inr ⟨p, this.1, this.2, q, h3, hids _ h4⟩
          · have := (hdone (top, t.src)).2 (.inr (by rw [h1]))
            exact .inr ⟨top, this.1, this.2, q, h2, h3⟩
        · rintro (⟨h1, i, h2, q, h3, h4⟩ | ⟨p, h1, h2, q, h3, h4⟩)
          · exact .inl (.inl ⟨h1, i, h2, q, h3, hback (hinit i h2 _ q h3) h4⟩)
          · rcases (hdone (p, t.src)).1 ⟨h1, h2⟩ with h5 | h5
            · exact .inl (.inr ⟨p, h5.1, h5.2, q, h3, hback (hcl _ h5.1 h5.2 _ q h3) h4⟩)
            · simp only [Prod.mk.injEq] at h5
              obtain ⟨rfl, h5⟩ := h5
              exact .inr ⟨h5, q, h3, h4⟩


/-- Acceptance by moves `Mv`. -/
def MAcc (m : Nfa) (nl : Nat) (p : Nat) : List Nat → Prop
  | [] => m.Acc p
  | g :: w => ∃ q, Mv m nl (m.get p).edges g q ∧ MAcc m nl q w

theorem lab_iff {nl : Nat} {e : NEdge} (h : ∀ g ∈ e.syms, g < nl) (g : Nat) : Lab nl e g ↔ e.Reads g ∧ g < nl := by
  unfold Lab NEdge.Reads
  cases e.neg with
  | true => simp [and_comm]
  | false => simp; exact h g

theorem mv_iff {m : Nfa} (hm : m.WF) {nl : Nat}
    (hlab : ∀ p s, (p, s) ∈ m.states → ∀ e ∈ s.edges, ∀ g ∈ e.syms, g < nl) {p : Nat} (hp : p ∈ m.ptrs) (g q : Nat) :
    Mv m nl (m.get p).edges g q ↔ g < nl ∧ m.Useful q ∧ ∃ r, m.Sym p g r ∧ WPath m.Eps m.Sym r [] q := by
  have hg := mem_get hm.nodup hp
  have hf : ∀ e ∈ (m.get p).edges, (q ∈ m.followEps [e.dst] ↔ WPath m.Eps m.Sym e.dst [] q ∧ m.Useful q) := by
    intro e he
    rw [(followEps_spec hm (List.pairwise_singleton _ _) (by simpa using hm.dst _ _ hg e he)).2]
    simp
  constructor
  · rintro ⟨e, h1, h2, h3⟩
    obtain ⟨h4, h5⟩ := (lab_iff (hlab _ _ hg e h1) g).1 h2
    obtain ⟨h6, h7⟩ := (hf e h1).1 h3
    exact ⟨h5, h7, e.dst, ⟨_, e, hg, h1, h4, rfl⟩, h6⟩
  · rintro ⟨h1, h2, r, h3, h4⟩
    obtain ⟨_, e, h5, h6, rfl⟩ := (sym_get hm.nodup).1 h3
    exact ⟨e, h5, (lab_iff (hlab _ _ hg e h5) g).2 ⟨h6, h1⟩, (hf e h5).2 ⟨h4, h2⟩⟩

theorem macc_of_path {m : Nfa} (hm : m.WF) {nl : Nat}
    (hlab : ∀ p s, (p, s) ∈ m.states → ∀ e ∈ s.edges, ∀ g ∈ e.syms, g < nl) {p f : Nat} {w : List Nat}
    (h : WPath m.Eps m.Sym p w f) (hp : p ∈ m.ptrs) (hf : m.Acc f) (hw : ∀ g ∈ w, g < nl) :
    ∃ p', WPath m.Eps m.Sym p [] p' ∧ m.Useful p' ∧ MAcc m nl p' w := by
  induction h with
  | nil q => exact ⟨q, .nil q, useful_of_acc hm.nodup hf, hf⟩
  | eps h1 _ ih =>
    obtain ⟨p', h2, h3⟩ := ih (WPath.mem_ptrs hm (.eps h1 (.nil _)) hp) hf hw
    exact ⟨p', .eps h1 h2, h3⟩
  | @sym p g q r w h1 _ ih =>
    obtain ⟨p', h2, h3, h4⟩ := ih (WPath.mem_ptrs hm (.sym h1 (.nil _)) hp) hf (fun g hg => hw g (by simp [hg]))
    exact ⟨p, .nil p, useful_of_sym hm.nodup h1, p', (mv_iff hm hlab hp g p').2 ⟨hw g (by simp), h3, q, h1, h2⟩, h4⟩

theorem path_of_macc {m : Nfa} (hm : m.WF) {nl : Nat}
    (hlab : ∀ p s, (p, s) ∈ m.states → ∀ e ∈ s.edges, ∀ g ∈ e.syms, g < nl) {p : Nat} {w : List Nat}
    (h : MAcc m nl p w) (hp : p ∈ m.ptrs) :
    (∃ f, m.Acc f ∧ WPath m.Eps m.Sym p w f) ∧ ∀ g ∈ w, g < nl := by
  induction w generalizing p with
  | nil => exact ⟨⟨p, h, .nil p⟩, by simp⟩
  | cons g w ih =>
    obtain ⟨q, h1, h2⟩ := h
    obtain ⟨h3, _, r, h4, h5⟩ := (mv_iff hm hlab hp g q).1 h1
    obtain ⟨⟨f, h6, h7⟩, h8⟩ := ih h2 (WPath.mem_ptrs hm (.sym h4 h5) hp)
    refine ⟨⟨f, h6, .sym h4 (h5.append h7)⟩, ?_⟩
    intro x hx
    rcases List.mem_cons.1 hx with rfl | hx
    · exact h3
    · exact h8 x hx

end ConSt

open ConSt Nfa in
theorem Aut.ofNfa_spec [Zero W] {m : Nfa} (hm : m.WF)
    (hcl : ∀ i ∈ m.initial, ∀ q, WPath m.Eps m.Sym i [] q → m.Useful q → q ∈ m.initial)
    {size nl : Nat} (hlab : ∀ p s, (p, s) ∈ m.states → ∀ e ∈ s.edges, ∀ g ∈ e.syms, g < nl)
    {states : List Nat} (hs : SSorted states) (hlt : ∀ q ∈ states, q < size) :
    (∀ c w, c < size → (Accepted (· ∈ keys (Aut.ofNfa (W := W) size nl m states).edges)
      (fun f => (Aut.ofNfa (W := W) size nl m states).isAcc f = true) (c, w) ↔
      c ∈ states ∧ m.Lang w ∧ ∀ g ∈ w, g < nl)) ∧
    size ≤ (Aut.ofNfa (W := W) size nl m states).n ∧
    (keys (Aut.ofNfa (W := W) size nl m states).edges).Nodup ∧
    ∀ t ∈ keys (Aut.ofNfa (W := W) size nl m states).edges,
      t.src < (Aut.ofNfa (W := W) size nl m states).n ∧ t.label < nl ∧
      t.dst < (Aut.ofNfa (W := W) size nl m states).n ∧ size ≤ t.dst := by
  have hI := hm.init
  obtain ⟨a1, a2, a3⟩ := Aut.special_spec (W := W) size hs m.emptyAccept
  let F : Nat → Prop := fun q => q ∈ states ∧ m.emptyAccept = true
  have i0 : Inv m size F ({ a := Aut.special (W := W) size states m.emptyAccept } : ConSt W) :=
    ⟨by simp [a1], by simp, by simp, by simp, by simp, by simp, fun q hq => by simp [a3, F, hq], by simp,
      by simp [a2, keys], by simp⟩
  obtain ⟨j1, j2, j3, j4⟩ := initial_spec hm (states := states) hlab _ i0
  unfold Aut.ofNfa
  generalize initial m nl states ({ a := Aut.special (W := W) size states m.emptyAccept } : ConSt W) = s1 at j1 j2 j3 j4
  have hww : ∀ x ∈ s1.ids, x ∈ s1.waiting := fun x hx => (j2.wait x).2 (.inr ⟨hx, by simp⟩)
  obtain ⟨k1, k2, k3, k4⟩ := loop_spec hm (states := states) hlab (m.states.length + 1) s1 j1
    (by have := j2.meas; simp at this; omega) j3 (fun x hx hw => absurd (hww x hx) hw) (by
      intro t
      rw [j4]
      have : t ∉ keys (Aut.special (W := W) size states m.emptyAccept).edges := by simp [a2, keys]
      simp only [this, false_or]
      constructor
      · intro h; exact .inl h
      · rintro (h | ⟨p, h1, h2, _⟩)
        · exact h
        · exact absurd (hww _ h1) h2)
  generalize loop m nl (m.states.length + 1) s1 = s at k1 k2 k3 k4
  have hid : ∀ {p c}, (p, c) ∈ s.ids → size ≤ c := fun h => (k1.range _ h).1
  have hinner : ∀ w p id, (p, id) ∈ s.ids →
      (Accepted (· ∈ keys s.a.edges) (fun f => s.a.isAcc f = true) (id, w) ↔ MAcc m nl p w) := by
    intro w
    induction w with
    | nil =>
      intro p id h
      constructor
      · rintro ⟨q, h1, h2⟩
        cases h1
        exact (k1.acc _ h).1 h2
      · intro h1
        exact ⟨id, .nil id, (k1.acc _ h).2 h1⟩
    | cons g w ih =>
      intro p id h
      constructor
      · rintro ⟨q, h1, h2⟩
        cases h1 with
        | cons h3 h4 =>
          rcases (k4 _).1 h3 with ⟨h5, _⟩ | ⟨p', h5, n, h6, h7⟩
          · have : id < size := hlt _ h5
            have := hid h; omega
          · have := snd_unique k1.snd h h5
            subst this
            exact ⟨n, h6, (ih n _ h7).1 ⟨q, h4, h2⟩⟩
      · rintro ⟨n, h1, h2⟩
        obtain ⟨d, h3⟩ := k3 _ h g n h1
        obtain ⟨q, h4, h5⟩ := (ih n d h3).2 h2
        exact ⟨q, .cons ((k4 _).2 (.inr ⟨p, h, n, h1, h3⟩)) h4, h5⟩
  refine ⟨?_, by have := k1.n; omega, k1.nodup, ?_⟩
  · intro c w hc
    have hmain : Accepted (· ∈ keys s.a.edges) (fun f => s.a.isAcc f = true) (c, w) ↔
        c ∈ states ∧ ∃ i ∈ m.initial, MAcc m nl i w := by
      cases w with
      | nil =>
        have he : m.emptyAccept = true ↔ ∃ i ∈ m.initial, MAcc m nl i [] := by
          unfold emptyAccept
          rw [List.any_eq_true]
          constructor
          · rintro ⟨i, h1, h2⟩
            exact ⟨i, h1, (acc_get hm.nodup).2 ⟨hI i h1, h2⟩⟩
          · rintro ⟨i, h1, h2⟩
            exact ⟨i, h1, ((acc_get hm.nodup).1 h2).2⟩
        constructor
        · rintro ⟨q, h1, h2⟩
          cases h1
          obtain ⟨h3, h4⟩ := (k1.ctl c hc).1 h2
          exact ⟨h3, he.1 h4⟩
        · rintro ⟨h1, h2⟩
          exact ⟨c, .nil c, (k1.ctl c hc).2 ⟨h1, he.2 h2⟩⟩
      | cons g w =>
        constructor
        · rintro ⟨q, h1, h2⟩
          cases h1 with
          | cons h3 h4 =>
            rcases (k4 _).1 h3 with ⟨h5, i, h6, n, h7, h8⟩ | ⟨p', h5, _⟩
            · exact ⟨h5, i, h6, n, h7, (hinner w n _ h8).1 ⟨q, h4, h2⟩⟩
            · have := hid h5; dsimp only at this; omega
        · rintro ⟨h1, i, h2, n, h3, h4⟩
          obtain ⟨d, h5⟩ := k2 i h2 g n h3
          obtain ⟨q, h6, h7⟩ := (hinner w n d h5).2 h4
          exact ⟨q, .cons ((k4 _).2 (.inl ⟨h1, i, h2, n, h3, h5⟩)) h6, h7⟩
    rw [hmain]
    constructor
    · rintro ⟨h1, i, h2, h3⟩
      obtain ⟨⟨f, h4, h5⟩, h6⟩ := path_of_macc hm hlab h3 (hI i h2)
      exact ⟨h1, ⟨i, h2, f, h4, h5⟩, h6⟩
    · rintro ⟨h1, ⟨i, h2, f, h3, h4⟩, h5⟩
      obtain ⟨i', h6, h7, h8⟩ := macc_of_path hm hlab h4 (hI i h2) h3 h5
      exact ⟨h1, i', hcl i h2 i' h6 h7, h8⟩
  · intro t ht
    have hn := k1.n
    rcases (k4 t).1 ht with ⟨h1, i, h2, n, h3, h4⟩ | ⟨p, h1, n, h3, h4⟩
    · have := hlt _ h1
      have := ((mv_iff hm hlab (hI i h2) _ _).1 h3).1
      have := k1.range _ h4
      dsimp only at this
      omega
    · have := k1.range _ h1
      have := ((mv_iff hm hlab (k1.ptr _ h1) _ _).1 h3).1
      have := k1.range _ h4
      dsimp only at *
      omega

end Verif
