import Verif.Model.Product
import Verif.Proofs.AutOps
import Verif.Proofs.FromNfa
import Mathlib.Data.List.ProdSigma
import Mathlib.Data.List.Perm.Subperm

/-! # The product automaton -/

namespace Verif.Product

variable {W : Type}

/-- The moves of the product: one component on epsilon, or both on the same label. -/
def Mv (A B : Aut W) (x : Nat × Nat) (g : Nat) (y : Nat × Nat) : Prop :=
  (g = epsilon ∧ (((⟨x.1, epsilon, y.1⟩ : Tr) ∈ keys A.edges ∧ y.2 = x.2) ∨
    ((⟨x.2, epsilon, y.2⟩ : Tr) ∈ keys B.edges ∧ y.1 = x.1))) ∨
  (g ≠ epsilon ∧ (⟨x.1, g, y.1⟩ : Tr) ∈ keys A.edges ∧ (⟨x.2, g, y.2⟩ : Tr) ∈ keys B.edges)

/-- The product represents pairs of states, all reachable, and only moves. -/
structure PInv (dual : Bool) (A B : Aut W) (s : Product W) : Prop where
  n : s.aut.n = s.size + s.idMap.length
  nodup : s.idMap.Nodup
  off : ∀ x ∈ s.idMap, ¬ (x.1 = x.2 ∧ x.1 < s.size)
  acc : ∀ u, u < s.aut.n → (s.aut.isAcc u = true ↔ A.isAcc (s.orig u).1 = true ∧ B.isAcc (s.orig u).2 = true)
  look : ∀ a b id, (a, b, id) ∈ s.lookup ↔ s.size ≤ id ∧ id < s.aut.n ∧ s.orig id = (a, b)
  back : dual = true → ∀ a b id, (b, a, id) ∈ s.lookupBack ↔ s.size ≤ id ∧ id < s.aut.n ∧ s.orig id = (a, b)
  edges : ∀ t ∈ keys s.aut.edges, t.src < s.aut.n ∧ t.dst < s.aut.n ∧ Mv A B (s.orig t.src) t.label (s.orig t.dst)
  reach : ∀ u, u < s.aut.n → ∃ p, p < s.size ∧ ∃ w, Path (· ∈ keys s.aut.edges) p w u
  range : ∀ u, u < s.aut.n → (s.orig u).1 < A.n ∧ (s.orig u).2 < B.n
  nodupE : (keys s.aut.edges).Nodup

theorem orig_lt {s : Product W} {u : Nat} (h : u < s.size) : s.orig u = (u, u) := by simp [orig, h]

theorem orig_ge {s : Product W} {i : Nat} {x : Nat × Nat} (h : s.idMap[i]? = some x) : s.orig (s.size + i) = x := by
  rw [orig, if_neg (by omega), List.getD, Nat.add_sub_cancel_left, h]; rfl

theorem orig_mem {s : Product W} {u : Nat} (h1 : s.size ≤ u) (h2 : u < s.size + s.idMap.length) :
    s.idMap[u - s.size]? = some (s.orig u) := by
  have : u - s.size < s.idMap.length := by omega
  rw [orig, if_neg (by omega), List.getD, List.getElem?_eq_getElem this]; rfl

theorem PInv.inj {dual : Bool} {A B : Aut W} {s : Product W} (h : PInv dual A B s) {u v : Nat} (hu : u < s.aut.n)
    (hv : v < s.aut.n) (he : s.orig u = s.orig v) : u = v := by
  have hn := h.n
  by_cases h1 : u < s.size <;> by_cases h2 : v < s.size
  · rw [orig_lt h1, orig_lt h2] at he; exact (Prod.mk.inj he).1
  · have := h.off _ (List.mem_of_getElem? (orig_mem (Nat.le_of_not_lt h2) (by omega)))
    rw [← he, orig_lt h1] at this
    exact absurd ⟨rfl, h1⟩ this
  · have := h.off _ (List.mem_of_getElem? (orig_mem (Nat.le_of_not_lt h1) (by omega)))
    rw [he, orig_lt h2] at this
    exact absurd ⟨rfl, h2⟩ this
  · have a1 := orig_mem (Nat.le_of_not_lt h1) (show u < s.size + s.idMap.length by omega)
    have a2 := orig_mem (Nat.le_of_not_lt h2) (show v < s.size + s.idMap.length by omega)
    rw [he] at a1
    obtain ⟨b1, b2⟩ := List.getElem?_eq_some_iff.1 a1
    obtain ⟨b3, b4⟩ := List.getElem?_eq_some_iff.1 a2
    have := (List.Nodup.getElem_inj_iff h.nodup).1 (b2.trans b4.symm)
    omega

theorem PInv.hasAcc {dual : Bool} {A B : Aut W} {s : Product W} (h : PInv dual A B s) :
    s.hasAcc = true ↔ ∃ u, u < s.aut.n ∧ A.isAcc (s.orig u).1 = true ∧ B.isAcc (s.orig u).2 = true := by
  have : s.hasAcc = true ↔ ∃ u, s.aut.isAcc u = true := by
    unfold Product.hasAcc Aut.isAcc
    rw [List.any_eq_true]
    constructor
    · rintro ⟨b, h1, h2⟩
      obtain ⟨u, hu⟩ := List.mem_iff_getElem?.1 h1
      exact ⟨u, by rw [hu]; exact h2⟩
    · rintro ⟨u, hu⟩
      cases hx : s.aut.acc[u]? with
      | none => rw [hx] at hu; simp at hu
      | some b => rw [hx] at hu; exact ⟨b, List.mem_of_getElem? hx, hu⟩
  rw [this]
  constructor
  · rintro ⟨u, hu⟩
    have := Aut.isAcc_lt hu
    exact ⟨u, this, (h.acc u this).1 hu⟩
  · rintro ⟨u, h1, h2⟩
    exact ⟨u, (h.acc u h1).2 h2⟩

/-- `s'` has the states and edges of `s` and possibly more. -/
structure PExt (s s' : Product W) : Prop where
  size : s'.size = s.size
  n : s.aut.n ≤ s'.aut.n
  orig : ∀ u, u < s.aut.n → s'.orig u = s.orig u
  keys : ∀ t ∈ keys s.aut.edges, t ∈ keys s'.aut.edges

theorem PExt.refl (s : Product W) : PExt s s := ⟨rfl, Nat.le_refl _, fun _ _ => rfl, fun _ h => h⟩

theorem PExt.trans {s t u : Product W} (h : PExt s t) (h' : PExt t u) : PExt s u :=
  ⟨h'.size.trans h.size, Nat.le_trans h.n h'.n,
    fun x hx => (h'.orig x (Nat.lt_of_lt_of_le hx h.n)).trans (h.orig x hx), fun t ht => h'.keys t (h.keys t ht)⟩

theorem Path.mono' {E E' : Tr → Prop} (hE : ∀ t, E t → E' t) {q f : Nat} {w : List Nat}
    (h : Path E q w f) : Path E' q w f := by
  induction h with
  | nil q => exact .nil q
  | cons h1 _ ih => exact .cons (hE _ h1) ih

theorem Path.snoc' {E : Tr → Prop} {p q r g : Nat} {w : List Nat} (h : Path E p w q) (h' : E ⟨q, g, r⟩) :
    Path E p (w ++ [g]) r := by
  induction h with
  | nil q => exact .cons h' (.nil _)
  | cons h1 _ ih => exact .cons h1 (ih h')

theorem addLabels_spec (a : Aut W) (top id : Nat) (ls : List (Nat × Ann W)) :
    (∀ t, t ∈ keys (addLabels a top id ls).edges ↔ t ∈ keys a.edges ∨ (t.src = top ∧ t.dst = id ∧ t.label ∈ ls.map Prod.fst)) ∧
    (addLabels a top id ls).acc = a.acc ∧ ((keys a.edges).Nodup → (keys (addLabels a top id ls).edges).Nodup) := by
  unfold addLabels
  induction ls generalizing a with
  | nil => simp
  | cons x ls ih =>
    rw [List.foldl_cons]
    obtain ⟨h1, h2, h3⟩ := ih (a.emplaceEdge ⟨top, x.1, id⟩ x.2)
    refine ⟨fun t => ?_, by rw [h2, Aut.acc_emplaceEdge], fun hn => h3 (Aut.nodup_emplaceEdge hn _ _)⟩
    rw [h1, Aut.keys_emplaceEdge]
    simp only [List.map_cons, List.mem_cons]
    obtain ⟨a1, a2, a3⟩ := t
    simp only [Tr.mk.injEq]
    grind

/-- What `getState` does before any edge is added. -/
theorem getState_spec {dual : Bool} {A B : Aut W} {s : Product W} (h : PInv dual A B s) (a b : Nat) :
    let r := getState dual A B s a b
    r.1.size = s.size ∧ r.1.aut.edges = s.aut.edges ∧ r.2.2 < r.1.aut.n ∧ r.1.orig r.2.2 = (a, b) ∧
    (∀ u, u < s.aut.n → r.1.orig u = s.orig u) ∧
    ((r.2.1 = false ∧ r.1 = s) ∨ (r.2.1 = true ∧ r.2.2 = s.aut.n ∧ r.1.aut.n = s.aut.n + 1 ∧
      r.1.aut.n = s.size + r.1.idMap.length ∧ r.1.idMap.Nodup ∧
      (∀ x ∈ r.1.idMap, ¬ (x.1 = x.2 ∧ x.1 < s.size)) ∧
      (∀ u, u < s.aut.n → r.1.aut.isAcc u = s.aut.isAcc u) ∧
      (r.1.aut.isAcc s.aut.n = true ↔ A.isAcc a = true ∧ B.isAcc b = true) ∧
      (∀ a' b' id, (a', b', id) ∈ r.1.lookup ↔ (a', b', id) ∈ s.lookup ∨ (a' = a ∧ b' = b ∧ id = s.aut.n)) ∧
      (dual = true → ∀ a' b' id, (b', a', id) ∈ r.1.lookupBack ↔
        (b', a', id) ∈ s.lookupBack ∨ (a' = a ∧ b' = b ∧ id = s.aut.n)))) := by
  intro r
  have hn := h.n
  by_cases hd : a = b ∧ a < s.size
  · have hr : r = (s, false, a) := by simp only [r, getState]; rw [if_pos hd]
    rw [hr]
    refine ⟨rfl, rfl, ?_, ?_, fun _ _ => rfl, .inl ⟨rfl, rfl⟩⟩
    · dsimp only; omega
    · dsimp only; rw [orig_lt hd.2, ← hd.1]
  cases hx : s.idMap.idxOf? (a, b) with
  | some id =>
    have hr : r = (s, false, id + s.size) := by simp only [r, getState]; rw [if_neg hd, hx]
    have hid : s.idMap[id]? = some (a, b) := by
      rw [List.idxOf?_eq_some_iff] at hx
      obtain ⟨h1, h2, _⟩ := hx
      rw [List.getElem?_eq_getElem h1, h2]
    have hlt := (List.getElem?_eq_some_iff.1 hid).1
    rw [hr]
    refine ⟨rfl, rfl, ?_, ?_, fun _ _ => rfl, .inl ⟨rfl, rfl⟩⟩
    · dsimp only; omega
    · dsimp only; rw [Nat.add_comm, orig_ge hid]
  | none =>
    have hnot : (a, b) ∉ s.idMap := by rwa [List.idxOf?_eq_none_iff] at hx
    have hr : r = ({ s with aut := s.aut.addState (A.isAcc a && B.isAcc b), idMap := s.idMap ++ [(a, b)],
                            lookup := s.lookup ++ [(a, b, s.aut.n)],
                            lookupBack := if dual then s.lookupBack ++ [(b, a, s.aut.n)] else s.lookupBack },
                   true, s.aut.n) := by simp only [r, getState]; rw [if_neg hd, hx]
    rw [hr]
    dsimp only
    refine ⟨rfl, rfl, by rw [Aut.n_addState]; omega, ?_, ?_, .inr ⟨rfl, rfl, Aut.n_addState _ _, ?_, ?_, ?_, ?_, ?_, ?_, ?_⟩⟩
    · rw [hn]
      apply orig_ge
      simp
    · intro u hu
      unfold orig
      dsimp only
      split
      · rfl
      · rw [List.getD, List.getD, List.getElem?_append_left (by omega)]
    · rw [Aut.n_addState, hn]; simp; omega
    · rw [List.nodup_append]
      refine ⟨h.nodup, List.nodup_singleton _, ?_⟩
      intro x hx y hy
      rw [List.mem_singleton] at hy
      rintro rfl
      exact hnot (hy ▸ hx)
    · intro x hx
      rcases List.mem_append.1 hx with hx | hx
      · exact h.off x hx
      · rw [List.mem_singleton] at hx
        subst hx
        exact hd
    · intro u hu
      rw [Aut.isAcc_addState, if_neg (by omega)]
    · rw [Aut.isAcc_addState, if_pos rfl]; simp
    · intro a' b' id; simp
    · intro hdu a' b' id; simp [hdu]; grind

theorem insert_spec {dual et : Bool} {A B : Aut W} {s : PSt W} (h : PInv dual A B s.prod) (hd : s.done = false)
    {r : PEdge W} (htop : r.top < s.prod.aut.n) (hne : r.labels ≠ [])
    (hmv : ∀ x ∈ r.labels, Mv A B (s.prod.orig r.top) x.1 (r.fst, r.snd)) (ha : r.fst < A.n) (hb : r.snd < B.n) :
    let s' := insert dual et A B s r
    PInv dual A B s'.prod ∧ PExt s.prod s'.prod ∧ (s'.done = true → s'.prod.hasAcc = true) ∧
    (∃ id, id < s'.prod.aut.n ∧ s'.prod.orig id = (r.fst, r.snd) ∧
      ∀ x ∈ r.labels, (⟨r.top, x.1, id⟩ : Tr) ∈ keys s'.prod.aut.edges) ∧
    (s'.done = false → (∀ u, u ∈ s'.waiting ↔ u ∈ s.waiting ∨ (s.prod.aut.n ≤ u ∧ u < s'.prod.aut.n)) ∧
      s'.waiting.length + s.prod.aut.n = s.waiting.length + s'.prod.aut.n) ∧
    (et = true → s'.done = false → s'.prod.hasAcc = false) ∧ (et = false → s'.done = false) := by
  intro s'
  obtain ⟨g1, g2, g3, g4, g5, g6⟩ := getState_spec h r.fst r.snd
  have hs' : s' = insert dual et A B s r := rfl
  unfold insert at hs'
  simp only [hd, Bool.false_eq_true, if_false] at hs'
  generalize getState dual A B s.prod r.fst r.snd = G at hs' g1 g2 g3 g4 g5 g6
  obtain ⟨p1, fresh, id⟩ := G
  dsimp only at hs' g1 g2 g3 g4 g5 g6
  obtain ⟨l1, l2, l3⟩ := addLabels_spec p1.aut r.top id r.labels
  let p2 : Product W := { p1 with aut := addLabels p1.aut r.top id r.labels }
  have hprod : s'.prod = p2 := by rw [hs']; split <;> rfl
  have hn2 : p2.aut.n = p1.aut.n := by show (addLabels _ _ _ _).n = _; simp [Aut.n, l2]
  have hacc2 : ∀ u, p2.aut.isAcc u = p1.aut.isAcc u := fun u => Aut.isAcc_congr l2 u
  have hor2 : ∀ u, p2.orig u = p1.orig u := fun u => rfl
  have hk2 : ∀ t, t ∈ keys p2.aut.edges ↔ t ∈ keys s.prod.aut.edges ∨ (t.src = r.top ∧ t.dst = id ∧ t.label ∈ r.labels.map Prod.fst) := by
    intro t
    have := l1 t
    rw [g2] at this
    exact this
  have hle : s.prod.aut.n ≤ p1.aut.n := by
    rcases g6 with ⟨_, h1⟩ | ⟨_, _, h1, _⟩
    · rw [h1]; exact Nat.le_refl _
    · omega
  have hext : PExt s.prod p2 := ⟨g1, by rw [hn2]; exact hle, fun u hu => g5 u hu, fun t ht => (hk2 t).2 (.inl ht)⟩
  have hinv : PInv dual A B p2 := by
    have hedges : ∀ t ∈ keys p2.aut.edges, t.src < p2.aut.n ∧ t.dst < p2.aut.n ∧
        Mv A B (p2.orig t.src) t.label (p2.orig t.dst) := by
      intro t ht
      rw [hn2]
      rcases (hk2 t).1 ht with h1 | ⟨h1, h2, h3⟩
      · obtain ⟨e1, e2, e3⟩ := h.edges t h1
        refine ⟨by omega, by omega, ?_⟩
        rw [hor2, hor2, g5 _ e1, g5 _ e2]
        exact e3
      · obtain ⟨x, h4, h5⟩ := List.mem_map.1 h3
        refine ⟨by omega, by omega, ?_⟩
        rw [hor2, hor2, h2, g4, h1, g5 _ htop, ← h5]
        exact hmv x h4
    have hreach : ∀ u, u < p2.aut.n → ∃ p, p < p2.size ∧ ∃ w, Path (· ∈ keys p2.aut.edges) p w u := by
      intro u hu
      have hold : ∀ u, u < s.prod.aut.n → ∃ p, p < p2.size ∧ ∃ w, Path (· ∈ keys p2.aut.edges) p w u := by
        intro u hu
        obtain ⟨p, h1, w, h2⟩ := h.reach u hu
        refine ⟨p, ?_, w, Path.mono' (fun t ht => (hk2 t).2 (.inl ht)) h2⟩
        show p < p1.size; rw [g1]; exact h1
      by_cases h1 : u < s.prod.aut.n
      · exact hold u h1
      · rcases g6 with ⟨_, h2⟩ | ⟨_, h2, h3, _⟩
        · rw [hn2, h2] at hu; exact absurd hu h1
        · have hu' : u = id := by omega
          obtain ⟨x, hx⟩ := List.exists_mem_of_ne_nil _ hne
          obtain ⟨p, h4, w, h5⟩ := hold r.top htop
          refine ⟨p, h4, w ++ [x.1], Path.snoc' h5 ((hk2 _).2 (.inr ⟨rfl, hu', List.mem_map.2 ⟨x, hx, rfl⟩⟩))⟩
    have hne2 : (keys p2.aut.edges).Nodup := l3 (by rw [g2]; exact h.nodupE)
    rcases g6 with ⟨_, h1⟩ | ⟨_, h2, h3, h4, h5, h6, h7, h8, h9, h10⟩
    · refine ⟨?_, ?_, ?_, ?_, ?_, ?_, hedges, hreach, ?_, hne2⟩
      · rw [hn2]; show p1.aut.n = p1.size + p1.idMap.length; rw [h1]; exact h.n
      · show p1.idMap.Nodup; rw [h1]; exact h.nodup
      · show ∀ x ∈ p1.idMap, ¬ (x.1 = x.2 ∧ x.1 < p1.size); rw [h1]; exact h.off
      · intro u hu; rw [hn2] at hu; rw [hacc2, hor2]; subst h1; exact h.acc u hu
      · intro a b i; rw [hn2, hor2]; show (a, b, i) ∈ p1.lookup ↔ p1.size ≤ i ∧ _; rw [h1]; exact h.look a b i
      · intro hdu a b i; rw [hn2, hor2]; show (b, a, i) ∈ p1.lookupBack ↔ p1.size ≤ i ∧ _; rw [h1]; exact h.back hdu a b i
      · intro u hu; rw [hn2] at hu; rw [hor2]; subst h1; exact h.range u hu
    · have hlast : ∀ u, u < p1.aut.n → u < s.prod.aut.n ∨ u = s.prod.aut.n := fun u hu => by omega
      have hsz : s.prod.size ≤ s.prod.aut.n := by rw [h.n]; omega
      have hlk : ∀ a b i, (a = r.fst ∧ b = r.snd ∧ i = s.prod.aut.n) ∨
          (s.prod.size ≤ i ∧ i < s.prod.aut.n ∧ s.prod.orig i = (a, b)) ↔
          s.prod.size ≤ i ∧ i < p1.aut.n ∧ p1.orig i = (a, b) := by
        intro a b i
        constructor
        · rintro (⟨rfl, rfl, rfl⟩ | ⟨q1, q2, q3⟩)
          · rw [← h2]; exact ⟨by omega, by omega, g4⟩
          · exact ⟨q1, by omega, by rw [g5 i q2]; exact q3⟩
        · rintro ⟨q1, q2, q3⟩
          rcases hlast i q2 with q4 | q4
          · rw [g5 i q4] at q3; exact .inr ⟨q1, q4, q3⟩
          · rw [q4, ← h2, g4, Prod.mk.injEq] at q3
            exact .inl ⟨q3.1.symm, q3.2.symm, q4⟩
      refine ⟨?_, h5, ?_, ?_, ?_, ?_, hedges, hreach, ?_, hne2⟩
      · rw [hn2]; show p1.aut.n = p1.size + p1.idMap.length; rw [g1]; exact h4
      · show ∀ x ∈ p1.idMap, ¬ (x.1 = x.2 ∧ x.1 < p1.size); rw [g1]; exact h6
      · intro u hu
        rw [hn2] at hu
        rw [hacc2, hor2]
        rcases hlast u hu with h11 | h11
        · rw [h7 u h11, g5 u h11]; exact h.acc u h11
        · rw [h11, h8, ← h2, g4]
      · intro a b i
        rw [hn2, hor2]
        show (a, b, i) ∈ p1.lookup ↔ p1.size ≤ i ∧ _
        rw [h9, g1, ← hlk, h.look]
        exact or_comm
      · intro hdu a b i
        rw [hn2, hor2]
        show (b, a, i) ∈ p1.lookupBack ↔ p1.size ≤ i ∧ _
        rw [h10 hdu, g1, ← hlk, h.back hdu]
        exact or_comm
      · intro u hu
        rw [hn2] at hu
        rw [hor2]
        rcases hlast u hu with h11 | h11
        · rw [g5 u h11]; exact h.range u h11
        · rw [h11, ← h2, g4]; exact ⟨ha, hb⟩
  have hid : id < p2.aut.n := by rw [hn2]; exact g3
  refine ⟨by rw [hprod]; exact hinv, by rw [hprod]; exact hext, ?_, ⟨id, by rw [hprod]; exact hid, by rw [hprod]; exact g4, ?_⟩, ?_, ?_, ?_⟩
  · intro hdone
    rw [hprod]
    rw [hs'] at hdone
    split at hdone
    · rename_i hc; rw [Bool.and_eq_true] at hc; exact hc.2
    · simp at hdone
  · intro x hx
    rw [hprod]
    exact (hk2 _).2 (.inr ⟨rfl, rfl, List.mem_map.2 ⟨x, hx, rfl⟩⟩)
  · intro hdone
    have hw : s'.waiting = if fresh then id :: s.waiting else s.waiting := by
      rw [hs'] at hdone ⊢
      split
      · rename_i hc; rw [if_pos hc] at hdone; simp at hdone
      · rfl
    rw [hw, hprod, hn2]
    rcases g6 with ⟨h1, h2⟩ | ⟨h1, h2, h3, _⟩
    · rw [h1, h2]
      refine ⟨fun u => ?_, by simp⟩
      simp only [Bool.false_eq_true, if_false]
      constructor
      · exact .inl
      · rintro (h | h)
        · exact h
        · omega
    · rw [h1]
      simp only [if_true, List.mem_cons, List.length_cons]
      refine ⟨fun u => ?_, by omega⟩
      constructor
      · rintro (rfl | h)
        · exact .inr (by omega)
        · exact .inl h
      · rintro (h | h)
        · exact .inr h
        · exact .inl (by omega)
  · intro het hdone
    rw [hprod]
    rw [hs'] at hdone
    split at hdone
    · simp at hdone
    · rename_i hc
      rw [het, Bool.true_and] at hc
      exact Bool.not_eq_true _ |>.mp hc
  · intro het
    rw [hs', het]
    rfl

/-- Edges that may be added to the product `s`. -/
structure EdgeOK (A B : Aut W) (s : Product W) (r : PEdge W) : Prop where
  top : r.top < s.aut.n
  ne : r.labels ≠ []
  mv : ∀ x ∈ r.labels, Mv A B (s.orig r.top) x.1 (r.fst, r.snd)
  fst : r.fst < A.n
  snd : r.snd < B.n

theorem EdgeOK.ext {A B : Aut W} {s s' : Product W} (h : PExt s s') {r : PEdge W} (hr : EdgeOK A B s r) :
    EdgeOK A B s' r :=
  ⟨Nat.lt_of_lt_of_le hr.top h.n, hr.ne, by rw [h.orig _ hr.top]; exact hr.mv, hr.fst, hr.snd⟩

theorem foldl_done (dual et : Bool) (A B : Aut W) (rs : List (PEdge W)) (s : PSt W) (h : s.done = true) :
    rs.foldl (insert dual et A B) s = s := by
  induction rs with
  | nil => rfl
  | cons r rs ih =>
    rw [List.foldl_cons]
    have : insert dual et A B s r = s := by unfold insert; simp [h]
    rw [this, ih]

theorem insertAll_spec {dual et : Bool} {A B : Aut W} (rs : List (PEdge W)) (s : PSt W) (h : PInv dual A B s.prod)
    (hd : s.done = false) (hrs : ∀ r ∈ rs, EdgeOK A B s.prod r) :
    let s' := rs.foldl (insert dual et A B) s
    PInv dual A B s'.prod ∧ PExt s.prod s'.prod ∧ (s'.done = true → s'.prod.hasAcc = true) ∧
    (s'.done = false → (∀ r ∈ rs, ∃ id, id < s'.prod.aut.n ∧ s'.prod.orig id = (r.fst, r.snd) ∧
      ∀ x ∈ r.labels, (⟨r.top, x.1, id⟩ : Tr) ∈ keys s'.prod.aut.edges) ∧
      (∀ u, u ∈ s'.waiting ↔ u ∈ s.waiting ∨ (s.prod.aut.n ≤ u ∧ u < s'.prod.aut.n)) ∧
      s'.waiting.length + s.prod.aut.n = s.waiting.length + s'.prod.aut.n) ∧ (et = false → s'.done = false) := by
  induction rs generalizing s with
  | nil =>
    refine ⟨h, PExt.refl _, fun hc => absurd hc (by rw [List.foldl_nil, hd]; simp), fun _ => ⟨by simp, fun u => ?_, rfl⟩, fun _ => hd⟩
    rw [List.foldl_nil]
    constructor
    · exact .inl
    · rintro (h | h)
      · exact h
      · omega
  | cons r rs ih =>
    have hr := hrs r (by simp)
    obtain ⟨i1, i2, i3, i4, i5, _, i6⟩ := insert_spec (et := et) h hd hr.top hr.ne hr.mv hr.fst hr.snd
    intro s'
    have hs' : s' = rs.foldl (insert dual et A B) (insert dual et A B s r) := rfl
    generalize insert dual et A B s r = s1 at i1 i2 i3 i4 i5 i6 hs'
    cases hdone : s1.done with
    | true =>
      rw [foldl_done dual et A B rs s1 hdone] at hs'
      rw [hs']
      exact ⟨i1, i2, i3, fun hc => by rw [hdone] at hc; simp at hc, i6⟩
    | false =>
      obtain ⟨j1, j2, j3, j4, j5⟩ := ih s1 i1 hdone (fun r hr => (hrs r (by simp [hr])).ext i2)
      rw [hs']
      refine ⟨j1, i2.trans j2, j3, ?_, j5⟩
      intro hc
      obtain ⟨k1, k2, k3⟩ := j4 hc
      obtain ⟨w1, w2⟩ := i5 hdone
      refine ⟨?_, ?_, by omega⟩
      · intro r' hr'
        rcases List.mem_cons.1 hr' with rfl | hr'
        · obtain ⟨id, q1, q2, q3⟩ := i4
          exact ⟨id, Nat.lt_of_lt_of_le q1 j2.n, by rw [j2.orig id q1]; exact q2, fun x hx => j2.keys _ (q3 x hx)⟩
        · exact k1 r' hr'
      · intro u
        rw [k2, w1]
        have := i2.n
        have := j2.n
        constructor
        · rintro ((h | h) | h)
          · exact .inl h
          · exact .inr (by omega)
          · exact .inr (by omega)
        · rintro (h | h)
          · exact .inl (.inl h)
          · by_cases hu : u < s1.prod.aut.n
            · exact .inl (.inr (by omega))
            · exact .inr (by omega)

/-! ## The edges out of a state -/

variable [Zero W]

theorem mem_labelsOf (a : Aut W) (q u : Nat) :
    SSorted (labelsOf a q u) ∧ ∀ g, g ∈ labelsOf a q u ↔ (⟨q, g, u⟩ : Tr) ∈ keys a.edges := by
  have key : ∀ (l s : List Nat), SSorted s →
      SSorted (l.foldl (fun s l => (VSet.emplace natLt s l).1) s) ∧
      ∀ g, g ∈ l.foldl (fun s l => (VSet.emplace natLt s l).1) s ↔ g ∈ s ∨ g ∈ l := by
    intro l
    induction l with
    | nil => intro s hs; simp [hs]
    | cons x l ih =>
      intro s hs
      rw [List.foldl_cons]
      have h1 := Nfa.sorted_ssorted (VSet.emplace_sorted natLt_total (Nfa.ssorted_sorted hs) x)
      obtain ⟨h2, h3⟩ := ih _ h1
      refine ⟨h2, fun g => ?_⟩
      rw [h3, VSet.mem_emplace natLt_total]
      simp only [List.mem_cons]
      grind
  obtain ⟨h1, h2⟩ := key (((keys a.edges).filter fun t => t.src == q && t.dst == u).map Tr.label) [] List.Pairwise.nil
  refine ⟨h1, fun g => ?_⟩
  unfold labelsOf
  rw [h2, List.mem_map]
  constructor
  · rintro (h | ⟨⟨a1, a2, a3⟩, h3, rfl⟩)
    · simp at h
    · simp at h3
      obtain ⟨h3, rfl, rfl⟩ := h3
      exact h3
  · intro h
    exact .inr ⟨⟨q, g, u⟩, by simpa using h, rfl⟩

theorem mem_common (A B : Aut W) (i iTo f fTo : Nat) :
    SSorted (common A B i iTo f fTo) ∧ ∀ g, g ∈ common A B i iTo f fTo ↔
      (⟨i, g, iTo⟩ : Tr) ∈ keys A.edges ∧ (⟨f, g, fTo⟩ : Tr) ∈ keys B.edges := by
  obtain ⟨h1, h2⟩ := mem_labelsOf A i iTo
  obtain ⟨h3, h4⟩ := mem_labelsOf B f fTo
  refine ⟨h1.sublist (setInter_sublist _ _), fun g => ?_⟩
  unfold common
  rw [mem_setInter h1 h3, h2, h4]

/-- The test whether a common label other than epsilon exists. -/
theorem common_test {l : List Nat} (hl : SSorted l) :
    l.length > (if l.getLast? = some epsilon then 1 else 0) ↔ ∃ g ∈ l, g ≠ epsilon := by
  constructor
  · intro h
    rcases List.eq_nil_or_concat l with rfl | ⟨l', x, rfl⟩
    · simp at h
    · rw [List.concat_eq_append] at h hl ⊢
      by_cases hx : x = epsilon
      · rw [if_pos (by simp [hx])] at h
        cases l' with
        | nil => simp at h
        | cons y l' =>
          refine ⟨y, by simp, ?_⟩
          have := (List.pairwise_append.1 hl).2.2 y (by simp) x (by simp)
          omega
      · exact ⟨x, by simp, hx⟩
  · rintro ⟨g, h1, h2⟩
    split
    · rename_i hlast
      have h3 := List.mem_of_getLast? hlast
      by_contra hc
      have : l.length = 1 := by
        have := List.length_pos_of_mem h1
        omega
      obtain ⟨x, rfl⟩ := List.length_eq_one_iff.1 this
      simp at h1 h3
      exact h2 (h1.trans h3.symm)
    · exact List.length_pos_of_mem h1

theorem mem_edgesFrom {h : HashOrder} {A B : Aut W} {s : Product W} {top : Nat} {r : PEdge W} :
    r ∈ edgesFrom h A B s top → r.top = top ∧ r.labels ≠ [] ∧
      ∀ x ∈ r.labels, Mv A B (s.orig top) x.1 (r.fst, r.snd) := by
  intro hr
  unfold edgesFrom epsEdges jointEdges at hr
  rw [List.mem_append, List.mem_append] at hr
  rcases hr with (hr | hr) | hr
  · obtain ⟨u, h1, rfl⟩ := List.mem_map.1 hr
    rw [List.mem_filter] at h1
    refine ⟨rfl, by simp, fun x hx => ?_⟩
    rw [List.mem_singleton] at hx
    subst hx
    exact .inl ⟨rfl, .inl ⟨(Aut.hasEdge_iff _ _).1 h1.2, rfl⟩⟩
  · obtain ⟨u, h1, rfl⟩ := List.mem_map.1 hr
    rw [List.mem_filter] at h1
    refine ⟨rfl, by simp, fun x hx => ?_⟩
    rw [List.mem_singleton] at hx
    subst hx
    exact .inl ⟨rfl, .inr ⟨(Aut.hasEdge_iff _ _).1 h1.2, rfl⟩⟩
  · rw [List.mem_flatMap] at hr
    obtain ⟨iTo, _, hr⟩ := hr
    rw [List.mem_flatMap] at hr
    obtain ⟨fTo, _, hr⟩ := hr
    unfold jointEdge at hr
    obtain ⟨c1, c2⟩ := mem_common A B (s.orig top).1 iTo (s.orig top).2 fTo
    dsimp only at hr
    have ht := common_test c1
    generalize (if (common A B (s.orig top).1 iTo (s.orig top).2 fTo).getLast? = some epsilon then 1 else 0) = m at hr ht
    split at hr
    · rename_i hc
      rw [List.mem_singleton] at hr
      subst hr
      obtain ⟨g, h1, h2⟩ := ht.1 hc
      refine ⟨rfl, ?_, ?_⟩
      · apply List.ne_nil_of_mem (a := (g, ann A ⟨(s.orig top).1, g, iTo⟩))
        exact List.mem_map.2 ⟨g, List.mem_filter.2 ⟨h1, by simpa using h2⟩, rfl⟩
      · intro x hx
        obtain ⟨l, h3, rfl⟩ := List.mem_map.1 hx
        rw [List.mem_filter] at h3
        exact .inr ⟨by simpa using h3.2, (c2 l).1 h3.1⟩
    · simp at hr

theorem edgesFrom_complete (h : HashOrder) {A B : Aut W} {s : Product W} {top g : Nat} {y : Nat × Nat}
    (hm : Mv A B (s.orig top) g y) : ∃ r ∈ edgesFrom h A B s top, (r.fst, r.snd) = y ∧ ∃ x ∈ r.labels, x.1 = g := by
  unfold edgesFrom epsEdges jointEdges
  simp only [List.mem_append]
  rcases hm with ⟨rfl, ⟨h1, h2⟩ | ⟨h1, h2⟩⟩ | ⟨h1, h2, h3⟩
  · refine ⟨⟨top, y.1, (s.orig top).2, [(epsilon, ann A ⟨(s.orig top).1, epsilon, y.1⟩)]⟩,
      .inl (.inl (List.mem_map.2 ⟨y.1, List.mem_filter.2 ⟨(Aut.mem_outTos _ _ _ _).2 ⟨_, h1⟩, (Aut.hasEdge_iff _ _).2 h1⟩, rfl⟩)), ?_, ?_⟩
    · rw [← h2]
    · exact ⟨_, List.mem_singleton.2 rfl, rfl⟩
  · refine ⟨⟨top, (s.orig top).1, y.2, [(epsilon, ann B ⟨(s.orig top).2, epsilon, y.2⟩)]⟩,
      .inl (.inr (List.mem_map.2 ⟨y.2, List.mem_filter.2 ⟨(Aut.mem_outTos _ _ _ _).2 ⟨_, h1⟩, (Aut.hasEdge_iff _ _).2 h1⟩, rfl⟩)), ?_, ?_⟩
    · rw [← h2]
    · exact ⟨_, List.mem_singleton.2 rfl, rfl⟩
  · obtain ⟨c1, c2⟩ := mem_common A B (s.orig top).1 y.1 (s.orig top).2 y.2
    have hg := (c2 g).2 ⟨h2, h3⟩
    refine ⟨⟨top, y.1, y.2, ((common A B (s.orig top).1 y.1 (s.orig top).2 y.2).filter fun l => l != epsilon).map
        fun l => (l, ann A ⟨(s.orig top).1, l, y.1⟩)⟩, .inr ?_, rfl,
      (g, ann A ⟨(s.orig top).1, g, y.1⟩), List.mem_map.2 ⟨g, List.mem_filter.2 ⟨hg, by simpa using h1⟩, rfl⟩, rfl⟩
    refine List.mem_flatMap.2 ⟨y.1, (Aut.mem_outTos _ _ _ _).2 ⟨_, h2⟩,
      List.mem_flatMap.2 ⟨y.2, (Aut.mem_outTos _ _ _ _).2 ⟨_, h3⟩, ?_⟩⟩
    unfold jointEdge
    dsimp only
    rw [if_pos ((common_test c1).2 ⟨g, hg, h1⟩)]
    exact List.mem_singleton.2 rfl

/-- Transitions stay in range. -/
def InRange (A : Aut W) : Prop := ∀ t ∈ keys A.edges, t.src < A.n ∧ t.dst < A.n

theorem Mv.range {A B : Aut W} (hA : InRange A) (hB : InRange B) {x y : Nat × Nat} {g : Nat} (h : Mv A B x g y)
    (h1 : x.1 < A.n) (h2 : x.2 < B.n) : y.1 < A.n ∧ y.2 < B.n := by
  rcases h with ⟨rfl, ⟨h3, h4⟩ | ⟨h3, h4⟩⟩ | ⟨_, h3, h4⟩
  · exact ⟨(hA _ h3).2, by omega⟩
  · exact ⟨by omega, (hB _ h3).2⟩
  · exact ⟨(hA _ h3).2, (hB _ h4).2⟩

theorem edgesFrom_ok (h : HashOrder) {dual : Bool} {A B : Aut W} (hA : InRange A) (hB : InRange B) {s : Product W}
    (hi : PInv dual A B s) {top : Nat} (ht : top < s.aut.n) : ∀ r ∈ edgesFrom h A B s top, EdgeOK A B s r := by
  intro r hr
  obtain ⟨h1, h2, h3⟩ := mem_edgesFrom hr
  obtain ⟨x, hx⟩ := List.exists_mem_of_ne_nil _ h2
  obtain ⟨r1, r2⟩ := hi.range top ht
  obtain ⟨h4, h5⟩ := (h3 x hx).range hA hB r1 r2
  exact ⟨by rw [h1]; exact ht, h2, by rw [h1]; exact h3, h4, h5⟩

/-- All moves out of the states that satisfy `P` are in the product. -/
def Complete (A B : Aut W) (s : Product W) (P : Nat → Prop) : Prop :=
  ∀ u, u < s.aut.n → P u → ∀ g y, Mv A B (s.orig u) g y → ∃ v, v < s.aut.n ∧ s.orig v = y ∧ (⟨u, g, v⟩ : Tr) ∈ keys s.aut.edges

theorem construct_spec (h : HashOrder) {dual et : Bool} {A B : Aut W} (hA : InRange A) (hB : InRange B) (k : Nat)
    (s : PSt W) (hi : PInv dual A B s.prod) (hdn : s.done = true → s.prod.hasAcc = true)
    (hw : s.done = false → ∀ u ∈ s.waiting, u < s.prod.aut.n)
    (hc : s.done = false → Complete A B s.prod (fun u => u ∉ s.waiting))
    (hk : s.waiting.length + A.n * B.n ≤ k + s.prod.idMap.length) :
    let s' := construct h dual et A B k s
    PInv dual A B s'.prod ∧ PExt s.prod s'.prod ∧ (s'.done = true → s'.prod.hasAcc = true) ∧
    (s'.done = false → Complete A B s'.prod (fun _ => True)) ∧ (et = false → s.done = false → s'.done = false) := by
  induction k generalizing s with
  | zero =>
    have hlen : s.prod.idMap.length ≤ A.n * B.n := by
      have hsub : s.prod.idMap ⊆ (List.range A.n).product (List.range B.n) := by
        intro x hx
        obtain ⟨i, hx⟩ := List.mem_iff_getElem?.1 hx
        have hil := (List.getElem?_eq_some_iff.1 hx).1
        have := hi.range (s.prod.size + i) (by rw [hi.n]; omega)
        rw [orig_ge hx] at this
        exact List.mem_product.2 ⟨List.mem_range.2 this.1, List.mem_range.2 this.2⟩
      have := (List.subperm_of_subset hi.nodup hsub).length_le
      rw [show (List.range A.n).product (List.range B.n) = List.range A.n ×ˢ List.range B.n from rfl,
        List.length_product, List.length_range, List.length_range] at this
      exact this
    have hwe : s.waiting = [] := List.length_eq_zero_iff.1 (by omega)
    refine ⟨hi, PExt.refl _, hdn, fun hd => ?_, fun _ hd => hd⟩
    intro u hu _
    exact hc hd u hu (by rw [hwe]; simp)
  | succ k ih =>
    intro s'
    have hs' : s' = construct h dual et A B (k + 1) s := rfl
    unfold construct at hs'
    cases hd : s.done with
    | true =>
      rw [hd, if_pos rfl] at hs'
      rw [hs']
      exact ⟨hi, PExt.refl _, hdn, fun hc => by rw [hd] at hc; simp at hc, fun _ hc => by simp at hc⟩
    | false =>
      rw [hd] at hs'
      simp only [Bool.false_eq_true, if_false] at hs'
      cases hws : s.waiting with
      | nil =>
        rw [hws] at hs'
        dsimp only at hs'
        rw [hs']
        refine ⟨hi, PExt.refl _, hdn, fun hd => ?_, fun _ _ => hd⟩
        intro u hu _
        exact hc hd u hu (by rw [hws]; simp)
      | cons top ws =>
        rw [hws] at hs'
        dsimp only at hs'
        have htop : top < s.prod.aut.n := hw hd top (by rw [hws]; simp)
        obtain ⟨i1, i2, i3, i4, i5⟩ := insertAll_spec (et := et) (edgesFrom h A B s.prod top)
          { prod := s.prod, waiting := ws } hi rfl (edgesFrom_ok h hA hB hi htop)
        generalize hs1 : (edgesFrom h A B s.prod top).foldl (insert dual et A B) { prod := s.prod, waiting := ws } = s1 at *
        dsimp only at i1 i2 i3 i4 i5
        have hlen : s1.done = false → s1.waiting.length + A.n * B.n ≤ k + s1.prod.idMap.length := by
          intro hd1
          obtain ⟨_, _, h3⟩ := i4 hd1
          have h4 := i1.n
          have h5 := hi.n
          have h6 := i2.size
          rw [hws, List.length_cons] at hk
          omega
        cases hd1 : s1.done with
        | true =>
          have : construct h dual et A B k s1 = s1 := by
            cases k with
            | zero => rfl
            | succ k => unfold construct; rw [hd1]; rfl
          rw [hs', this]
          exact ⟨i1, i2, i3, fun hc => by rw [hd1] at hc; simp at hc, fun he _ => by rw [i5 he] at hd1; simp at hd1⟩
        | false =>
          obtain ⟨q1, q2, q3⟩ := i4 hd1
          obtain ⟨j1, j2, j3, j4, j5⟩ := ih s1 i1 i3 (by
              intro _ u hu
              rcases (q2 u).1 hu with h1 | h1
              · exact Nat.lt_of_lt_of_le (hw hd u (by rw [hws]; simp [h1])) i2.n
              · exact h1.2) (by
              intro _ u hu hnw g y hm
              have hu0 : u < s.prod.aut.n := by
                by_contra hcon
                exact hnw ((q2 u).2 (.inr ⟨by omega, hu⟩))
              rw [i2.orig u hu0] at hm
              by_cases hut : u = top
              · subst hut
                obtain ⟨r, h1, h2, x, h3, h4⟩ := edgesFrom_complete h hm
                obtain ⟨id, h5, h6, h7⟩ := q1 r h1
                have h8 := (mem_edgesFrom h1).1
                have := h7 x h3
                rw [h8, h4] at this
                exact ⟨id, h5, by rw [h6, h2], this⟩
              · have hnw0 : u ∉ s.waiting := by
                  rw [hws, List.mem_cons]
                  rintro (h1 | h1)
                  · exact hut h1
                  · exact hnw ((q2 u).2 (.inl h1))
                obtain ⟨v, h1, h2, h3⟩ := hc hd u hu0 hnw0 g y hm
                exact ⟨v, Nat.lt_of_lt_of_le h1 i2.n, by rw [i2.orig v h1]; exact h2, i2.keys _ h3⟩) (hlen hd1)
          rw [hs']
          exact ⟨j1, i2.trans j2, j3, j4, fun he _ => j5 he hd1⟩

/-! ## initialize_product -/

theorem ofAutomata_inv (dual : Bool) {A B : Aut W} {size : Nat} (hA : size ≤ A.n) (hB : size ≤ B.n) :
    PInv dual A B (ofAutomata size A B) := by
  obtain ⟨h1, h2, h3⟩ := Aut.special_spec (W := W) size
    (sp := (List.range size).filter fun i => A.isAcc i && B.isAcc i)
    (by exact (List.pairwise_lt_range).filter _) true
  have ho : ∀ u, u < size → (ofAutomata size A B).orig u = (u, u) := fun u hu => orig_lt (s := ofAutomata size A B) hu
  have hn : (ofAutomata size A B).aut.n = size := h1
  have hk : keys (ofAutomata size A B).aut.edges = [] := by
    show keys (Aut.special (W := W) size _ true).edges = []
    rw [h2]; rfl
  refine ⟨by rw [hn]; rfl, List.nodup_nil, by intro x hx; simp [ofAutomata] at hx, ?_, ?_, ?_, ?_, ?_, ?_, ?_⟩
  · intro u hu
    rw [hn] at hu
    rw [ho u hu]
    show (Aut.special (W := W) size _ true).isAcc u = true ↔ _
    rw [h3]
    simp [hu]
  · intro a b id
    rw [hn]
    constructor
    · intro h; simp [ofAutomata] at h
    · rintro ⟨h4, h5, _⟩; exact absurd h5 (Nat.not_lt.2 h4)
  · intro _ a b id
    rw [hn]
    constructor
    · intro h; simp [ofAutomata] at h
    · rintro ⟨h4, h5, _⟩; exact absurd h5 (Nat.not_lt.2 h4)
  · rw [hk]; simp
  · intro u hu
    rw [hn] at hu
    exact ⟨u, hu, [], .nil u⟩
  · intro u hu
    rw [hn] at hu
    rw [ho u hu]
    exact ⟨by dsimp only; omega, by dsimp only; omega⟩
  · rw [hk]; exact List.nodup_nil

/-- The specification shared by `initialize_product` and `add_edge`: the flag says whether an accepting state is
there, and without early termination, or if there is none, all moves are there. -/
structure ROK (dual et : Bool) (A B : Aut W) (r : Product W × Bool) : Prop where
  inv : PInv dual A B r.1
  flag : r.2 = r.1.hasAcc
  complete : (et = false ∨ r.2 = false) → Complete A B r.1 (fun _ => True)

theorem initProduct_spec (h : HashOrder) {dual et : Bool} {A B : Aut W} (hA : InRange A) (hB : InRange B)
    {s : Product W} (hi : PInv dual A B s) :
    ROK dual et A B (initProduct h dual et A B s) ∧ PExt s (initProduct h dual et A B s).1 := by
  obtain ⟨h1, h2, h3, h4, h5⟩ := construct_spec h (et := et) hA hB
    (fuel A B { prod := s, waiting := (List.range s.aut.n).reverse })
    { prod := s, waiting := (List.range s.aut.n).reverse } hi (by simp) (by simp)
    (by intro _ u hu hn; simp at hn; exact absurd hu (Nat.not_lt.2 hn)) (by unfold fuel; dsimp only; omega)
  unfold initProduct
  dsimp only
  generalize construct h dual et A B (fuel A B { prod := s, waiting := (List.range s.aut.n).reverse })
    { prod := s, waiting := (List.range s.aut.n).reverse } = s' at *
  refine ⟨⟨h1, ?_, ?_⟩, h2⟩
  · unfold result
    cases hd : s'.done with
    | true => simp [h3 hd]
    | false => simp
  · rintro (he | he)
    · exact h4 (h5 he rfl)
    · unfold result at he
      rw [Bool.or_eq_false_iff] at he
      exact h4 he.1

/-! ## add_edge -/

theorem mem_fromStates {dual : Bool} {A B : Aut W} {s : Product W} (hi : PInv dual A B s) (inFirst : Bool)
    (hd : inFirst = false → dual = true) (q o u : Nat) :
    (o, u) ∈ fromStates inFirst s q ↔
      u < s.aut.n ∧ s.orig u = if inFirst then (q, o) else (o, q) := by
  have hn := hi.n
  have hlow : ∀ (x y : Nat), u < s.size → (s.orig u = (x, y) ↔ x = u ∧ y = u) := by
    intro x y hu
    rw [orig_lt hu, Prod.mk.injEq]
    constructor <;> rintro ⟨h1, h2⟩ <;> exact ⟨h1.symm, h2.symm⟩
  have hlast : (o, u) ∈ (if q < s.size then [(q, q)] else []) ↔ u < s.size ∧ o = u ∧ q = u := by
    split
    · simp; constructor
      · rintro ⟨rfl, rfl⟩; simp_all
      · rintro ⟨h1, rfl, rfl⟩; simp
    · simp
      rintro h1 rfl rfl
      omega
  unfold fromStates
  rw [List.mem_append, List.mem_map, hlast]
  cases inFirst with
  | true =>
    simp only [if_true]
    constructor
    · rintro (⟨⟨a, b, id⟩, h1, h2⟩ | ⟨h1, rfl, rfl⟩)
      · rw [List.mem_filter] at h1
        simp only [Prod.mk.injEq] at h2
        obtain ⟨rfl, rfl⟩ := h2
        obtain ⟨h3, h4⟩ := h1
        simp only [beq_iff_eq] at h4
        subst h4
        obtain ⟨_, h5, h6⟩ := (hi.look _ _ _).1 h3
        exact ⟨h5, h6⟩
      · exact ⟨by omega, orig_lt h1⟩
    · rintro ⟨h1, h2⟩
      by_cases hu : u < s.size
      · obtain ⟨h3, h4⟩ := (hlow _ _ hu).1 h2
        exact .inr ⟨hu, h4, h3⟩
      · exact .inl ⟨(q, o, u), List.mem_filter.2 ⟨(hi.look _ _ _).2 ⟨by omega, h1, h2⟩, by simp⟩, rfl⟩
  | false =>
    simp only [Bool.false_eq_true, if_false]
    have hb := hi.back (hd rfl)
    constructor
    · rintro (⟨⟨a, b, id⟩, h1, h2⟩ | ⟨h1, rfl, rfl⟩)
      · rw [List.mem_filter] at h1
        simp only [Prod.mk.injEq] at h2
        obtain ⟨rfl, rfl⟩ := h2
        obtain ⟨h3, h4⟩ := h1
        simp only [beq_iff_eq] at h4
        subst h4
        obtain ⟨_, h5, h6⟩ := (hb _ _ _).1 h3
        exact ⟨h5, h6⟩
      · exact ⟨by omega, orig_lt h1⟩
    · rintro ⟨h1, h2⟩
      by_cases hu : u < s.size
      · obtain ⟨h3, h4⟩ := (hlow _ _ hu).1 h2
        exact .inr ⟨hu, h3, h4⟩
      · exact .inl ⟨(q, o, u), List.mem_filter.2 ⟨(hb _ _ _).2 ⟨by omega, h1, h2⟩, by simp⟩, rfl⟩

/-- The automaton with one more transition. -/
def push (a : Aut W) (t : Tr) (an : Ann W) : Aut W := { a with edges := (t, an) :: a.edges }

theorem mem_push (a : Aut W) (t : Tr) (an : Ann W) (u : Tr) : u ∈ keys (push a t an).edges ↔ u = t ∨ u ∈ keys a.edges := by
  show u ∈ (((t, an) :: a.edges).map Prod.fst) ↔ _
  rw [List.map_cons, List.mem_cons]
  rfl

/-- The automata after the transition `t` has been added to the first or the second one. -/
def pushF (inFirst : Bool) (A : Aut W) (t : Tr) (an : Ann W) : Aut W := if inFirst then push A t an else A
def pushS (inFirst : Bool) (B : Aut W) (t : Tr) (an : Ann W) : Aut W := if inFirst then B else push B t an

theorem Mv.mono {A B A' B' : Aut W} (hA : ∀ t ∈ keys A.edges, t ∈ keys A'.edges)
    (hB : ∀ t ∈ keys B.edges, t ∈ keys B'.edges) {x y : Nat × Nat} {g : Nat} (h : Mv A B x g y) : Mv A' B' x g y := by
  rcases h with ⟨rfl, ⟨h3, h4⟩ | ⟨h3, h4⟩⟩ | ⟨h0, h3, h4⟩
  · exact .inl ⟨rfl, .inl ⟨hA _ h3, h4⟩⟩
  · exact .inl ⟨rfl, .inr ⟨hB _ h3, h4⟩⟩
  · exact .inr ⟨h0, hA _ h3, hB _ h4⟩

/-- The invariant does not depend on the annotations and survives new transitions. -/
theorem PInv.mono {dual : Bool} {A B A' B' : Aut W} {s : Product W} (h : PInv dual A B s)
    (hA : ∀ t ∈ keys A.edges, t ∈ keys A'.edges) (hB : ∀ t ∈ keys B.edges, t ∈ keys B'.edges)
    (aA : ∀ q, A'.isAcc q = A.isAcc q) (aB : ∀ q, B'.isAcc q = B.isAcc q) (nA : A.n ≤ A'.n) (nB : B.n ≤ B'.n) :
    PInv dual A' B' s where
  n := h.n
  nodup := h.nodup
  off := h.off
  acc u hu := by rw [aA, aB]; exact h.acc u hu
  look := h.look
  back := h.back
  edges t ht := ⟨(h.edges t ht).1, (h.edges t ht).2.1, (h.edges t ht).2.2.mono hA hB⟩
  reach := h.reach
  range u hu := ⟨Nat.lt_of_lt_of_le (h.range u hu).1 nA, Nat.lt_of_lt_of_le (h.range u hu).2 nB⟩
  nodupE := h.nodupE

theorem mem_newEdges {h : HashOrder} {inFirst dual : Bool} {A B : Aut W} {s : Product W}
    (hi : PInv dual A B s) (hd : inFirst = false → dual = true) (t : Tr) (an : Ann W) {r : PEdge W}
    (hr : r ∈ newEdges h inFirst (pushF inFirst A t an) (pushS inFirst B t an) s t an) :
    r.top < s.aut.n ∧ r.labels ≠ [] ∧
      ∀ x ∈ r.labels, Mv (pushF inFirst A t an) (pushS inFirst B t an) (s.orig r.top) x.1 (r.fst, r.snd) := by
  unfold newEdges at hr
  dsimp only at hr
  rw [List.mem_flatMap] at hr
  obtain ⟨⟨o, u⟩, h1, h2⟩ := hr
  obtain ⟨v, h3, rfl⟩ := List.mem_map.1 h2
  obtain ⟨h4, h5⟩ := (mem_fromStates hi inFirst hd _ _ _).1 h1
  refine ⟨h4, by simp, ?_⟩
  intro x hx
  rw [List.mem_singleton] at hx
  subst hx
  dsimp only
  rw [h5]
  have ht : (⟨t.src, t.label, t.dst⟩ : Tr) = t := rfl
  cases inFirst with
  | true =>
    simp only [if_true, pushF, pushS] at h3 ⊢
    split at h3
    · rename_i he
      rw [List.mem_singleton] at h3
      refine .inl ⟨he, .inl ⟨(mem_push _ _ _ _).2 (.inl ?_), h3⟩⟩
      rw [← he]
    · rename_i he
      rw [List.mem_filter] at h3
      exact .inr ⟨he, (mem_push _ _ _ _).2 (.inl rfl), (Aut.hasEdge_iff _ _).1 h3.2⟩
  | false =>
    simp only [Bool.false_eq_true, if_false, pushF, pushS] at h3 ⊢
    split at h3
    · rename_i he
      rw [List.mem_singleton] at h3
      refine .inl ⟨he, .inr ⟨(mem_push _ _ _ _).2 (.inl ?_), h3⟩⟩
      rw [← he]
    · rename_i he
      rw [List.mem_filter] at h3
      exact .inr ⟨he, (Aut.hasEdge_iff _ _).1 h3.2, (mem_push _ _ _ _).2 (.inl rfl)⟩

/-- A move of the new automata is an old move or one of the new edges. -/
theorem newEdges_complete (h : HashOrder) {inFirst dual : Bool} {A B : Aut W} {s : Product W}
    (hi : PInv dual A B s) (hd : inFirst = false → dual = true) (t : Tr) (an : Ann W) {u g : Nat} {y : Nat × Nat}
    (hu : u < s.aut.n) (hm : Mv (pushF inFirst A t an) (pushS inFirst B t an) (s.orig u) g y) :
    Mv A B (s.orig u) g y ∨
    ∃ r ∈ newEdges h inFirst (pushF inFirst A t an) (pushS inFirst B t an) s t an,
      r.top = u ∧ (r.fst, r.snd) = y ∧ ∃ x ∈ r.labels, x.1 = g := by
  have key : ∀ (o v : Nat), s.orig u = (if inFirst then (t.src, o) else (o, t.src)) →
      v ∈ (if t.label = epsilon then [o] else ((if inFirst then pushS inFirst B t an else pushF inFirst A t an).outTos h o).filter
        fun w => (if inFirst then pushS inFirst B t an else pushF inFirst A t an).hasLabel o w t.label) →
      g = t.label → y = (if inFirst then t.dst else v, if inFirst then v else t.dst) →
      ∃ r ∈ newEdges h inFirst (pushF inFirst A t an) (pushS inFirst B t an) s t an,
        r.top = u ∧ (r.fst, r.snd) = y ∧ ∃ x ∈ r.labels, x.1 = g := by
    intro o v h1 h2 h3 h4
    refine ⟨⟨u, if inFirst then t.dst else v, if inFirst then v else t.dst, [(t.label, an)]⟩, ?_, rfl, h4.symm, _,
      List.mem_singleton.2 rfl, h3.symm⟩
    unfold newEdges
    dsimp only
    exact List.mem_flatMap.2 ⟨(o, u), (mem_fromStates hi inFirst hd _ _ _).2 ⟨hu, h1⟩, List.mem_map.2 ⟨v, h2, rfl⟩⟩
  cases inFirst with
  | true =>
    simp only [pushF, pushS, if_true] at hm key ⊢
    rcases hm with ⟨rfl, ⟨h3, h4⟩ | h3⟩ | ⟨h0, h3, h4⟩
    · rcases (mem_push _ _ _ _).1 h3 with h5 | h5
      · subst h5
        refine .inr (key (s.orig u).2 (s.orig u).2 rfl (by simp) rfl ?_)
        exact Prod.ext rfl h4
      · exact .inl (.inl ⟨rfl, .inl ⟨h5, h4⟩⟩)
    · exact .inl (.inl ⟨rfl, .inr h3⟩)
    · rcases (mem_push _ _ _ _).1 h3 with h5 | h5
      · subst h5
        refine .inr (key (s.orig u).2 y.2 rfl ?_ rfl rfl)
        rw [if_neg h0]
        exact List.mem_filter.2 ⟨(Aut.mem_outTos _ _ _ _).2 ⟨_, h4⟩, (Aut.hasEdge_iff _ _).2 h4⟩
      · exact .inl (.inr ⟨h0, h5, h4⟩)
  | false =>
    simp only [pushF, pushS, Bool.false_eq_true, if_false] at hm key ⊢
    rcases hm with ⟨rfl, h3 | ⟨h3, h4⟩⟩ | ⟨h0, h3, h4⟩
    · exact .inl (.inl ⟨rfl, .inl h3⟩)
    · rcases (mem_push _ _ _ _).1 h3 with h5 | h5
      · subst h5
        refine .inr (key (s.orig u).1 (s.orig u).1 rfl (by simp) rfl ?_)
        exact Prod.ext h4 rfl
      · exact .inl (.inl ⟨rfl, .inr ⟨h5, h4⟩⟩)
    · rcases (mem_push _ _ _ _).1 h4 with h5 | h5
      · subst h5
        refine .inr (key (s.orig u).1 y.1 rfl ?_ rfl rfl)
        rw [if_neg h0]
        exact List.mem_filter.2 ⟨(Aut.mem_outTos _ _ _ _).2 ⟨_, h3⟩, (Aut.hasEdge_iff _ _).2 h3⟩
      · exact .inl (.inr ⟨h0, h3, h5⟩)

theorem pushF_n (i : Bool) (A : Aut W) (t : Tr) (an : Ann W) : (pushF i A t an).n = A.n := by cases i <;> rfl
theorem pushS_n (i : Bool) (A : Aut W) (t : Tr) (an : Ann W) : (pushS i A t an).n = A.n := by cases i <;> rfl
theorem pushF_isAcc (i : Bool) (A : Aut W) (t : Tr) (an : Ann W) (q : Nat) : (pushF i A t an).isAcc q = A.isAcc q := by
  cases i <;> rfl
theorem pushS_isAcc (i : Bool) (A : Aut W) (t : Tr) (an : Ann W) (q : Nat) : (pushS i A t an).isAcc q = A.isAcc q := by
  cases i <;> rfl
theorem pushF_keys (i : Bool) (A : Aut W) (t : Tr) (an : Ann W) {u : Tr} (h : u ∈ keys A.edges) :
    u ∈ keys (pushF i A t an).edges := by
  cases i
  · exact h
  · exact (mem_push _ _ _ _).2 (.inr h)
theorem pushS_keys (i : Bool) (A : Aut W) (t : Tr) (an : Ann W) {u : Tr} (h : u ∈ keys A.edges) :
    u ∈ keys (pushS i A t an).edges := by
  cases i
  · exact (mem_push _ _ _ _).2 (.inr h)
  · exact h

theorem addEdge_spec (h : HashOrder) {inFirst dual et : Bool} {A B : Aut W} {s : Product W}
    (hi : PInv dual A B s) (hc : Complete A B s (fun _ => True)) (hd : inFirst = false → dual = true) (t : Tr) (an : Ann W)
    (hA : InRange (pushF inFirst A t an)) (hB : InRange (pushS inFirst B t an)) :
    ROK dual et (pushF inFirst A t an) (pushS inFirst B t an)
      (addEdge h inFirst dual et (pushF inFirst A t an) (pushS inFirst B t an) s t an) ∧
    PExt s (addEdge h inFirst dual et (pushF inFirst A t an) (pushS inFirst B t an) s t an).1 := by
  have hne := fun (r : PEdge W) hr => mem_newEdges (r := r) (h := h) hi hd t an hr
  have hcomp := fun {u g y} hu hm => newEdges_complete (u := u) (g := g) (y := y) h hi hd t an hu hm
  have hi' : PInv dual (pushF inFirst A t an) (pushS inFirst B t an) s :=
    hi.mono (fun u hu => pushF_keys _ _ _ _ hu) (fun u hu => pushS_keys _ _ _ _ hu) (pushF_isAcc _ _ _ _)
      (pushS_isAcc _ _ _ _) (by rw [pushF_n]; exact Nat.le_refl _) (by rw [pushS_n]; exact Nat.le_refl _)
  unfold addEdge
  dsimp only
  revert hne hcomp
  generalize newEdges h inFirst (pushF inFirst A t an) (pushS inFirst B t an) s t an = rs
  generalize pushF inFirst A t an = A' at *
  generalize pushS inFirst B t an = B' at *
  intro hne hcomp
  obtain ⟨i1, i2, i3, i4, i5⟩ := insertAll_spec (et := et) rs { prod := s, waiting := [] } hi' rfl (by
    intro r hr
    obtain ⟨h1, h2, h3⟩ := hne r hr
    obtain ⟨x, hx⟩ := List.exists_mem_of_ne_nil _ h2
    obtain ⟨r1, r2⟩ := hi'.range _ h1
    obtain ⟨h4, h5⟩ := (h3 x hx).range hA hB r1 r2
    exact ⟨h1, h2, h3, h4, h5⟩)
  generalize rs.foldl (insert dual et A' B') { prod := s, waiting := [] } = s1 at *
  dsimp only at i1 i2 i3 i4 i5
  obtain ⟨j1, j2, j3, j4, j5⟩ := construct_spec h (et := et) hA hB (fuel A' B' s1) s1 i1 i3
    (by
      intro hd1 u hu
      rcases ((i4 hd1).2.1 u).1 hu with h1 | h1
      · simp at h1
      · exact h1.2)
    (by
      intro hd1 u hu hnw g y hm
      obtain ⟨q1, q2, _⟩ := i4 hd1
      have hu0 : u < s.aut.n := by
        by_contra hcon
        exact hnw ((q2 u).2 (.inr ⟨by omega, hu⟩))
      rw [i2.orig u hu0] at hm
      rcases hcomp hu0 hm with h1 | ⟨r, h1, h2, h3, x, h4, h5⟩
      · obtain ⟨v, h2, h3, h4⟩ := hc u hu0 trivial g y h1
        exact ⟨v, Nat.lt_of_lt_of_le h2 i2.n, by rw [i2.orig v h2]; exact h3, i2.keys _ h4⟩
      · obtain ⟨id, h6, h7, h8⟩ := q1 r h1
        have := h8 x h4
        rw [h2, h5] at this
        exact ⟨id, h6, by rw [h7, h3], this⟩)
    (by unfold fuel; omega)
  generalize construct h dual et A' B' (fuel A' B' s1) s1 = s' at *
  refine ⟨⟨j1, ?_, ?_⟩, i2.trans j2⟩
  · unfold result
    cases hd : s'.done with
    | true => simp [j3 hd]
    | false => simp
  · rintro (he | he)
    · exact j4 (j5 he (i5 he))
    · unfold result at he
      rw [Bool.or_eq_false_iff] at he
      exact j4 he.1

end Verif.Product
