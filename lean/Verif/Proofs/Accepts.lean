import Verif.Model.AutOps
import Verif.Proofs.Built
import Mathlib.Data.List.Nodup

/-! # `accepts` and `accept_path` -/

namespace Verif

variable {W : Type}

/-- `qs` is the sequence of states of a path in `E` spelling `w`. -/
def Spells (E : Tr → Prop) : List Nat → List Nat → Prop
  | [_], [] => True
  | q :: q' :: qs, g :: w => E ⟨q, g, q'⟩ ∧ Spells E (q' :: qs) w
  | _, _ => False

theorem head?_append_cons (l : List Nat) (q : Nat) (r : List Nat) :
    (l ++ q :: r).head? = (l ++ [q]).head? := by cases l <;> rfl

theorem Spells.length {E : Tr → Prop} : ∀ {qs w : List Nat}, Spells E qs w → qs.length = w.length + 1
  | [_], [], _ => rfl
  | _ :: q' :: qs, _ :: w, h => by
    have := Spells.length (qs := q' :: qs) (w := w) h.2
    simp_all
  | [], _, h => by simp [Spells] at h
  | [_], _ :: _, h => by simp [Spells] at h
  | _ :: _ :: _, [], h => by simp [Spells] at h

theorem Spells.path {E : Tr → Prop} : ∀ {qs w : List Nat} {q f : Nat}, Spells E qs w →
    qs.head? = some q → qs.getLast? = some f → Path E q w f
  | [_], [], q, f, _, h1, h2 => by
    simp at h1 h2; subst h1; subst h2; exact .nil _
  | q0 :: q' :: qs, g :: w, q, f, h, h1, h2 => by
    simp only [List.head?_cons, Option.some.injEq] at h1; subst h1
    exact .cons h.1 (Spells.path h.2 rfl (by simpa using h2))
  | [], _, _, _, h, _, _ => by simp [Spells] at h
  | [_], _ :: _, _, _, h, _, _ => by simp [Spells] at h
  | _ :: _ :: _, [], _, _, h, _, _ => by simp [Spells] at h

theorem Spells.snoc {E : Tr → Prop} : ∀ {qs w : List Nat} {q g q' : Nat}, Spells E (qs ++ [q]) w →
    E ⟨q, g, q'⟩ → Spells E (qs ++ [q, q']) (w ++ [g])
  | [], w, q, g, q', h, he => by
    cases w with
    | nil => exact ⟨he, trivial⟩
    | cons _ _ => simp [Spells] at h
  | [q0], w, q, g, q', h, he => by
    cases w with
    | nil => simp [Spells] at h
    | cons g0 w =>
      simp only [List.cons_append, List.nil_append, Spells] at h ⊢
      cases w with
      | nil => exact ⟨h.1, he, trivial⟩
      | cons _ _ => simp [Spells] at h
  | q0 :: q1 :: qs, w, q, g, q', h, he => by
    cases w with
    | nil => simp [Spells] at h
    | cons g0 w =>
      simp only [List.cons_append, Spells] at h ⊢
      exact ⟨h.1, Spells.snoc (qs := q1 :: qs) h.2 he⟩

/-! ## The search -/

/-- Some search item leads to acceptance. -/
def Promising (a : Aut W) (w : List Nat) (x : Nat × Nat) : Prop :=
  x.2 < w.length ∧ ∃ f, Path (· ∈ keys a.edges) x.1 (w.drop x.2) f ∧ a.isAcc f = true

/-- The measure of the search stack. -/
def stackMeasure (a : Aut W) (w : List Nat) (st : List (Nat × Nat)) : Nat :=
  (st.map fun x => (a.edges.length + 1) ^ (w.length - x.2)).sum

theorem drop_getD {w : List Nat} {i : Nat} (h : i < w.length) :
    w.drop i = w.getD i 0 :: w.drop (i + 1) := by
  rw [List.drop_eq_getElem_cons h]
  simp [List.getD, h]

theorem acceptsScan_none {a : Aut W} {w : List Nat} {q i : Nat} (tos : List Nat)
    (st : List (Nat × Nat)) (h : Aut.acceptsScan a w q i tos st = none) :
    i + 1 ≥ w.length ∧ ∃ u ∈ tos, a.hasLabel q u (w.getD i 0) = true ∧ a.isAcc u = true := by
  induction tos generalizing st with
  | nil => simp [Aut.acceptsScan] at h
  | cons u tos ih =>
    unfold Aut.acceptsScan at h
    split at h
    · rename_i h1
      split at h
      · obtain ⟨h2, t, h3, h4⟩ := ih _ h; omega
      · rename_i h2
        split at h
        · rename_i h3
          exact ⟨by omega, u, by simp, h1, h3⟩
        · obtain ⟨h2, t, h3, h4⟩ := ih _ h
          exact ⟨h2, t, by simp [h3], h4⟩
    · obtain ⟨h2, t, h3, h4⟩ := ih _ h
      exact ⟨h2, t, by simp [h3], h4⟩

theorem acceptsScan_some {a : Aut W} {w : List Nat} {q i : Nat} (tos : List Nat)
    (st st' : List (Nat × Nat)) (h : Aut.acceptsScan a w q i tos st = some st') :
    (i + 1 < w.length → st' =
      ((tos.filter fun u => a.hasLabel q u (w.getD i 0)).map fun u => (u, i + 1)).reverse ++ st) ∧
    (i + 1 ≥ w.length → st' = st ∧
      ∀ u ∈ tos, a.hasLabel q u (w.getD i 0) = true → a.isAcc u = false) := by
  induction tos generalizing st with
  | nil =>
    simp only [Aut.acceptsScan, Option.some.injEq] at h
    simp [h]
  | cons u tos ih =>
    unfold Aut.acceptsScan at h
    split at h
    · rename_i h1
      split at h
      · rename_i h2
        refine ⟨fun _ => ?_, fun h3 => by omega⟩
        rw [(ih _ h).1 h2]
        have h1' : a.hasLabel q u (w[i]?.getD 0) = true := by simpa [List.getD] using h1
        simp [h1']
      · rename_i h2
        split at h
        · simp at h
        · rename_i h3
          refine ⟨fun h4 => by omega, fun h4 => ?_⟩
          obtain ⟨h5, h6⟩ := (ih _ h).2 h4
          refine ⟨h5, fun t ht hl => ?_⟩
          rcases List.mem_cons.1 ht with rfl | ht
          · simpa using h3
          · exact h6 t ht hl
    · rename_i h1
      have h1' : a.hasLabel q u (w[i]?.getD 0) = false := by simpa [List.getD] using h1
      refine ⟨fun h2 => ?_, fun h2 => ?_⟩
      · rw [(ih _ h).1 h2]; simp [h1']
      · obtain ⟨h5, h6⟩ := (ih _ h).2 h2
        refine ⟨h5, fun t ht hl => ?_⟩
        rcases List.mem_cons.1 ht with rfl | ht
        · exact absurd hl h1
        · exact h6 t ht hl

theorem promising_step (h : HashOrder) {a : Aut W} {w : List Nat} {q i : Nat} :
    Promising a w (q, i) ↔ i < w.length ∧ ∃ u ∈ a.outTos h q, a.hasLabel q u (w.getD i 0) = true ∧
      (if i + 1 < w.length then Promising a w (u, i + 1) else a.isAcc u = true) := by
  unfold Promising
  constructor
  · rintro ⟨h1, f, h2, h3⟩
    refine ⟨h1, ?_⟩
    dsimp only at h1 h2
    rw [drop_getD h1] at h2
    cases h2 with
    | @cons _ _ u _ _ he hp =>
      refine ⟨u, (Aut.mem_outTos h a q u).2 ⟨_, he⟩, (Aut.hasEdge_iff a _).2 he, ?_⟩
      split
      · rename_i h4; exact ⟨h4, f, hp, h3⟩
      · rename_i h4
        rw [List.drop_eq_nil_of_le (by omega)] at hp
        cases hp; exact h3
  · rintro ⟨h1, u, h2, h3, h4⟩
    refine ⟨h1, ?_⟩
    have he : (⟨q, w.getD i 0, u⟩ : Tr) ∈ keys a.edges := (Aut.hasEdge_iff a _).1 h3
    dsimp only
    rw [drop_getD h1]
    split at h4
    · obtain ⟨_, f, hp, hf⟩ := h4
      exact ⟨f, .cons he hp, hf⟩
    · rename_i h5
      rw [List.drop_eq_nil_of_le (by omega)]
      exact ⟨u, .cons he (.nil _), h4⟩

theorem eraseDups_length_le (l : List Nat) : l.eraseDups.length ≤ l.length := by
  induction hn : l.length using Nat.strongRecOn generalizing l with
  | ind n ih =>
    cases l with
    | nil => simp
    | cons x l =>
      rw [List.eraseDups_cons, List.length_cons]
      have h1 := List.length_filter_le (fun b => !b == x) l
      have h2 := ih (l.filter fun b => !b == x).length (by simp only [List.length_cons] at hn; omega) _ rfl
      simp only [List.length_cons] at hn
      omega

theorem outTos_length_le (h : HashOrder) (a : Aut W) (q : Nat) :
    (a.outTos h q).length ≤ a.edges.length := by
  unfold Aut.outTos
  have h1 := eraseDups_length_le ((a.out h q).map Tr.dst)
  have h2 := (a.out_perm h q).length_eq
  have h3 := List.length_filter_le (fun t : Tr => t.src == q) (keys a.edges)
  have h4 : (keys a.edges).length = a.edges.length := by simp [keys]
  simp only [List.length_map] at h1
  omega

theorem sum_const_le (l : List (Nat × Nat)) (f : Nat × Nat → Nat) (c m : Nat) (hl : l.length ≤ m)
    (hf : ∀ x ∈ l, f x = c) : (l.map f).sum ≤ m * c := by
  induction l generalizing m with
  | nil => simp
  | cons x l ih =>
    simp only [List.length_cons] at hl
    obtain ⟨m, rfl⟩ : ∃ k, m = k + 1 := ⟨m - 1, by omega⟩
    have := ih m (by omega) (fun y hy => hf y (by simp [hy]))
    simp only [List.map_cons, List.sum_cons, hf x (by simp)]
    rw [Nat.succ_mul]; omega

theorem stackMeasure_step (h : HashOrder) (a : Aut W) (w : List Nat) (q i : Nat) (hi : i + 1 < w.length)
    (st : List (Nat × Nat)) :
    stackMeasure a w
      ((((a.outTos h q).filter fun u => a.hasLabel q u (w.getD i 0)).map fun u => (u, i + 1)).reverse ++ st)
      < stackMeasure a w ((q, i) :: st) := by
  unfold stackMeasure
  simp only [List.map_append, List.sum_append, List.map_cons, List.sum_cons]
  have h1 : (((((a.outTos h q).filter fun u => a.hasLabel q u (w.getD i 0)).map
      fun u => (u, i + 1)).reverse).map fun x => (a.edges.length + 1) ^ (w.length - x.2)).sum ≤
      a.edges.length * (a.edges.length + 1) ^ (w.length - (i + 1)) := by
    apply sum_const_le
    · simp only [List.length_reverse, List.length_map]
      exact Nat.le_trans (List.length_filter_le _ _) (outTos_length_le h a q)
    · intro x hx
      simp only [List.mem_reverse, List.mem_map, List.mem_filter] at hx
      obtain ⟨u, _, rfl⟩ := hx
      rfl
  have h2 : (a.edges.length + 1) ^ (w.length - i) =
      (a.edges.length + 1) * (a.edges.length + 1) ^ (w.length - (i + 1)) := by
    have : w.length - i = (w.length - (i + 1)) + 1 := by omega
    rw [this, Nat.pow_succ, Nat.mul_comm]
  have h3 : 0 < (a.edges.length + 1) ^ (w.length - (i + 1)) := Nat.pow_pos (Nat.succ_pos _)
  rw [h2, Nat.succ_mul]
  omega

theorem stackMeasure_pop (a : Aut W) (w : List Nat) (x : Nat × Nat) (st : List (Nat × Nat)) :
    stackMeasure a w st < stackMeasure a w (x :: st) := by
  unfold stackMeasure
  have h3 : 0 < (a.edges.length + 1) ^ (w.length - x.2) := Nat.pow_pos (Nat.succ_pos _)
  simp only [List.map_cons, List.sum_cons]
  omega

theorem acceptsLoop_iff (h : HashOrder) (a : Aut W) (w : List Nat) (k : Nat) (st : List (Nat × Nat))
    (hidx : ∀ x ∈ st, x.2 < w.length) (hk : stackMeasure a w st ≤ k) :
    a.acceptsLoop h w k st = true ↔ ∃ x ∈ st, Promising a w x := by
  induction k generalizing st with
  | zero =>
    cases st with
    | nil => simp [Aut.acceptsLoop]
    | cons x st =>
      have := stackMeasure_pop a w x st
      omega
  | succ k ih =>
    cases st with
    | nil => simp [Aut.acceptsLoop]
    | cons x st =>
      obtain ⟨q, i⟩ := x
      have hi : i < w.length := hidx (q, i) (by simp)
      unfold Aut.acceptsLoop
      cases hs : a.acceptsScan w q i (a.outTos h q) st with
      | none =>
        simp only [true_iff]
        obtain ⟨h1, u, h2, h3, h4⟩ := acceptsScan_none _ _ hs
        refine ⟨(q, i), by simp, (promising_step h).2 ⟨hi, u, h2, h3, ?_⟩⟩
        rw [if_neg (by omega)]; exact h4
      | some st' =>
        simp only
        obtain ⟨h1, h2⟩ := acceptsScan_some _ _ _ hs
        by_cases hlt : i + 1 < w.length
        · have h3 := h1 hlt
          subst h3
          rw [ih]
          · constructor
            · rintro ⟨x, hx, hp⟩
              rcases List.mem_append.1 hx with hx | hx
              · simp only [List.mem_reverse, List.mem_map, List.mem_filter] at hx
                obtain ⟨u, ⟨h4, h5⟩, rfl⟩ := hx
                refine ⟨(q, i), by simp, (promising_step h).2 ⟨hi, u, h4, h5, ?_⟩⟩
                rw [if_pos hlt]; exact hp
              · exact ⟨x, by simp [hx], hp⟩
            · rintro ⟨x, hx, hp⟩
              rcases List.mem_cons.1 hx with rfl | hx
              · obtain ⟨_, u, h4, h5, h6⟩ := (promising_step h).1 hp
                rw [if_pos hlt] at h6
                refine ⟨(u, i + 1), List.mem_append.2 (.inl ?_), h6⟩
                simp only [List.mem_reverse, List.mem_map, List.mem_filter]
                exact ⟨u, ⟨h4, h5⟩, rfl⟩
              · exact ⟨x, List.mem_append.2 (.inr hx), hp⟩
          · intro x hx
            rcases List.mem_append.1 hx with hx | hx
            · simp only [List.mem_reverse, List.mem_map, List.mem_filter] at hx
              obtain ⟨u, _, rfl⟩ := hx
              exact hlt
            · exact hidx x (by simp [hx])
          · have := stackMeasure_step h a w q i hlt st
            omega
        · obtain ⟨h3, h4⟩ := h2 (by omega)
          subst h3
          rw [ih]
          · constructor
            · rintro ⟨x, hx, hp⟩; exact ⟨x, by simp [hx], hp⟩
            · rintro ⟨x, hx, hp⟩
              rcases List.mem_cons.1 hx with rfl | hx
              · obtain ⟨_, u, h5, h6, h7⟩ := (promising_step h).1 hp
                rw [if_neg hlt] at h7
                have := h4 u h5 h6
                rw [h7] at this; simp at this
              · exact ⟨x, hx, hp⟩
          · exact fun x hx => hidx x (by simp [hx])
          · have := stackMeasure_pop a w (q, i) st'
            omega

/-- `accepts` decides acceptance (without following epsilon transitions). -/
theorem accepts_iff (h : HashOrder) (a : Aut W) (q : Nat) (w : List Nat) :
    a.accepts h q w = true ↔ Accepted (· ∈ keys a.edges) (fun f => a.isAcc f = true) (q, w) := by
  unfold Aut.accepts Accepted
  cases w with
  | nil =>
    simp only [List.isEmpty_nil, if_true]
    constructor
    · intro hq; exact ⟨q, .nil q, hq⟩
    · rintro ⟨f, hp, hf⟩; cases hp; exact hf
  | cons g w =>
    simp only [List.isEmpty_cons, Bool.false_eq_true, if_false]
    rw [acceptsLoop_iff]
    · simp [Promising]
    · simp
    · simp only [stackMeasure, List.map_cons, List.map_nil, List.sum_cons, List.sum_nil, Nat.sub_zero,
        Nat.add_zero, Aut.searchFuel]
      exact Nat.pow_le_pow_right (by omega) (by omega)

/-! ## `accept_path` -/

/-- `pathScan` follows `acceptsScan`. -/
theorem pathScan_eq {a : Aut W} {w : List Nat} {q i : Nat} (path : List Nat) (tos : List Nat)
    (st : List (Nat × Nat)) :
    match a.acceptsScan w q i tos st with
    | some st' => a.pathScan w q i path tos st = .inr st'
    | none => ∃ u, a.hasLabel q u (w.getD i 0) = true ∧ a.isAcc u = true ∧
        a.pathScan w q i path tos st = .inl (path.set (i + 1) u) := by
  induction tos generalizing st with
  | nil => simp [Aut.acceptsScan, Aut.pathScan]
  | cons u tos ih =>
    unfold Aut.acceptsScan Aut.pathScan
    by_cases h1 : a.hasLabel q u (w.getD i 0) = true
    · simp only [if_pos h1]
      by_cases h2 : i + 1 < w.length
      · simp only [if_pos h2]; exact ih _
      · simp only [if_neg h2]
        by_cases h3 : a.isAcc u = true
        · simp only [if_pos h3]; exact ⟨u, h1, h3, rfl⟩
        · simp only [if_neg h3]; exact ih _
    · simp only [if_neg h1]; exact ih _

/-- Invariant of the search: items deeper in the stack have no larger index, and the entries of
`path` below the index of an item lead to it. -/
def PathInv (a : Aut W) (w : List Nat) (q0 : Nat) (path : List Nat) (st : List (Nat × Nat)) : Prop :=
  path.length = w.length + 1 ∧ st.Pairwise (fun x y => y.2 ≤ x.2) ∧
  ∀ x ∈ st, x.2 < w.length ∧ Spells (· ∈ keys a.edges) (path.take x.2 ++ [x.1]) (w.take x.2) ∧
    (path.take x.2 ++ [x.1]).head? = some q0

theorem pathLoop_spec (h : HashOrder) (a : Aut W) (w : List Nat) (q0 k : Nat) (path : List Nat)
    (st : List (Nat × Nat)) (hinv : PathInv a w q0 path st) :
    (a.acceptsLoop h w k st = false → a.pathLoop h w k path st = []) ∧
    (a.acceptsLoop h w k st = true →
      Spells (· ∈ keys a.edges) (a.pathLoop h w k path st) w ∧
      (a.pathLoop h w k path st).head? = some q0 ∧
      ∃ f, (a.pathLoop h w k path st).getLast? = some f ∧ a.isAcc f = true) := by
  induction k generalizing path st with
  | zero => cases st <;> simp [Aut.acceptsLoop, Aut.pathLoop]
  | succ k ih =>
    cases st with
    | nil => simp [Aut.acceptsLoop, Aut.pathLoop]
    | cons x st =>
      obtain ⟨q, i⟩ := x
      obtain ⟨hlen, hsort, hitems⟩ := hinv
      obtain ⟨hi, hsp, hhd⟩ := hitems (q, i) (by simp)
      dsimp only at hi hsp hhd
      rw [List.pairwise_cons] at hsort
      have htake : (path.set i q).take (i + 1) = path.take i ++ [q] := by
        rw [List.take_succ, List.take_set, List.set_eq_of_length_le (by simp; omega)]
        simp [List.getElem?_set, show i < path.length by omega]
      have hrest : ∀ x ∈ st, (path.set i q).take x.2 = path.take x.2 := by
        intro x hx
        have := hsort.1 x hx
        dsimp only at this
        rw [List.take_set, List.set_eq_of_length_le (by simp; omega)]
      unfold Aut.acceptsLoop Aut.pathLoop
      have hps := pathScan_eq (a := a) (w := w) (q := q) (i := i) (path.set i q) (a.outTos h q) st
      cases hs : a.acceptsScan w q i (a.outTos h q) st with
      | none =>
        rw [hs] at hps
        obtain ⟨u, h1, h2, h3⟩ := hps
        simp only [h3, Bool.true_eq_false, false_implies, true_and]
        intro _
        obtain ⟨h4, _⟩ := acceptsScan_none _ _ hs
        have hw : w.length = i + 1 := by omega
        have hset : (path.set i q).set (i + 1) u = path.take i ++ [q, u] := by
          apply List.ext_getElem?
          intro j
          rcases Nat.lt_trichotomy j i with h5 | h5 | h5
          · rw [List.getElem?_set_ne (by omega), List.getElem?_set_ne (by omega),
              List.getElem?_append_left (by simp; omega), List.getElem?_take_of_lt h5]
          · subst h5
            rw [List.getElem?_set_ne (by omega), List.getElem?_set_self (by omega),
              List.getElem?_append_right (by simp; omega)]
            simp [show min j path.length = j by omega]
          · rw [List.getElem?_append_right (by simp; omega)]
            by_cases h6 : j = i + 1
            · subst h6
              rw [List.getElem?_set_self (by simp; omega)]
              simp [show min i path.length = i by omega]
            · rw [List.getElem?_eq_none (by simp; omega), List.getElem?_eq_none (by simp; omega)]
        rw [hset]
        have hwt : w = w.take i ++ [w.getD i 0] := by
          have := drop_getD hi
          rw [List.drop_eq_nil_of_le (show w.length ≤ i + 1 by omega)] at this
          rw [← this, List.take_append_drop]
        refine ⟨?_, ?_, u, by simp, h2⟩
        · rw [hwt]
          have := hsp.snoc (g := w.getD i 0) (q' := u) ((Aut.hasEdge_iff a _).1 h1)
          rwa [← hwt] at this ⊢
        · rw [head?_append_cons]; exact hhd
      | some st' =>
        rw [hs] at hps
        simp only [hps]
        apply ih
        obtain ⟨h1, h2⟩ := acceptsScan_some _ _ _ hs
        refine ⟨by simpa using hlen, ?_, ?_⟩
        · by_cases hlt : i + 1 < w.length
          · rw [h1 hlt, List.pairwise_append]
            refine ⟨?_, hsort.2, ?_⟩
            · rw [List.pairwise_iff_forall_sublist]
              intro x y hxy
              have hx := hxy.subset (List.mem_cons_self)
              have hy := hxy.subset (List.mem_cons_of_mem _ List.mem_cons_self)
              simp only [List.mem_reverse, List.mem_map, List.mem_filter] at hx hy
              obtain ⟨_, _, rfl⟩ := hx
              obtain ⟨_, _, rfl⟩ := hy
              exact Nat.le_refl _
            · intro x hx y hy
              simp only [List.mem_reverse, List.mem_map, List.mem_filter] at hx
              obtain ⟨_, _, rfl⟩ := hx
              have := hsort.1 y hy
              dsimp only at *; omega
          · rw [(h2 (by omega)).1]; exact hsort.2
        · have hold : ∀ x ∈ st, x.2 < w.length ∧
              Spells (· ∈ keys a.edges) ((path.set i q).take x.2 ++ [x.1]) (w.take x.2) ∧
              ((path.set i q).take x.2 ++ [x.1]).head? = some q0 := by
            intro x hx
            rw [hrest x hx]
            exact hitems x (by simp [hx])
          intro x hx
          by_cases hlt : i + 1 < w.length
          · rw [h1 hlt] at hx
            rcases List.mem_append.1 hx with hx | hx
            · simp only [List.mem_reverse, List.mem_map, List.mem_filter] at hx
              obtain ⟨u, ⟨_, h4⟩, rfl⟩ := hx
              refine ⟨hlt, ?_, ?_⟩
              · dsimp only
                rw [htake, List.append_assoc]
                have hwt : w.take (i + 1) = w.take i ++ [w.getD i 0] := by
                  rw [List.take_succ]; simp [List.getD, hi]
                rw [hwt]
                exact hsp.snoc ((Aut.hasEdge_iff a _).1 h4)
              · dsimp only
                rw [htake, List.append_assoc]
                exact (head?_append_cons _ _ _).trans hhd
            · exact hold x hx
          · rw [(h2 (by omega)).1] at hx
            exact hold x hx

theorem acceptPath_spec (h : HashOrder) (a : Aut W) (q : Nat) (w : List Nat) :
    (a.accepts h q w = false → a.acceptPath h q w = []) ∧
    (a.accepts h q w = true →
      Spells (· ∈ keys a.edges) (a.acceptPath h q w) w ∧ (a.acceptPath h q w).head? = some q ∧
      ∃ f, (a.acceptPath h q w).getLast? = some f ∧ a.isAcc f = true) := by
  cases w with
  | nil =>
    unfold Aut.accepts Aut.acceptPath
    by_cases hq : a.isAcc q = true <;> simp [hq, Spells]
  | cons g w =>
    unfold Aut.accepts Aut.acceptPath
    simp only [List.isEmpty_cons, Bool.false_eq_true, if_false]
    apply pathLoop_spec
    refine ⟨by simp, by simp, ?_⟩
    intro x hx
    simp only [List.mem_singleton] at hx
    subst hx
    simp [Spells]

end Verif
