import Verif.Model.Refinement
import Verif.Proofs.Algorithms
import Mathlib.Data.List.Perm.Subperm

/-! # `Refinement::combine` -/

namespace Verif

namespace Refinement

variable {α : Type} [LinearOrder α]

/-- The values in some part. -/
def In (ps : List (List α)) (x : α) : Prop := ∃ p ∈ ps, x ∈ p

/-- Parts are sorted, not empty and do not overlap. -/
structure Valid (ps : List (List α)) : Prop where
  strict : ∀ p ∈ ps, Strict p
  ne : ∀ p ∈ ps, p ≠ []
  disj : ∀ (i j : Nat) (p q : List α), ps[i]? = some p → ps[j]? = some q → i ≠ j → ∀ x ∈ p, x ∉ q

/-- No part has values of both `o0` and `o1`. -/
def NotBoth (o0 o1 p : List α) : Prop := (∀ x ∈ p, x ∉ o0) ∨ (∀ x ∈ p, x ∉ o1)

/-- Loop invariant: partitions `0 … k-1` and the new ones are done. -/
structure CInv (orig : List (List α)) (o0 o1 : List α) (k : Nat) (s : Comb α) : Prop where
  valid : Valid s.parts
  len : orig.length ≤ s.parts.length
  todo : ∀ i, k ≤ i → i < orig.length → s.parts[i]? = orig[i]?
  sub : ∀ p ∈ s.parts, ∃ q ∈ orig, ∀ x ∈ p, x ∈ q
  cov : ∀ x, In orig x → In s.parts x
  nb : ∀ (i : Nat) (p : List α), s.parts[i]? = some p → i < k ∨ orig.length ≤ i → NotBoth o0 o1 p
  al0 : s.al0.Nodup ∧ ∀ x, x ∈ s.al0 ↔ x ∈ o0 ∧ ∃ j p, j < k ∧ orig[j]? = some p ∧ x ∈ p
  al1 : s.al1.Nodup ∧ ∀ x, x ∈ s.al1 ↔ x ∈ o1 ∧ ∃ j p, j < k ∧ orig[j]? = some p ∧ x ∈ p
  ok0 : ∀ j, s.ok0 = some j → (j < k ∨ orig.length ≤ j) ∧
    ∃ p, s.parts[j]? = some p ∧ ∀ x ∈ p, x ∉ o1
  ok1 : ∀ j, s.ok1 = some j → (j < k ∨ orig.length ≤ j) ∧
    ∃ p, s.parts[j]? = some p ∧ ∀ x ∈ p, x ∉ o0
  okne : ∀ j, s.ok0 = some j → s.ok1 ≠ some j

theorem okUpdate_spec (i : Nat) (e0 e1 : Bool) (ok0 ok1 : Option Nat) :
    (∀ j, (okUpdate i e0 e1 ok0 ok1).1 = some j → ok0 = some j ∨ (j = i ∧ e1 = true)) ∧
    (∀ j, (okUpdate i e0 e1 ok0 ok1).2 = some j → ok1 = some j ∨ (j = i ∧ e0 = true)) ∧
    ((∀ j, ok0 = some j → ok1 ≠ some j) →
      ∀ j, (okUpdate i e0 e1 ok0 ok1).1 = some j → (okUpdate i e0 e1 ok0 ok1).2 ≠ some j) := by
  unfold okUpdate
  cases e0 <;> cases e1 <;> cases ok0 <;> cases ok1 <;> simp <;> grind

theorem al_step {orig : List (List α)} {o : List α} {k : Nat} {part al : List α}
    (hp : orig[k]? = some part) (hv : Valid orig) (ho : Strict o)
    (h : al.Nodup ∧ ∀ x, x ∈ al ↔ x ∈ o ∧ ∃ j p, j < k ∧ orig[j]? = some p ∧ x ∈ p) :
    (al ++ interG part o).Nodup ∧ ∀ x, x ∈ al ++ interG part o ↔
      x ∈ o ∧ ∃ j p, j < k + 1 ∧ orig[j]? = some p ∧ x ∈ p := by
  have hs := hv.strict part (List.mem_of_getElem? hp)
  have hm := fun x => mem_interG hs.incr ho.incr x
  refine ⟨?_, fun x => ?_⟩
  · rw [List.nodup_append']
    refine ⟨h.1, hs.nodup.sublist (interG_sublist _ _), fun x h1 h2 => ?_⟩
    obtain ⟨_, j, p, hj, hjp, hx⟩ := (h.2 x).1 h1
    exact hv.disj j k p part hjp hp (by omega) x hx ((hm x).1 h2).1
  · rw [List.mem_append, h.2, hm]
    constructor
    · rintro (⟨h1, j, p, hj, hjp, hx⟩ | ⟨h1, h2⟩)
      · exact ⟨h1, j, p, by omega, hjp, hx⟩
      · exact ⟨h2, k, part, by omega, hp, h1⟩
    · rintro ⟨h1, j, p, hj, hjp, hx⟩
      by_cases hjk : j = k
      · subst hjk
        rw [hp] at hjp; cases hjp
        exact .inr ⟨hx, h1⟩
      · exact .inl ⟨h1, j, p, by omega, hjp, hx⟩

/-- Splitting one part. -/
theorem split_parts {ps : List (List α)} (hv : Valid ps) {k : Nat} {part moved : List α}
    (hk : ps[k]? = some part) (hms : moved.Sublist part) (hmne : moved ≠ [])
    {y : α} (hy : y ∈ part) (hym : y ∉ moved) :
    Valid ((ps ++ [moved]).set k (diffG part moved)) ∧
    (∀ x, In ps x ↔ In ((ps ++ [moved]).set k (diffG part moved)) x) ∧
    (∀ p ∈ (ps ++ [moved]).set k (diffG part moved), ∃ q ∈ ps, ∀ x ∈ p, x ∈ q) ∧
    (∀ i, ((ps ++ [moved]).set k (diffG part moved))[i]? =
      if i = k then some (diffG part moved) else if i = ps.length then some moved else ps[i]?) := by
  have hkl : k < ps.length := (List.getElem?_eq_some_iff.1 hk).1
  have hpm : part ∈ ps := List.mem_of_getElem? hk
  have hps := hv.strict part hpm
  have hmm : Strict moved := hps.sublist hms
  have hmd := fun x => mem_diffG hps hmm.incr x
  have hget : ∀ i, ((ps ++ [moved]).set k (diffG part moved))[i]? =
      if i = k then some (diffG part moved) else if i = ps.length then some moved else ps[i]? := by
    intro i
    rw [List.getElem?_set]
    by_cases hik : i = k
    · subst hik
      rw [if_pos rfl, if_pos rfl, if_pos (by rw [List.length_append]; omega)]
    · rw [if_neg (Ne.symm hik), if_neg hik]
      by_cases hil : i = ps.length
      · rw [if_pos hil, hil]; simp
      · rw [if_neg hil]
        rcases Nat.lt_or_ge i ps.length with h | h
        · rw [List.getElem?_append_left h]
        · rw [List.getElem?_eq_none (by rw [List.length_append]; simp; omega),
            List.getElem?_eq_none h]
  have hcases : ∀ p ∈ (ps ++ [moved]).set k (diffG part moved),
      p = diffG part moved ∨ p = moved ∨ p ∈ ps := by
    intro p hp
    obtain ⟨i, hi⟩ := List.mem_iff_getElem?.1 hp
    rw [hget] at hi
    split at hi
    · exact .inl (Option.some.inj hi).symm
    · split at hi
      · exact .inr (.inl (Option.some.inj hi).symm)
      · exact .inr (.inr (List.mem_of_getElem? hi))
  refine ⟨⟨fun p hp => ?_, fun p hp => ?_, fun i j p q hi hj hij x hx => ?_⟩, fun x => ?_, fun p hp => ?_, hget⟩
  · rcases hcases p hp with rfl | rfl | h
    · exact hps.sublist (diffG_sublist _ _)
    · exact hmm
    · exact hv.strict p h
  · rcases hcases p hp with rfl | rfl | h
    · exact List.ne_nil_of_mem ((hmd y).2 ⟨hy, hym⟩)
    · exact hmne
    · exact hv.ne p h
  · rw [hget] at hi hj
    by_cases hik : i = k
    · rw [if_pos hik] at hi; cases hi
      rw [if_neg (by omega)] at hj
      obtain ⟨h1, h2⟩ := (hmd x).1 hx
      by_cases hjl : j = ps.length
      · rw [if_pos hjl] at hj; cases hj; exact h2
      · rw [if_neg hjl] at hj
        exact hv.disj k j part q hk hj (by omega) x h1
    · rw [if_neg hik] at hi
      by_cases hil : i = ps.length
      · rw [if_pos hil] at hi; cases hi
        by_cases hjk : j = k
        · rw [if_pos hjk] at hj; cases hj
          exact fun h => ((hmd x).1 h).2 hx
        · rw [if_neg hjk, if_neg (by omega)] at hj
          exact hv.disj k j part q hk hj (by omega) x (hms.subset hx)
      · rw [if_neg hil] at hi
        by_cases hjk : j = k
        · rw [if_pos hjk] at hj; cases hj
          exact fun h => hv.disj i k p part hi hk (by omega) x hx ((hmd x).1 h).1
        · rw [if_neg hjk] at hj
          by_cases hjl : j = ps.length
          · rw [if_pos hjl] at hj; cases hj
            exact fun h => hv.disj i k p part hi hk (by omega) x hx (hms.subset h)
          · rw [if_neg hjl] at hj
            exact hv.disj i j p q hi hj hij x hx
  · constructor
    · rintro ⟨p, hp, hx⟩
      obtain ⟨i, hi⟩ := List.mem_iff_getElem?.1 hp
      have hil : i < ps.length := (List.getElem?_eq_some_iff.1 hi).1
      by_cases hik : i = k
      · subst hik
        rw [hk] at hi; cases hi
        by_cases hxm : x ∈ moved
        · exact ⟨moved, List.mem_of_getElem? (i := ps.length) (by rw [hget, if_neg (by omega), if_pos rfl]), hxm⟩
        · exact ⟨_, List.mem_of_getElem? (i := i) (by rw [hget, if_pos rfl]), (hmd x).2 ⟨hx, hxm⟩⟩
      · exact ⟨p, List.mem_of_getElem? (i := i) (by rw [hget, if_neg hik, if_neg (by omega), hi]), hx⟩
    · rintro ⟨p, hp, hx⟩
      rcases hcases p hp with rfl | rfl | h
      · exact ⟨part, hpm, ((hmd x).1 hx).1⟩
      · exact ⟨part, hpm, hms.subset hx⟩
      · exact ⟨p, h, hx⟩
  · rcases hcases p hp with rfl | rfl | h
    · exact ⟨part, hpm, fun x hx => ((hmd x).1 hx).1⟩
    · exact ⟨part, hpm, fun x hx => hms.subset hx⟩
    · exact ⟨p, h, fun x hx => hx⟩

theorem comb_step {orig : List (List α)} {o0 o1 : List α} (hv : Valid orig) (h0 : Strict o0) (h1 : Strict o1)
    (hd : ∀ x ∈ o0, x ∉ o1) {k : Nat} (hk : k < orig.length) {s : Comb α} (h : CInv orig o0 o1 k s) :
    CInv orig o0 o1 (k + 1) (combStep o0 o1 s k) := by
  obtain ⟨part, hp⟩ : ∃ part, orig[k]? = some part := ⟨_, List.getElem?_eq_getElem hk⟩
  have hpk : s.parts[k]? = some part := by rw [h.todo k (Nat.le_refl _) hk, hp]
  have hps := hv.strict part (List.mem_of_getElem? hp)
  have hm0 := fun x => mem_interG hps.incr h0.incr x
  have hm1 := fun x => mem_interG hps.incr h1.incr x
  have ha0 := al_step hp hv h0 h.al0
  have ha1 := al_step hp hv h1 h.al1
  obtain ⟨hu0, hu1, hune⟩ := okUpdate_spec k (interG part o0).isEmpty (interG part o1).isEmpty s.ok0 s.ok1
  have hune := hune h.okne
  unfold combStep
  simp only [hpk, Option.getD_some]
  generalize hok : okUpdate k (interG part o0).isEmpty (interG part o1).isEmpty s.ok0 s.ok1 = ok at hu0 hu1 hune
  have hemp : ∀ l : List α, l.isEmpty = true → ∀ x, x ∉ l := by
    intro l hl x; rw [List.isEmpty_iff.1 hl]; simp
  by_cases he : ((interG part o0).isEmpty || (interG part o1).isEmpty) = true
  · rw [if_pos he]
    refine ⟨h.valid, h.len, fun i hi => h.todo i (by omega), h.sub, h.cov, fun i p hi hik => ?_, ha0, ha1,
      fun j hj => ?_, fun j hj => ?_, hune⟩
    · by_cases hikk : i = k
      · subst hikk
        rw [hpk] at hi; cases hi
        rw [Bool.or_eq_true] at he
        rcases he with he | he
        · exact .inl fun x hx hx0 => hemp _ he x ((hm0 x).2 ⟨hx, hx0⟩)
        · exact .inr fun x hx hx0 => hemp _ he x ((hm1 x).2 ⟨hx, hx0⟩)
      · exact h.nb i p hi (by omega)
    · rcases hu0 j hj with hj | ⟨rfl, he⟩
      · obtain ⟨h3, h4⟩ := h.ok0 j hj
        exact ⟨by omega, h4⟩
      · exact ⟨by omega, part, hpk, fun x hx hx1 => hemp _ he x ((hm1 x).2 ⟨hx, hx1⟩)⟩
    · rcases hu1 j hj with hj | ⟨rfl, he⟩
      · obtain ⟨h3, h4⟩ := h.ok1 j hj
        exact ⟨by omega, h4⟩
      · exact ⟨by omega, part, hpk, fun x hx hx1 => hemp _ he x ((hm0 x).2 ⟨hx, hx1⟩)⟩
  · rw [if_neg he]
    rw [Bool.or_eq_true, not_or] at he
    have hne : ∀ l : List α, ¬ l.isEmpty = true → ∃ x, x ∈ l := by
      intro l hl
      cases l with
      | nil => exact absurd rfl hl
      | cons a l => exact ⟨a, by simp⟩
    obtain ⟨x0, hx0⟩ := hne _ he.1
    obtain ⟨x1, hx1⟩ := hne _ he.2
    obtain ⟨hx0p, hx0o⟩ := (hm0 x0).1 hx0
    obtain ⟨hx1p, hx1o⟩ := (hm1 x1).1 hx1
    have hkl : k < s.parts.length := by have := h.len; omega
    generalize hmv : decide ((interG part o0).length < (interG part o1).length) = mv
    generalize hmd : (if mv = true then interG part o0 else interG part o1) = moved
    have key : moved.Sublist part ∧ moved ≠ [] ∧ (∃ y ∈ part, y ∉ moved) ∧
        (∀ x ∈ moved, if mv = true then x ∈ o0 else x ∈ o1) ∧
        (∀ x ∈ part, x ∉ moved → if mv = true then x ∉ o0 else x ∉ o1) := by
      subst hmd
      cases mv
      · simp only [Bool.false_eq_true, if_false]
        exact ⟨interG_sublist _ _, List.ne_nil_of_mem hx1,
          ⟨x0, hx0p, fun hm => hd x0 hx0o ((hm1 x0).1 hm).2⟩, fun x hx => ((hm1 x).1 hx).2,
          fun x hx hnm hxo => hnm ((hm1 x).2 ⟨hx, hxo⟩)⟩
      · simp only [if_true]
        exact ⟨interG_sublist _ _, List.ne_nil_of_mem hx0,
          ⟨x1, hx1p, fun hm => hd x1 ((hm0 x1).1 hm).2 hx1o⟩, fun x hx => ((hm0 x).1 hx).2,
          fun x hx hnm hxo => hnm ((hm0 x).2 ⟨hx, hxo⟩)⟩
    obtain ⟨hsub, hmne, ⟨y, hy, hym⟩, hmo, hro⟩ := key
    obtain ⟨hs1, hs2, hs3, hget⟩ := split_parts h.valid hpk hsub hmne hy hym
    have hmdiff := fun x => mem_diffG hps (Strict.incr (hps.sublist hsub)) x
    have hlen := h.len
    have hnbr : ∀ x ∈ diffG part moved, if mv = true then x ∉ o0 else x ∉ o1 := fun x hx =>
      hro x ((hmdiff x).1 hx).1 ((hmdiff x).1 hx).2
    refine ⟨hs1, by rw [List.length_set, List.length_append]; omega, fun i hi hil => ?_, fun p hp => ?_,
      fun x hx => (hs2 x).1 (h.cov x hx), fun i p hi hik => ?_, ha0, ha1, fun j hj => ?_, fun j hj => ?_, fun j hj => ?_⟩
    · simp only
      rw [hget, if_neg (by omega), if_neg (by omega)]
      exact h.todo i (by omega) hil
    · obtain ⟨q, hq, hqs⟩ := hs3 p hp
      obtain ⟨q', hq', hqs'⟩ := h.sub q hq
      exact ⟨q', hq', fun x hx => hqs' x (hqs x hx)⟩
    · simp only at hi
      rw [hget] at hi
      by_cases hik' : i = k
      · rw [if_pos hik'] at hi; cases hi
        cases mv
        · exact .inr fun x hx => by simpa using hnbr x hx
        · exact .inl fun x hx => by simpa using hnbr x hx
      · rw [if_neg hik'] at hi
        by_cases hil : i = s.parts.length
        · rw [if_pos hil] at hi; cases hi
          cases mv
          · exact .inl fun x hx h0 => hd x h0 (by simpa using hmo x hx)
          · exact .inr fun x hx => hd x (by simpa using hmo x hx)
        · rw [if_neg hil] at hi
          exact h.nb i p hi (by omega)
    · simp only at hj ⊢
      obtain ⟨_, _, rfl⟩ := Option.map_eq_some_iff.1 hj
      cases mv
      · refine ⟨?_, diffG part moved, ?_, ?_⟩
        · left; simp
        · rw [hget]; simp
        · exact fun x hx => by simpa using hnbr x hx
      · refine ⟨?_, moved, ?_, ?_⟩
        · right; simp; omega
        · rw [hget]; simp; omega
        · exact fun x hx => hd x (by simpa using hmo x hx)
    · simp only at hj ⊢
      obtain ⟨_, _, rfl⟩ := Option.map_eq_some_iff.1 hj
      cases mv
      · refine ⟨?_, moved, ?_, ?_⟩
        · right; simp; omega
        · rw [hget]; simp; omega
        · exact fun x hx h0 => hd x h0 (by simpa using hmo x hx)
      · refine ⟨?_, diffG part moved, ?_, ?_⟩
        · left; simp
        · rw [hget]; simp
        · exact fun x hx => by simpa using hnbr x hx
    · simp only at hj ⊢
      obtain ⟨_, _, rfl⟩ := Option.map_eq_some_iff.1 hj
      intro hc
      obtain ⟨_, _, hc⟩ := Option.map_eq_some_iff.1 hc
      cases mv <;> simp at hc <;> omega

theorem comb_loop {orig : List (List α)} {o0 o1 : List α} (hv : Valid orig) (h0 : Strict o0) (h1 : Strict o1)
    (hd : ∀ x ∈ o0, x ∉ o1) (k : Nat) (hk : k ≤ orig.length) :
    CInv orig o0 o1 k ((List.range k).foldl (combStep o0 o1) { parts := orig }) := by
  induction k with
  | zero =>
    refine ⟨hv, Nat.le_refl _, fun _ _ _ => rfl, fun p hp => ⟨p, hp, fun _ h => h⟩, fun x h => h,
      fun i p hi hik => ?_, ⟨List.nodup_nil, ?_⟩, ⟨List.nodup_nil, ?_⟩, ?_, ?_, ?_⟩
    · have := (List.getElem?_eq_some_iff.1 hi).1
      simp only [List.range_zero, List.foldl_nil] at this
      omega
    · simp
    · simp
    · intro j hj; cases hj
    · intro j hj; cases hj
    · intro j hj; cases hj
  | succ k ih =>
    rw [List.range_succ, List.foldl_append]
    exact comb_step hv h0 h1 hd (by omega) (ih (by omega))

/-- What `combInsert` does. `o'` is the other of the two sets. -/
structure Inserted (ps ps' : List (List α)) (o : List α) : Prop where
  valid : Valid ps'
  mem : ∀ x, In ps' x ↔ In ps x ∨ x ∈ o
  sub : ∀ p ∈ ps', (∃ q ∈ ps, ∀ x ∈ p, x ∈ q ∨ (x ∈ o ∧ ¬ In ps x)) ∨ (∀ x ∈ p, x ∈ o ∧ ¬ In ps x)
  len : ps.length ≤ ps'.length

theorem comb_insert {ps : List (List α)} (hv : Valid ps) {o o' al : List α} (ho : Strict o)
    (hd : ∀ x ∈ o, x ∉ o') (hal : al.Nodup ∧ ∀ x, x ∈ al ↔ x ∈ o ∧ In ps x) {ok : Option Nat}
    (hok : ∀ j, ok = some j → ∃ p, ps[j]? = some p ∧ ∀ x ∈ p, x ∉ o')
    (hnb : ∀ p ∈ ps, NotBoth o o' p) :
    Inserted ps (combInsert ps o al ok) o ∧ (∀ p ∈ combInsert ps o al ok, NotBoth o o' p) ∧
    ∀ j, j < ps.length → ok ≠ some j → (combInsert ps o al ok)[j]? = ps[j]? := by
  unfold combInsert
  by_cases hl : al.length = o.length
  · rw [if_pos hl]
    have hperm : al.Perm o :=
      (List.Nodup.subperm hal.1 fun x hx => ((hal.2 x).1 hx).1).perm_of_length_le (by omega)
    refine ⟨⟨hv, fun x => ⟨.inl, ?_⟩, fun p hp => .inl ⟨p, hp, fun x hx => .inl hx⟩, Nat.le_refl _⟩, hnb, fun _ _ _ => rfl⟩
    rintro (h | h)
    · exact h
    · exact ((hal.2 x).1 (hperm.mem_iff.2 h)).2
  · rw [if_neg hl]
    have hrest : ∀ x, x ∈ diffG o (sortBy ltB al) ↔ x ∈ o ∧ ¬ In ps x := by
      intro x
      rw [mem_diffG ho (sortBy_incr _), mem_sortBy, hal.2]
      grind
    have hrs : Strict (diffG o (sortBy ltB al)) := ho.sublist (diffG_sublist _ _)
    have hrne : diffG o (sortBy ltB al) ≠ [] := by
      intro he
      apply hl
      have : o.Perm al := by
        refine (List.perm_ext_iff_of_nodup ho.nodup hal.1).2 fun x => ⟨fun hx => ?_, fun hx => ((hal.2 x).1 hx).1⟩
        by_contra hna
        have : x ∈ diffG o (sortBy ltB al) := (hrest x).2 ⟨hx, fun hin => hna ((hal.2 x).2 ⟨hx, hin⟩)⟩
        rw [he] at this; cases this
      exact this.length_eq.symm
    simp only
    generalize diffG o (sortBy ltB al) = rest at hrest hrs hrne
    cases ok with
    | none =>
      simp only
      have hget : ∀ i, (ps ++ [rest])[i]? = if i = ps.length then some rest else ps[i]? := by
        intro i
        by_cases hil : i = ps.length
        · rw [if_pos hil, hil]; simp
        · rw [if_neg hil]
          rcases Nat.lt_or_ge i ps.length with h | h
          · rw [List.getElem?_append_left h]
          · rw [List.getElem?_eq_none (by rw [List.length_append]; simp; omega),
              List.getElem?_eq_none h]
      refine ⟨⟨⟨fun p hp => ?_, fun p hp => ?_, fun i j p q hi hj hij x hx => ?_⟩, fun x => ?_, fun p hp => ?_, by simp⟩,
        fun p hp => ?_, fun j hj _ => by rw [hget, if_neg (by omega)]⟩
      · rcases List.mem_append.1 hp with h | h
        · exact hv.strict p h
        · rw [List.mem_singleton] at h; subst h; exact hrs
      · rcases List.mem_append.1 hp with h | h
        · exact hv.ne p h
        · rw [List.mem_singleton] at h; subst h; exact hrne
      · rw [hget] at hi hj
        by_cases hil : i = ps.length
        · rw [if_pos hil] at hi; cases hi
          rw [if_neg (by omega)] at hj
          exact fun h => ((hrest x).1 hx).2 ⟨q, List.mem_of_getElem? hj, h⟩
        · rw [if_neg hil] at hi
          by_cases hjl : j = ps.length
          · rw [if_pos hjl] at hj; cases hj
            exact fun h => ((hrest x).1 h).2 ⟨p, List.mem_of_getElem? hi, hx⟩
          · rw [if_neg hjl] at hj
            exact hv.disj i j p q hi hj hij x hx
      · constructor
        · rintro ⟨p, hp, hx⟩
          rcases List.mem_append.1 hp with h | h
          · exact .inl ⟨p, h, hx⟩
          · rw [List.mem_singleton] at h; subst h; exact .inr ((hrest x).1 hx).1
        · intro h
          by_cases hin : In ps x
          · obtain ⟨p, hp, hx⟩ := hin
            exact ⟨p, by simp [hp], hx⟩
          · rcases h with h | h
            · exact absurd h hin
            · exact ⟨rest, by simp, (hrest x).2 ⟨h, hin⟩⟩
      · rcases List.mem_append.1 hp with h | h
        · exact .inl ⟨p, h, fun x hx => .inl hx⟩
        · rw [List.mem_singleton] at h; subst h; exact .inr fun x hx => (hrest x).1 hx
      · rcases List.mem_append.1 hp with h | h
        · exact hnb p h
        · rw [List.mem_singleton] at h; subst h
          exact .inr fun x hx => hd x ((hrest x).1 hx).1
    | some k =>
      obtain ⟨part, hk, hko⟩ := hok k rfl
      have hpm : part ∈ ps := List.mem_of_getElem? hk
      have hkl : k < ps.length := (List.getElem?_eq_some_iff.1 hk).1
      simp only [hk, Option.getD_some]
      have hmm := fun x => mem_mergeBy ltB part rest x
      have hms : Strict (mergeBy ltB part rest) :=
        mergeBy_strict (hv.strict part hpm) hrs fun x hx hr => ((hrest x).1 hr).2 ⟨part, hpm, hx⟩
      have hget : ∀ i, (ps.set k (mergeBy ltB part rest))[i]? =
          if i = k then some (mergeBy ltB part rest) else ps[i]? := by
        intro i
        rw [List.getElem?_set]
        by_cases hik : i = k
        · rw [if_pos hik.symm, if_pos hik, if_pos (by omega)]
        · rw [if_neg (Ne.symm hik), if_neg hik]
      have hcases : ∀ p ∈ ps.set k (mergeBy ltB part rest), p = mergeBy ltB part rest ∨ p ∈ ps := by
        intro p hp
        obtain ⟨i, hi⟩ := List.mem_iff_getElem?.1 hp
        rw [hget] at hi
        split at hi
        · exact .inl (Option.some.inj hi).symm
        · exact .inr (List.mem_of_getElem? hi)
      refine ⟨⟨⟨fun p hp => ?_, fun p hp => ?_, fun i j p q hi hj hij x hx => ?_⟩, fun x => ?_, fun p hp => ?_, by simp⟩,
        fun p hp => ?_, fun j hj hne => by rw [hget, if_neg (fun h => hne (by rw [h]))]⟩
      · rcases hcases p hp with rfl | h
        · exact hms
        · exact hv.strict p h
      · rcases hcases p hp with rfl | h
        · obtain ⟨z, hz⟩ := List.exists_mem_of_ne_nil _ hrne
          exact List.ne_nil_of_mem ((hmm z).2 (.inr hz))
        · exact hv.ne p h
      · rw [hget] at hi hj
        by_cases hik : i = k
        · rw [if_pos hik] at hi; cases hi
          rw [if_neg (by omega)] at hj
          rcases (hmm x).1 hx with hx | hx
          · exact hv.disj k j part q hk hj (by omega) x hx
          · exact fun h => ((hrest x).1 hx).2 ⟨q, List.mem_of_getElem? hj, h⟩
        · rw [if_neg hik] at hi
          by_cases hjk : j = k
          · rw [if_pos hjk] at hj; cases hj
            intro h
            rcases (hmm x).1 h with h | h
            · exact hv.disj i k p part hi hk (by omega) x hx h
            · exact ((hrest x).1 h).2 ⟨p, List.mem_of_getElem? hi, hx⟩
          · rw [if_neg hjk] at hj
            exact hv.disj i j p q hi hj hij x hx
      · constructor
        · rintro ⟨p, hp, hx⟩
          rcases hcases p hp with rfl | h
          · rcases (hmm x).1 hx with hx | hx
            · exact .inl ⟨part, hpm, hx⟩
            · exact .inr ((hrest x).1 hx).1
          · exact .inl ⟨p, h, hx⟩
        · intro h
          by_cases hin : In ps x
          · obtain ⟨p, hp, hx⟩ := hin
            obtain ⟨i, hi⟩ := List.mem_iff_getElem?.1 hp
            by_cases hik : i = k
            · subst hik
              rw [hk] at hi; cases hi
              exact ⟨_, List.mem_of_getElem? (i := i) (by rw [hget, if_pos rfl]), (hmm x).2 (.inl hx)⟩
            · exact ⟨p, List.mem_of_getElem? (i := i) (by rw [hget, if_neg hik, hi]), hx⟩
          · rcases h with h | h
            · exact absurd h hin
            · exact ⟨_, List.mem_of_getElem? (i := k) (by rw [hget, if_pos rfl]),
                (hmm x).2 (.inr ((hrest x).2 ⟨h, hin⟩))⟩
      · rcases hcases p hp with rfl | h
        · refine .inl ⟨part, hpm, fun x hx => ?_⟩
          rcases (hmm x).1 hx with hx | hx
          · exact .inl hx
          · exact .inr ((hrest x).1 hx)
        · exact .inl ⟨p, h, fun x hx => .inl hx⟩
      · rcases hcases p hp with rfl | h
        · refine .inr fun x hx => ?_
          rcases (hmm x).1 hx with hx | hx
          · exact hko x hx
          · exact hd x ((hrest x).1 hx).1
        · exact hnb p h

/-- `x` and `y` are in different parts. -/
def Sep (ps : List (List α)) (x y : α) : Prop := In ps x ∧ In ps y ∧ ∀ p ∈ ps, ¬ (x ∈ p ∧ y ∈ p)

theorem combine_spec {r : Refinement α} (hr : r.parts ≠ []) (hv : Valid r.parts) {o0 o1 : List α}
    (h0 : Strict o0) (h1 : Strict o1) (hd : ∀ x ∈ o0, x ∉ o1) :
    Valid (r.combine o0 o1).parts ∧ r.parts.length ≤ (r.combine o0 o1).parts.length ∧
    (∀ x, In (r.combine o0 o1).parts x ↔ In r.parts x ∨ x ∈ o0 ∨ x ∈ o1) ∧
    (∀ x y, Sep r.parts x y → Sep (r.combine o0 o1).parts x y) ∧
    (∀ x y, x ∈ o0 → y ∈ o1 → Sep (r.combine o0 o1).parts x y) := by
  unfold combine
  rw [if_neg (by simpa using hr)]
  simp only
  have h := comb_loop hv h0 h1 hd r.parts.length (Nat.le_refl _)
  generalize (List.range r.parts.length).foldl (combStep o0 o1) { parts := r.parts } = s at h
  have hin : ∀ x, In s.parts x ↔ In r.parts x := by
    refine fun x => ⟨fun ⟨p, hp, hx⟩ => ?_, h.cov x⟩
    obtain ⟨q, hq, hs⟩ := h.sub p hp
    exact ⟨q, hq, hs x hx⟩
  have hal : ∀ x, (∃ j p, j < r.parts.length ∧ r.parts[j]? = some p ∧ x ∈ p) ↔ In r.parts x := by
    intro x
    constructor
    · rintro ⟨j, p, _, hj, hx⟩; exact ⟨p, List.mem_of_getElem? hj, hx⟩
    · rintro ⟨p, hp, hx⟩
      obtain ⟨j, hj⟩ := List.mem_iff_getElem?.1 hp
      exact ⟨j, p, (List.getElem?_eq_some_iff.1 hj).1, hj, hx⟩
  have hnb : ∀ p ∈ s.parts, NotBoth o0 o1 p := by
    intro p hp
    obtain ⟨i, hi⟩ := List.mem_iff_getElem?.1 hp
    exact h.nb i p hi (by omega)
  obtain ⟨i1, i2, i3⟩ := comb_insert h.valid (o := o0) (o' := o1) (al := s.al0) h0 hd
    ⟨h.al0.1, fun x => by rw [h.al0.2, hal, hin]⟩ (ok := s.ok0) (fun j hj => (h.ok0 j hj).2) hnb
  generalize combInsert s.parts o0 s.al0 s.ok0 = ps1 at i1 i2 i3
  obtain ⟨j1, j2, _⟩ := comb_insert i1.valid (o := o1) (o' := o0) (al := s.al1) h1
    (fun x hx1 hx0 => hd x hx0 hx1)
    ⟨h.al1.1, fun x => by
      rw [h.al1.2, hal, i1.mem, hin]
      exact ⟨fun ⟨ha, hb⟩ => ⟨ha, .inl hb⟩, fun ⟨ha, hb⟩ => ⟨ha, hb.elim (fun h => h) fun hb => absurd ha (hd x hb)⟩⟩⟩
    (ok := s.ok1)
    (fun j hj => by
      obtain ⟨_, p, hp, hpo⟩ := h.ok1 j hj
      refine ⟨p, ?_, hpo⟩
      rw [i3 j (List.getElem?_eq_some_iff.1 hp).1 (fun hc => h.okne j hc hj), hp])
    (fun p hp => (i2 p hp).symm)
  generalize combInsert ps1 o1 s.al1 s.ok1 = ps2 at j1 j2
  refine ⟨j1.valid, Nat.le_trans h.len (Nat.le_trans i1.len j1.len),
    fun x => by rw [j1.mem, i1.mem, hin, or_assoc], fun x y hs => ?_, fun x y hx hy => ?_⟩
  · have hx1 : In ps1 x := (i1.mem x).2 (.inl ((hin x).2 hs.1))
    have hy1 : In ps1 y := (i1.mem y).2 (.inl ((hin y).2 hs.2.1))
    refine ⟨(j1.mem x).2 (.inl hx1), (j1.mem y).2 (.inl hy1), fun p hp ⟨hxp, hyp⟩ => ?_⟩
    rcases j1.sub p hp with ⟨q, hq, hqs⟩ | hq
    · have hxq : x ∈ q := (hqs x hxp).resolve_right fun hc => hc.2 hx1
      have hyq : y ∈ q := (hqs y hyp).resolve_right fun hc => hc.2 hy1
      rcases i1.sub q hq with ⟨q', hq', hqs'⟩ | hq'
      · have hxq' : x ∈ q' := (hqs' x hxq).resolve_right fun hc => hc.2 ((hin x).2 hs.1)
        have hyq' : y ∈ q' := (hqs' y hyq).resolve_right fun hc => hc.2 ((hin y).2 hs.2.1)
        obtain ⟨q'', hq'', hss⟩ := h.sub q' hq'
        exact hs.2.2 q'' hq'' ⟨hss x hxq', hss y hyq'⟩
      · exact (hq' x hxq).2 ((hin x).2 hs.1)
    · exact (hq x hxp).2 hx1
  · refine ⟨(j1.mem x).2 (.inl ((i1.mem x).2 (.inr hx))), (j1.mem y).2 (.inr hy), fun p hp ⟨hxp, hyp⟩ => ?_⟩
    rcases j2 p hp with h | h
    · exact h y hyp hy
    · exact h x hxp hx

end Refinement

end Verif
