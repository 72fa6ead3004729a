import Verif.Model.Utils
import Verif.Proofs.VectorSet
import Mathlib.Data.List.Nodup

/-! # Facts about the utilities -/

namespace Verif

/-! ## Containers of a fut_set -/

namespace CMap

variable {K V : Type} [DecidableEq K] {lt : K → K → Bool}

/-- Keys are unique, and sorted in a vector container. -/
def OK (lt : K → K → Bool) : Kind → CMap K V → Prop
  | .hash, m => (m.map (·.1)).Nodup
  | .vector, m => VMap.Sorted lt m

theorem OK.nil (c : Kind) : OK lt c ([] : CMap K V) := by
  cases c
  · exact List.nodup_nil
  · exact List.Pairwise.nil

theorem hash_unique {m : CMap K V} (h : (m.map (·.1)).Nodup) {k : K} {v v' : V} (h1 : (k, v) ∈ m)
    (h2 : (k, v') ∈ m) : v = v' := by
  have := List.inj_on_of_nodup_map h h1 h2 rfl
  cases this
  rfl

theorem find_iff (hl : StrictTotal lt) {c : Kind} {m : CMap K V} (h : OK lt c m) (k : K) (v : V) :
    find lt c m k = some v ↔ (k, v) ∈ m := by
  cases c with
  | vector => exact VMap.find_eq hl h k v
  | hash =>
    simp only [find, Option.map_eq_some_iff]
    constructor
    · rintro ⟨e, h1, rfl⟩
      have := List.find?_some h1
      have hm := List.mem_of_find?_eq_some h1
      simp only [beq_iff_eq] at this
      rw [← this]
      exact hm
    · intro hm
      cases e : List.find? (fun e => e.1 == k) m with
      | none =>
        have := List.find?_eq_none.1 e _ hm
        simp at this
      | some x =>
        refine ⟨x, rfl, ?_⟩
        have hx := List.find?_some e
        have hx' := List.mem_of_find?_eq_some e
        simp only [beq_iff_eq] at hx
        subst hx
        exact hash_unique h hx' hm

theorem find_none (hl : StrictTotal lt) {c : Kind} {m : CMap K V} (h : OK lt c m) (k : K) :
    find lt c m k = none ↔ ∀ v, (k, v) ∉ m := by
  constructor
  · intro h1 v hv
    rw [(find_iff hl h k v).2 hv] at h1
    cases h1
  · intro h1
    cases e : find lt c m k with
    | none => rfl
    | some v => exact absurd ((find_iff hl h k v).1 e) (h1 v)

theorem any_key (m : CMap K V) (k : K) : m.any (fun e => e.1 == k) = true ↔ ∃ v, (k, v) ∈ m := by
  simp only [List.any_eq_true, beq_iff_eq]
  constructor
  · rintro ⟨⟨k', v⟩, h1, rfl⟩
    exact ⟨v, h1⟩
  · rintro ⟨v, h⟩
    exact ⟨_, h, rfl⟩

theorem OK.append {m : CMap K V} (h : OK lt .hash m) {k : K} (hk : ∀ v, (k, v) ∉ m) (v : V) :
    OK lt .hash (m ++ [(k, v)]) := by
  simp only [OK, List.map_append, List.map_cons, List.map_nil] at *
  rw [List.nodup_append]
  refine ⟨h, by simp, ?_⟩
  intro x hx y hy
  rw [List.mem_singleton] at hy
  subst hy
  obtain ⟨e, he, rfl⟩ := List.mem_map.1 hx
  intro heq
  subst heq
  exact hk e.2 he

theorem mem_append_iff {m : CMap K V} {k : K} (v : V) (x : K × V) :
    x ∈ m ++ [(k, v)] ↔ x ∈ m ∨ x = (k, v) := by simp

theorem tryEmplace_spec (hl : StrictTotal lt) {c : Kind} {m : CMap K V} (h : OK lt c m) (k : K)
    (v : V) :
    OK lt c (tryEmplace lt c m k v).1 ∧
    (∀ x, x ∈ (tryEmplace lt c m k v).1 ↔ x ∈ m ∨ (x = (k, v) ∧ ∀ v', (k, v') ∉ m)) ∧
    ((tryEmplace lt c m k v).2 = true ↔ ∀ v', (k, v') ∉ m) := by
  cases c with
  | vector =>
    exact ⟨VMap.emplace_sorted hl h k v, VMap.mem_emplace hl h k v, VMap.emplace_fresh hl h k v⟩
  | hash =>
    simp only [tryEmplace]
    by_cases ha : m.any (fun e => e.1 == k) = true
    · rw [if_pos ha]
      obtain ⟨v', hv'⟩ := (any_key m k).1 ha
      refine ⟨h, fun x => ⟨.inl, ?_⟩, ?_⟩
      · rintro (h1 | ⟨-, h2⟩)
        · exact h1
        · exact absurd hv' (h2 v')
      · simp only [Bool.false_eq_true, false_iff]
        exact fun h => h v' hv'
    · rw [if_neg ha]
      have hn : ∀ v', (k, v') ∉ m := fun v' hv' => ha ((any_key m k).2 ⟨v', hv'⟩)
      refine ⟨h.append hn v, fun x => ?_, by simpa using hn⟩
      rw [mem_append_iff]
      exact or_congr_right ⟨fun h => ⟨h, hn⟩, fun h => h.1⟩

theorem insertOrAssign_spec (hl : StrictTotal lt) {c : Kind} {m : CMap K V} (h : OK lt c m) (k : K)
    (v : V) :
    OK lt c (insertOrAssign lt c m k v).1 ∧
    (∀ x, x ∈ (insertOrAssign lt c m k v).1 ↔ (x.1 ≠ k ∧ x ∈ m) ∨ x = (k, v)) ∧
    ((insertOrAssign lt c m k v).2 = true ↔ ∀ v', (k, v') ∉ m) := by
  cases c with
  | vector =>
    refine ⟨VMap.insertOrAssign_sorted hl h k v, VMap.mem_insertOrAssign hl h k v, ?_⟩
    have := VMap.emplace_fresh hl h k v
    rw [← this]
    simp only [insertOrAssign, VMap.insertOrAssign, VMap.emplace]
    split
    · rfl
    · split <;> rfl
  | hash =>
    simp only [insertOrAssign]
    by_cases ha : m.any (fun e => e.1 == k) = true
    · rw [if_pos ha]
      obtain ⟨v', hv'⟩ := (any_key m k).1 ha
      refine ⟨?_, fun x => ?_, ?_⟩
      · simp only [OK, List.map_map]
        have : ((fun e : K × V => e.1) ∘ fun e => if e.1 = k then (e.1, v) else e) = fun e => e.1 := by
          funext e
          simp only [Function.comp_apply]
          split <;> rfl
        rw [this]
        exact h
      · simp only [List.mem_map]
        constructor
        · rintro ⟨e, he, rfl⟩
          by_cases hk : e.1 = k
          · rw [if_pos hk]
            exact Or.inr (by rw [hk])
          · rw [if_neg hk]
            exact Or.inl ⟨hk, he⟩
        · rintro (⟨h1, h2⟩ | rfl)
          · exact ⟨x, h2, by rw [if_neg h1]⟩
          · exact ⟨(k, v'), hv', by simp⟩
      · simp only [Bool.false_eq_true, false_iff]
        exact fun h => h v' hv'
    · rw [if_neg ha]
      have hn : ∀ v', (k, v') ∉ m := fun v' hv' => ha ((any_key m k).2 ⟨v', hv'⟩)
      refine ⟨h.append hn v, fun x => ?_, by simpa using hn⟩
      rw [mem_append_iff]
      refine or_congr_left ⟨fun h => ⟨?_, h⟩, fun h => h.2⟩
      rintro rfl
      exact hn x.2 h

theorem update_spec {c : Kind} {m : CMap K V} (h : OK lt c m) (k : K) (f : V → V) :
    OK lt c (update m k f) ∧
    ∀ x, x ∈ update m k f ↔ (x.1 ≠ k ∧ x ∈ m) ∨ ∃ v, (k, v) ∈ m ∧ x = (k, f v) := by
  have hk : ∀ e : K × V, (if e.1 = k then (e.1, f e.2) else e).1 = e.1 := by
    intro e
    split <;> rfl
  refine ⟨?_, fun x => ?_⟩
  · cases c with
    | hash =>
      simp only [OK, update, List.map_map]
      have : ((fun e : K × V => e.1) ∘ fun e => if e.1 = k then (e.1, f e.2) else e) = fun e => e.1 := by
        funext e
        exact hk e
      rw [this]
      exact h
    | vector =>
      simp only [OK, update, VMap.Sorted] at *
      rw [List.pairwise_map]
      simp only [hk]
      exact h
  · simp only [update, List.mem_map]
    constructor
    · rintro ⟨e, he, rfl⟩
      by_cases hk : e.1 = k
      · rw [if_pos hk]
        subst hk
        exact Or.inr ⟨e.2, he, rfl⟩
      · rw [if_neg hk]
        exact Or.inl ⟨hk, he⟩
    · rintro (⟨h1, h2⟩ | ⟨v, h1, rfl⟩)
      · exact ⟨x, h2, by rw [if_neg h1]⟩
      · exact ⟨(k, v), h1, by simp⟩

end CMap

namespace Fut

variable {K V : Type} [DecidableEq K] {lt : K → K → Bool}

/-- The container of the last level. -/
abbrev base (m : Fut K V []) : CMap K V := m
/-- The container of an outer level. -/
abbrev outer {c : Kind} {cs : List Kind} (m : Fut K V (c :: cs)) : CMap K (Fut K V cs) := m

/-- All containers of all levels are in order. -/
def OK (lt : K → K → Bool) : (c : Kind) → (cs : List Kind) → Fut K V cs → Prop
  | c, [], m => CMap.OK lt c (base m)
  | c, c' :: cs, m => CMap.OK lt c (outer m) ∧ ∀ e ∈ outer m, OK lt c' cs e.2

theorem OK.empty (c : Kind) (cs : List Kind) : OK lt c cs (Fut.empty cs : Fut K V cs) := by
  cases cs with
  | nil => exact CMap.OK.nil c
  | cons c' cs =>
    refine ⟨CMap.OK.nil c, ?_⟩
    intro e he
    cases he

theorem get_empty (c : Kind) (cs : List Kind) (k : K) (ks : List K) :
    get lt c cs (Fut.empty cs : Fut K V cs) k ks = none := by
  cases cs with
  | nil => cases c <;> rfl
  | cons c' cs =>
    cases ks with
    | nil => rfl
    | cons k' ks => cases c <;> rfl

/-- `contains` agrees with `get`. -/
theorem contains_eq (hl : StrictTotal lt) (c : Kind) (cs : List Kind) (m : Fut K V cs)
    (h : OK lt c cs m) (k : K) (ks : List K) :
    contains lt c cs m k ks = (get lt c cs m k ks).isSome := by
  induction cs generalizing c k ks with
  | nil =>
    rw [Bool.eq_iff_iff, Option.isSome_iff_exists]
    simp only [get]
    have : (∃ a, CMap.find lt c (base m) k = some a) ↔ ∃ v, (k, v) ∈ (base m) :=
      exists_congr fun v => CMap.find_iff hl h k v
    rw [this]
    cases c with
    | hash => exact CMap.any_key (V := V) m k
    | vector => exact VMap.contains_eq hl h k
  | cons c' cs ih =>
    cases ks with
    | nil => rfl
    | cons k' ks =>
      simp only [contains, get]
      cases e : CMap.find lt c (outer m) k with
      | none => rfl
      | some inner =>
        exact ih c' inner (h.2 (k, inner) ((CMap.find_iff hl h.1 k inner).1 e)) k' ks

/-- What one call of `emplace` or `insert_or_assign` does. -/
theorem put_spec (hl : StrictTotal lt) (assign : Bool) (c : Kind) (cs : List Kind) (m : Fut K V cs)
    (h : OK lt c cs m) (k : K) (ks : List K) (hks : ks.length = cs.length) (v : V) :
    OK lt c cs (put lt assign c cs m k ks v).1 ∧
    (put lt assign c cs m k ks v).2 = (get lt c cs m k ks).isNone ∧
    ∀ x xs, xs.length = cs.length → get lt c cs (put lt assign c cs m k ks v).1 x xs =
      if x = k ∧ xs = ks then
        (if assign then some v else some ((get lt c cs m k ks).getD v))
      else get lt c cs m x xs := by
  induction cs generalizing c k ks with
  | nil =>
    have hks' : ks = [] := List.length_eq_zero_iff.1 hks
    subst hks'
    have hm : CMap.OK lt c (base m) := h
    simp only [put, get]
    have fresh : ∀ b : Bool, (b = true ↔ ∀ v', (k, v') ∉ (base m)) →
        b = (CMap.find lt c (base m) k).isNone := by
      intro b hb
      rw [Bool.eq_iff_iff, hb, Option.isNone_iff_eq_none, CMap.find_none hl hm]
    cases assign with
    | true =>
      obtain ⟨h1, h2, h3⟩ := CMap.insertOrAssign_spec hl hm k v
      refine ⟨h1, fresh _ h3, fun x xs hxs => ?_⟩
      have hxs' : xs = [] := List.length_eq_zero_iff.1 hxs
      subst hxs'
      simp only [if_true, and_true]
      by_cases hx : x = k
      · subst hx
        rw [if_pos rfl]
        exact (CMap.find_iff hl h1 x v).2 ((h2 _).2 (Or.inr rfl))
      · rw [if_neg hx]
        apply Option.ext
        intro w
        show CMap.find lt c (CMap.insertOrAssign lt c (base m) k v).1 x = some w ↔
          CMap.find lt c (base m) x = some w
        rw [CMap.find_iff hl h1, CMap.find_iff hl hm, h2]
        constructor
        · rintro (h4 | h4)
          · exact h4.2
          · cases h4
            exact absurd rfl hx
        · exact fun h4 => Or.inl ⟨hx, h4⟩
    | false =>
      obtain ⟨h1, h2, h3⟩ := CMap.tryEmplace_spec hl hm k v
      refine ⟨h1, fresh _ h3, fun x xs hxs => ?_⟩
      have hxs' : xs = [] := List.length_eq_zero_iff.1 hxs
      subst hxs'
      simp only [Bool.false_eq_true, if_false, and_true]
      by_cases hx : x = k
      · subst hx
        rw [if_pos rfl]
        refine (CMap.find_iff hl h1 x _).2 ((h2 _).2 ?_)
        cases e : CMap.find lt c (base m) x with
        | none => exact Or.inr ⟨rfl, (CMap.find_none hl hm x).1 e⟩
        | some w => exact Or.inl ((CMap.find_iff hl hm x w).1 e)
      · rw [if_neg hx]
        apply Option.ext
        intro w
        show CMap.find lt c (CMap.tryEmplace lt c (base m) k v).1 x = some w ↔
          CMap.find lt c (base m) x = some w
        rw [CMap.find_iff hl h1, CMap.find_iff hl hm, h2]
        constructor
        · rintro (h4 | h4)
          · exact h4
          · cases h4.1
            exact absurd rfl hx
        · exact Or.inl
  | cons c' cs ih =>
    cases ks with
    | nil => simp at hks
    | cons k' ks =>
      have hm : CMap.OK lt c (outer m) := h.1
      obtain ⟨h1, h2, h3⟩ := CMap.tryEmplace_spec hl hm k (Fut.empty cs)
      have hex : ∃ inner, (k, inner) ∈ (CMap.tryEmplace lt c (outer m) k (Fut.empty cs)).1 ∧
          OK lt c' cs inner ∧ ∀ ys zs, get lt c (c' :: cs) m k (ys :: zs) = get lt c' cs inner ys zs := by
        cases e : CMap.find lt c (outer m) k with
        | none =>
          refine ⟨Fut.empty cs, (h2 _).2 (Or.inr ⟨rfl, (CMap.find_none hl hm k).1 e⟩), OK.empty _ _, ?_⟩
          intro ys zs
          simp only [get, e, get_empty]
        | some w =>
          have := (CMap.find_iff hl hm k w).1 e
          refine ⟨w, (h2 _).2 (Or.inl this), h.2 _ this, ?_⟩
          intro ys zs
          simp only [get, e]
      obtain ⟨inner, hi1, hi2, hi3⟩ := hex
      have efind := (CMap.find_iff hl h1 k inner).2 hi1
      obtain ⟨r1, r2, r3⟩ := ih c' inner hi2 k' ks (by simpa using hks)
      have eput : put lt assign c (c' :: cs) m k (k' :: ks) v =
          (CMap.update (CMap.tryEmplace lt c (outer m) k (Fut.empty cs)).1 k
            (fun _ => (put lt assign c' cs inner k' ks v).1), (put lt assign c' cs inner k' ks v).2) := by
        simp only [put, efind]
        rfl
      obtain ⟨u1, u2⟩ := CMap.update_spec h1 k (fun _ => (put lt assign c' cs inner k' ks v).1)
      rw [eput]
      refine ⟨⟨u1, ?_⟩, ?_, ?_⟩
      · intro e he
        rcases (u2 e).1 he with ⟨hne, he'⟩ | ⟨w, hw, rfl⟩
        · rcases (h2 e).1 he' with h4 | ⟨rfl, -⟩
          · exact h.2 e h4
          · exact absurd rfl hne
        · exact r1
      · show (put lt assign c' cs inner k' ks v).2 = _
        rw [r2, hi3]
      · intro x xs hxs
        cases xs with
        | nil => simp at hxs
        | cons x' xs =>
          by_cases hx : x = k
          · subst hx
            have e1 : CMap.find lt c (CMap.update (CMap.tryEmplace lt c (outer m) x
                (Fut.empty cs)).1 x (fun _ => (put lt assign c' cs inner k' ks v).1)) x =
                some (put lt assign c' cs inner k' ks v).1 :=
              (CMap.find_iff hl u1 _ _).2 ((u2 _).2 (Or.inr ⟨inner, hi1, rfl⟩))
            rw [hi3, hi3]
            conv => lhs; simp only [get, e1]
            rw [r3 x' xs (by simpa using hxs)]
            simp only [true_and, List.cons.injEq]
          · rw [if_neg (fun h => hx h.1)]
            have e1 : CMap.find lt c (CMap.update (CMap.tryEmplace lt c (outer m) k
                (Fut.empty cs)).1 k (fun _ => (put lt assign c' cs inner k' ks v).1)) x =
                CMap.find lt c (outer m) x := by
              apply Option.ext
              intro w
              rw [CMap.find_iff hl u1, CMap.find_iff hl hm, u2, h2]
              constructor
              · rintro (⟨-, h4 | h4⟩ | ⟨_, -, h4⟩)
                · exact h4
                · cases h4.1
                  exact absurd rfl hx
                · cases h4
                  exact absurd rfl hx
              · exact fun h4 => Or.inl ⟨hx, Or.inl h4⟩
            simp only [get, e1]

end Fut

/-! ## is_disjoint -/

theorem drop_lowerBound {α β : Type} (lt : α → β → Bool) (l : List α) (k : β) :
    l.drop (lowerBound lt l k) = l.dropWhile (fun a => lt a k) := by
  induction l with
  | nil => rfl
  | cons a l ih =>
    unfold lowerBound
    by_cases h : lt a k = true
    · simp [h, ih]
    · simp [h]

end Verif
