import Verif.Model.PAutomaton

/-!
# Transition lists built by justified insertions, and specifications of callbacks
-/

namespace Verif

variable {W σ : Type}

/-- `Built J E0 E`: the list `E` arises from `E0` by inserting absent transitions at the head, each
with an annotation justified (`J`) by the transitions already there. -/
inductive Built [Zero W] (J : (Tr → Prop) → Tr → Trace → Prop) (E0 : List (AEdge W)) :
    List (AEdge W) → Prop where
  | base : Built J E0 E0
  | cons {E : List (AEdge W)} {t : Tr} {tr : Trace} : Built J E0 E → t ∉ keys E →
      J (· ∈ keys E) t tr → Built J E0 ((t, (tr, 0)) :: E)

namespace Built

variable [Zero W] {J : (Tr → Prop) → Tr → Trace → Prop} {E0 E : List (AEdge W)}

theorem suffix (h : Built J E0 E) : E0 <:+ E := by
  induction h with
  | base => exact List.suffix_refl _
  | cons _ _ _ ih => exact ih.trans (List.suffix_cons _ _)

theorem mem_keys (h : Built J E0 E) {t : Tr} (ht : t ∈ keys E0) : t ∈ keys E :=
  (h.suffix.sublist.map Prod.fst).subset ht

theorem nodup (h : Built J E0 E) (h0 : (keys E0).Nodup) : (keys E).Nodup := by
  induction h with
  | base => exact h0
  | cons _ h2 _ ih => exact List.nodup_cons.2 ⟨h2, ih⟩

/-- Every transition is original or justified by transitions of the final list. -/
theorem just (h : Built J E0 E) (hmono : ∀ P Q : Tr → Prop, (∀ t, P t → Q t) → ∀ t tr, J P t tr → J Q t tr)
    {t : Tr} (ht : t ∈ keys E) : t ∈ keys E0 ∨ ∃ tr, J (· ∈ keys E) t tr := by
  induction h with
  | base => exact .inl ht
  | @cons E t' tr' hb hn hj ih =>
    have hm : ∀ t tr, J (· ∈ keys E) t tr → J (· ∈ keys ((t', ((tr', 0) : Ann W)) :: E)) t tr :=
      hmono _ _ (fun t ht => List.mem_cons_of_mem _ ht)
    rcases List.mem_cons.1 ht with h1 | h1
    · have h1 : t = t' := h1
      subst h1; exact .inr ⟨tr', hm _ _ hj⟩
    · rcases ih h1 with h2 | ⟨tr, h2⟩
      · exact .inl h2
      · exact .inr ⟨tr, hm _ _ h2⟩

end Built

theorem Aut.hasEdge_iff (a : Aut W) (t : Tr) : a.hasEdge t = true ↔ t ∈ keys a.edges := by
  simp [Aut.hasEdge]

theorem Aut.out_perm (h : HashOrder) (a : Aut W) (q : Nat) :
    (a.out h q).Perm ((keys a.edges).filter fun t => t.src == q) :=
  (h.perm _).filter _

theorem Aut.mem_out (h : HashOrder) (a : Aut W) (q : Nat) (t : Tr) :
    t ∈ a.out h q ↔ t ∈ keys a.edges ∧ t.src = q := by
  rw [(a.out_perm h q).mem_iff]; simp

theorem Aut.mem_outTos (h : HashOrder) (a : Aut W) (q to : Nat) :
    to ∈ a.outTos h q ↔ ∃ g, (⟨q, g, to⟩ : Tr) ∈ keys a.edges := by
  unfold Aut.outTos
  rw [List.mem_eraseDups, List.mem_map]
  constructor
  · rintro ⟨t, ht, rfl⟩
    rw [Aut.mem_out] at ht
    exact ⟨t.label, by obtain ⟨h1, rfl⟩ := ht; exact h1⟩
  · rintro ⟨g, hg⟩
    exact ⟨_, (Aut.mem_out h a q _).2 ⟨hg, rfl⟩, rfl⟩

/-- Specification of a callback. `V` says which transitions it may be given, `Good` holds of the
automaton and the callback's own state as long as it has answered `false`, and `Hit` holds of the
automaton once it has answered `true`. -/
structure CbSpec (cb : Aut W → σ → Tr → Ann W → σ × Bool) (V : Tr → Prop)
    (Good : Aut W → σ → Prop) (Hit : Aut W → σ → Prop) : Prop where
  step : ∀ a e t ann, Good a e → t ∉ keys a.edges → V t →
    ((cb { a with edges := (t, ann) :: a.edges } e t ann).2 = true →
      Hit { a with edges := (t, ann) :: a.edges }
        (cb { a with edges := (t, ann) :: a.edges } e t ann).1) ∧
    ((cb { a with edges := (t, ann) :: a.edges } e t ann).2 = false →
      Good { a with edges := (t, ann) :: a.edges }
        (cb { a with edges := (t, ann) :: a.edges } e t ann).1)
  mono : ∀ a e x, Hit a e → Hit { a with edges := x :: a.edges } e

end Verif
