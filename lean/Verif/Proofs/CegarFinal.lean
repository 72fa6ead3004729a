import Verif.Proofs.CegarHeader

/-! # The refinements that `finalize_header` returns -/

namespace Verif

namespace Nfa

theorem interLoop_nodup (m : Nfa) (goal : Nat) {labels : List Nat} (hl : SSorted labels) (es : List NEdge)
    (hes : ∀ e ∈ es, SSorted e.syms) (T : List Nat) (hT : T.Nodup)
    (hTe : ∀ e ∈ es, ∀ x ∈ labels, m.Leads goal x e → x ∉ T)
    (hd : es.Pairwise fun e e' => ∀ x ∈ labels, ¬(m.Leads goal x e ∧ m.Leads goal x e')) :
    (interLoop m goal labels es (T, T)).Nodup := by
  induction es generalizing T with
  | nil => exact hT
  | cons e es ih =>
    rw [List.pairwise_cons] at hd
    unfold interLoop
    by_cases h1 : m.leadsTo e.dst goal = true
    · rw [if_neg (by simp [h1])]
      by_cases h2 : (e.neg && e.syms.isEmpty) = true
      · rw [if_pos h2]; exact SSorted.nodup hl
      · rw [if_neg h2]
        dsimp only
        have hpart : (if e.neg then setDiff labels e.syms else setInter labels e.syms) = m.part goal labels e := by
          simp [part, h1]
        rw [hpart, setUnion_prefix]
        have hmem := fun x => mem_part hl (hes e (by simp)) (goal := goal) (m := m) x
        have hT' : (T ++ m.part goal labels e).Nodup := by
          rw [List.nodup_append]
          refine ⟨hT, (part_sublist m goal labels e).nodup (SSorted.nodup hl), ?_⟩
          rintro x hx y hy rfl
          exact hTe e (by simp) x ((hmem x).1 hy).1 ((hmem x).1 hy).2 hx
        by_cases h3 : (T ++ m.part goal labels e).length = labels.length
        · rw [if_pos h3]; exact hT'
        · rw [if_neg h3]
          refine ih (fun e he => hes e (by simp [he])) _ hT' ?_ hd.2
          intro e' he' x hx hL hxT
          rcases List.mem_append.1 hxT with h | h
          · exact hTe e' (by simp [he']) x hx hL h
          · exact hd.1 e' he' x hx ⟨((hmem x).1 h).2, hL⟩
    · rw [if_pos (by simp [h1])]
      exact ih (fun e he => hes e (by simp [he])) T hT (fun e' he' => hTe e' (by simp [he'])) hd.2

theorem interLoop_nonempty (m : Nfa) (goal : Nat) {labels : List Nat} (hl : SSorted labels) (es : List NEdge)
    (hes : ∀ e ∈ es, SSorted e.syms) (T : List Nat)
    (hne : labels ≠ [])
    (h : T ≠ [] ∨ ∃ x ∈ labels, ∃ e ∈ es, m.Leads goal x e) : interLoop m goal labels es (T, T) ≠ [] := by
  induction es generalizing T with
  | nil =>
    rcases h with h | ⟨_, _, e, h, _⟩
    · exact h
    · simp at h
  | cons e es ih =>
    unfold interLoop
    have hes' : ∀ e ∈ es, SSorted e.syms := fun e he => hes e (by simp [he])
    by_cases h1 : m.leadsTo e.dst goal = true
    · rw [if_neg (by simp [h1])]
      have hpart : (if e.neg then setDiff labels e.syms else setInter labels e.syms) = m.part goal labels e := by
        simp [part, h1]
      have h' : T ++ m.part goal labels e ≠ [] ∨ ∃ x ∈ labels, ∃ e ∈ es, m.Leads goal x e := by
        rcases h with h | ⟨x, hx, e', he', hL⟩
        · exact .inl (by simp [h])
        · rcases List.mem_cons.1 he' with rfl | he'
          · exact .inl fun hh => by
              have := (mem_part hl (hes e' (by simp)) x).2 ⟨hx, hL⟩
              rw [List.append_eq_nil_iff.1 hh |>.2] at this
              simp at this
          · exact .inr ⟨x, hx, e', he', hL⟩
      by_cases h2 : (e.neg && e.syms.isEmpty) = true
      · rw [if_pos h2]; exact hne
      · rw [if_neg h2]
        dsimp only
        rw [hpart, setUnion_prefix]
        by_cases h3 : (T ++ m.part goal labels e).length = labels.length
        · rw [if_pos h3]
          intro hh
          rw [hh] at h3
          have : labels = [] := List.length_eq_zero_iff.1 (by simpa using h3.symm)
          exact hne this
        · rw [if_neg h3]
          exact ih hes' _ h'
    · rw [if_pos (by simp [h1])]
      refine ih hes' T ?_
      rcases h with h | ⟨x, hx, e', he', hL⟩
      · exact .inl h
      · rcases List.mem_cons.1 he' with rfl | he'
        · exact absurd hL.2 h1
        · exact .inr ⟨x, hx, e', he', hL⟩

end Nfa

namespace Cegar

/-- Different edges that lead to the next state of the path read different labels. -/
def EdgesClear (n : Nfa) (path : List Nat) : Prop := ∀ i q, path[i]? = some q →
  ((if i = 0 then n.initial else [(path[i - 1]?).getD 0]).flatMap fun s => (n.get s).edges).Pairwise fun e e' =>
    n.leadsTo e.dst q = true → n.leadsTo e'.dst q = true → ∀ x, ¬(e.Reads x ∧ e'.Reads x)

theorem source_edges {n : Nfa} (hn : n.WF) {S : List Nat} (hS : ∀ q ∈ S, q ∈ n.ptrs) :
    ∀ e ∈ S.flatMap fun s => (n.get s).edges, SSorted e.syms := by
  intro e he
  obtain ⟨s, h1, h2⟩ := List.mem_flatMap.1 he
  exact hn.syms _ _ (Nfa.mem_get hn.nodup (hS s h1)) e h2

theorem readsAt_edges {n : Nfa} (hn : n.WF) {path : List Nat} (hp : PathOK n path) {i q l : Nat} (hq : path[i]? = some q)
    (h : ReadsAt n path i l) :
    ∃ e ∈ (if i = 0 then n.initial else [(path[i - 1]?).getD 0]).flatMap fun s => (n.get s).edges, n.Leads q l e := by
  obtain ⟨q', hq', p, hp', r, h1, h2⟩ := h
  rw [hq] at hq'; cases hq'
  refine (Nfa.edges_leads hn (path_sources hn hp hq) l q).2 ⟨p, ?_, r, h1, h2⟩
  by_cases hi : i = 0
  · simpa [hi] using hp'
  · simp only [hi, if_false] at hp' ⊢
    simp [hp']

theorem edgeLabels_nonempty {n : Nfa} (hn : n.WF) {path : List Nat} (hp : PathOK n path) {labels : List Nat}
    (hl : SSorted labels) {i l : Nat} (hm : l ∈ labels) (hr : ReadsAt n path i l) : edgeLabels n path labels i ≠ [] := by
  obtain ⟨q, hq, -⟩ := id hr
  have he := readsAt_edges hn hp hq hr
  unfold edgeLabels
  simp only [hq]
  exact Nfa.interLoop_nonempty n q hl _ (source_edges hn (path_sources hn hp hq)) [] (List.ne_nil_of_mem hm)
    (.inr ⟨l, hm, he⟩)

theorem edgeLabels_clear {n : Nfa} (hn : n.WF) {path : List Nat} (hp : PathOK n path) (hc : EdgesClear n path)
    {labels : List Nat} (hl : SSorted labels) (i : Nat) : (edgeLabels n path labels i).Nodup ∧
    ∀ l, l ∈ edgeLabels n path labels i ↔ l ∈ labels ∧ ReadsAt n path i l := by
  cases hq : path[i]? with
  | none =>
    unfold edgeLabels ReadsAt
    simp [hq]
  | some q =>
    have hd := (hc i q hq).imp (S := fun e e' => ∀ x ∈ labels, ¬(n.Leads q x e ∧ n.Leads q x e'))
      (fun {a b} h x _ hh => h hh.1.2 hh.2.2 x ⟨hh.1.1, hh.2.1⟩)
    have hes := source_edges hn (path_sources hn hp hq)
    refine ⟨?_, fun l => ⟨edgeLabels_sound hn hp hl, fun h => ?_⟩⟩
    · unfold edgeLabels
      simp only [hq]
      exact Nfa.interLoop_nodup n q hl _ hes [] List.nodup_nil (by simp) hd
    · have he := readsAt_edges hn hp hq h.2
      unfold edgeLabels
      simp only [hq]
      exact Nfa.interLoop_disjoint n q hl _ hes hd l h.1 he

theorem concrete_sorted {m : RMap Nat} (hm : RMap.Inv m) (c : Nat) : SSorted (sortBy ltB (m.concrete c)) :=
  sortBy_strict (RMap.nodup_concrete hm c)

end Cegar
end Verif
