import Verif.Proofs.Pda
import Mathlib.Data.List.TakeWhile
import Mathlib.Data.List.Perm.Subperm

/-! # Lemmas about `labels_t` filters and `clear_state` -/

namespace Verif

variable {W : Type}

theorem intersectLoop_mem (ls os : List Nat) (hl : WSorted ls) (ho : WSorted os) (x : Nat) :
    x ∈ Labels.intersectLoop ls os ↔ x ∈ ls ∧ x ∈ os := by
  induction ls generalizing os with
  | nil => simp [Labels.intersectLoop]
  | cons a ls ih =>
    rw [WSorted, List.pairwise_cons] at hl
    have hdrop : ∀ y, a ≤ y → (y ∈ os ↔ y ∈ os.dropWhile (fun f => decide (f < a))) := by
      intro y hy
      constructor
      · intro h
        rw [← List.takeWhile_append_dropWhile (p := fun f => decide (f < a)) (l := os),
          List.mem_append] at h
        rcases h with h | h
        · have := List.mem_takeWhile_imp h; simp at this; omega
        · exact h
      · exact fun h => (List.dropWhile_sublist _).subset h
    have hsort : WSorted (os.dropWhile (fun f => decide (f < a))) :=
      ho.sublist (List.dropWhile_sublist _)
    rw [Labels.intersectLoop]
    split
    · rename_i h
      simp only [List.not_mem_nil, false_iff, not_and, List.mem_cons]
      rintro (rfl | h1) h2
      · have := (hdrop x (Nat.le_refl _)).1 h2; rw [h] at this; simp at this
      · have := (hdrop x (hl.1 _ h1)).1 h2; rw [h] at this; simp at this
    · rename_i f fs h
      have hfa : a ≤ f := by
        have := List.head?_dropWhile_not (fun f => decide (f < a)) os
        rw [h] at this; simpa using this
      rw [h] at hdrop hsort
      split
      · rename_i hfx
        subst hfx
        rw [List.mem_cons (a := x), ih _ hl.2 hsort, List.mem_cons (l := ls)]
        constructor
        · rintro (h1 | ⟨h1, h2⟩)
          · subst h1; exact ⟨.inl rfl, (hdrop _ (Nat.le_refl _)).2 (by simp)⟩
          · exact ⟨.inr h1, (hdrop _ (hl.1 _ h1)).2 h2⟩
        · rintro ⟨h1 | h1, h2⟩
          · exact .inl h1
          · exact .inr ⟨h1, (hdrop _ (hl.1 _ h1)).1 h2⟩
      · rename_i hfx
        rw [ih _ hl.2 hsort, List.mem_cons (l := ls)]
        constructor
        · rintro ⟨h1, h2⟩
          exact ⟨.inr h1, (hdrop _ (hl.1 _ h1)).2 h2⟩
        · rintro ⟨h1 | h1, h2⟩
          · subst h1
            have h3 := (hdrop _ (Nat.le_refl _)).1 h2
            rcases List.mem_cons.1 h3 with h4 | h4
            · exact absurd h4.symm hfx
            · have := (List.pairwise_cons.1 hsort).1 _ h4; omega
          · exact ⟨h1, (hdrop _ (hl.1 _ h1)).1 h2⟩

theorem intersectLoop_sublist (ls os : List Nat) : (Labels.intersectLoop ls os).Sublist ls := by
  induction ls generalizing os with
  | nil => simp [Labels.intersectLoop]
  | cons a ls ih =>
    rw [Labels.intersectLoop]
    split
    · exact List.nil_sublist _
    · split
      · exact (ih _).cons_cons a
      · exact (ih _).cons a

/-- A strictly sorted list of `n` numbers below `n` contains every number below `n`. -/
theorem full_of_length (n : Nat) (l : List Nat) (hs : SSorted l) (hlt : ∀ x ∈ l, x < n)
    (hlen : l.length = n) (x : Nat) (hx : x < n) : x ∈ l := by
  have hnd : l.Nodup := hs.imp (fun h => Nat.ne_of_lt h)
  have hsub : l ⊆ List.range n := fun y hy => List.mem_range.2 (hlt y hy)
  have hsp := hnd.subperm hsub
  have hp := hsp.perm_of_length_le (by simp [hlen])
  exact hp.mem_iff.2 (List.mem_range.2 hx)

theorem filterLoop_nil (ls : List Nat) : Labels.filterLoop ls [] = [] := by
  induction ls with
  | nil => rfl
  | cons a ls ih => simp [Labels.filterLoop, ih]

theorem filterLoop_eq (ls os : List Nat) : Labels.filterLoop ls os = Labels.intersectLoop ls os := by
  induction ls generalizing os with
  | nil => rfl
  | cons a ls ih =>
    rw [Labels.filterLoop, Labels.intersectLoop]
    split
    · exact filterLoop_nil ls
    · rw [ih]

theorem mem_expand_merge {p : Pda W} {l : Labels} (hl : ∀ g ∈ l.labels, g < p.nLabels)
    (wc : Bool) (pre : List Nat) (hpre : wc = false → ∀ g ∈ pre, g < p.nLabels) (g : Nat) :
    g ∈ p.expand (l.merge wc pre) ↔ g ∈ p.expand l ∨ (if wc then g < p.nLabels else g ∈ pre) := by
  unfold Labels.merge Pda.expand
  rcases l with ⟨lw, ls⟩
  cases lw <;> cases wc <;> simp_all [mem_setUnion]

theorem clear_fold_rules (s : Nat) (qs : List Nat) (sts : List (PState W)) (i : Nat) :
    (((qs.foldl (fun sts q => sts.modify q fun x =>
      { x with rules := x.rules.filter fun e => decide (e.1.to ≠ s) }) sts)[i]?).getD default).rules =
      if i ∈ qs then ((sts[i]?).getD default).rules.filter (fun e => decide (e.1.to ≠ s))
      else ((sts[i]?).getD default).rules := by
  induction qs generalizing sts with
  | nil => simp
  | cons q qs ih =>
    rw [List.foldl_cons, ih]
    have hm : (((sts.modify q fun x =>
        { x with rules := x.rules.filter fun e => decide (e.1.to ≠ s) })[i]?).getD default).rules =
        if i = q then ((sts[i]?).getD default).rules.filter (fun e => decide (e.1.to ≠ s))
        else ((sts[i]?).getD default).rules := by
      rw [List.getElem?_modify]
      by_cases h : q = i
      · subst h
        rcases h' : sts[q]? with _ | x
        · simp [default]
        · simp
      · have h' : ¬ i = q := fun h1 => h h1.symm
        simp [h, h']
    rw [hm]
    by_cases h : i = q <;> by_cases h2 : i ∈ qs <;> simp [h, h2, List.filter_filter]

theorem clear_fold_pre (s : Nat) (qs : List Nat) (sts : List (PState W)) (i : Nat) :
    (((qs.foldl (fun sts q => sts.modify q fun x =>
      { x with rules := x.rules.filter fun e => decide (e.1.to ≠ s) }) sts)[i]?).getD
        default).preStates = ((sts[i]?).getD default).preStates := by
  induction qs generalizing sts with
  | nil => simp
  | cons q qs ih =>
    rw [List.foldl_cons, ih, List.getElem?_modify]
    by_cases h : q = i
    · subst h
      rcases h' : sts[q]? with _ | x <;> simp
    · simp [h]

theorem clear_fold_length (s : Nat) (qs : List Nat) (sts : List (PState W)) :
    (qs.foldl (fun sts q => sts.modify q fun x =>
      { x with rules := x.rules.filter fun e => decide (e.1.to ≠ s) }) sts).length = sts.length := by
  induction qs generalizing sts with
  | nil => simp
  | cons q qs ih => rw [List.foldl_cons, ih]; simp

theorem clear_rules [LinearOrder W] {p : Pda W} (hp : p.WF) (s : Nat) (i : Nat)
    (x : Rule W × Labels) :
    x ∈ ((p.clearState s).st i).rules ↔ i ≠ s ∧ x.1.to ≠ s ∧ x ∈ (p.st i).rules := by
  have hst : ((p.clearState s).st i).rules =
      (((((p.st s).preStates.foldl (fun sts q => sts.modify q fun x =>
      { x with rules := x.rules.filter fun e => decide (e.1.to ≠ s) })
        (p.states.modify s fun x => { x with rules := [] }))[i]?).getD default)).rules := by
    unfold Pda.clearState Pda.st
    simp only
    have hpre : (((p.states.modify s fun x => { x with rules := [] })[s]?).getD default).preStates
        = (p.states[s]?.getD default).preStates := by
      rw [List.getElem?_modify]
      rcases h' : p.states[s]? with _ | x <;> simp
    rw [hpre, List.getElem?_modify]
    generalize List.foldl _ _ _ = L
    by_cases h : s = i
    · subst h
      rcases h' : L[s]? with _ | x <;> simp
    · simp [h]
  rw [hst, clear_fold_rules]
  have h0 : (((p.states.modify s fun x => { x with rules := [] })[i]?).getD default).rules =
      if i = s then [] else (p.st i).rules := by
    rw [List.getElem?_modify]
    unfold Pda.st
    by_cases h : s = i
    · subst h
      rcases h' : p.states[s]? with _ | x <;> simp [default]
    · have h' : ¬ i = s := fun h1 => h h1.symm
      simp [h, h']
  rw [h0]
  by_cases h : i = s
  · simp [h]
  · by_cases h2 : i ∈ (p.st s).preStates
    · simp [h, h2, and_comm]
    · simp only [h, if_false, h2, ne_eq, not_false_eq_true, true_and]
      constructor
      · intro hx
        refine ⟨fun hto => h2 ?_, hx⟩
        have := hp.preMem i x hx
        rwa [hto] at this
      · exact fun hx => hx.2

theorem clear_pre {p : Pda W} (s i : Nat) :
    ((p.clearState s).st i).preStates = if i = s then [] else (p.st i).preStates := by
  unfold Pda.clearState Pda.st
  simp only
  rw [List.getElem?_modify]
  by_cases h : s = i
  · subst h
    simp only [if_true]
    generalize List.foldl _ _ _ = L
    rcases h' : L[s]? with _ | x <;> simp [default]
  · have h' : ¬ i = s := fun h1 => h h1.symm
    simp only [h, if_false, h', Option.map_id', id_eq]
    have := clear_fold_pre (W := W) s
      (((p.states.modify s fun x => { x with rules := [] })[s]?).getD default).preStates
      (p.states.modify s fun x => { x with rules := [] }) i
    rw [List.getElem?_modify_ne _ _ h] at this
    simpa using this

theorem clear_sublist [LinearOrder W] {p : Pda W} (s i : Nat) :
    ((p.clearState s).st i).rules.Sublist (p.st i).rules := by
  have hmod : ∀ (sts : List (PState W)) (q : Nat) (f : PState W → PState W),
      (∀ x, (f x).rules.Sublist x.rules) →
      (((sts.modify q f)[i]?).getD default).rules.Sublist ((sts[i]?).getD default).rules := by
    intro sts q f hf
    rw [List.getElem?_modify]
    rcases h' : sts[i]? with _ | x
    · simp
    · by_cases h : q = i <;> simp [h, hf]
  have hfold : ∀ (qs : List Nat) (sts : List (PState W)),
      (((qs.foldl (fun sts q => sts.modify q fun x =>
      { x with rules := x.rules.filter fun e => decide (e.1.to ≠ s) }) sts)[i]?).getD
        default).rules.Sublist ((sts[i]?).getD default).rules := by
    intro qs
    induction qs with
    | nil => intro sts; simp
    | cons q qs ih =>
      intro sts
      exact (ih _).trans (hmod _ _ _ fun x => List.filter_sublist)
  unfold Pda.clearState Pda.st
  simp only
  exact (hmod _ _ (fun x => { x with preStates := [] }) fun x => List.Sublist.refl _).trans
    ((hfold _ _).trans (hmod _ _ (fun x => { x with rules := [] }) fun x => List.nil_sublist _))

theorem clear_wf [LinearOrder W] {p : Pda W} (hp : p.WF) (s : Nat) :
    (p.clearState s).WF ∧ (p.clearState s).size = p.size := by
  have hsz : (p.clearState s).size = p.size := by
    unfold Pda.clearState Pda.size
    rw [List.length_modify, clear_fold_length, List.length_modify]
  refine ⟨?_, hsz⟩
  constructor
  · intro i; exact List.Pairwise.sublist (clear_sublist s i) (hp.sorted i)
  · intro i x hx; rw [hsz]; exact hp.toLt i x ((clear_rules hp s i x).1 hx).2.2
  · intro i x hx
    obtain ⟨h1, h2, h3⟩ := (clear_rules hp s i x).1 hx
    rw [clear_pre, if_neg h2]; exact hp.preMem i x h3
  · intro i j hj
    rw [clear_pre] at hj
    split at hj
    · simp at hj
    · rw [hsz]; exact hp.preLt i j hj
  · intro i
    rw [clear_pre]
    split
    · exact List.Pairwise.nil
    · exact hp.preSorted i
  · intro i x hx; exact hp.labWF i x ((clear_rules hp s i x).1 hx).2.2
  · intro i x hx; exact hp.labLt i x ((clear_rules hp s i x).1 hx).2.2
  · intro i x hx; exact hp.opLt i x ((clear_rules hp s i x).1 hx).2.2

end Verif
