import Verif.Model.Reducer
import Verif.Proofs.PdaBuild

/-! # Lemmas about the Reducer: loops with fuel and the sorted-vector merges -/

namespace Verif

section
variable {σ : Type} {step : σ → Option σ}

theorem whileSome_inv {I : σ → Prop} (hstep : ∀ s s', I s → step s = some s' → I s')
    {fuel : Nat} {s r : σ} (hs : I s) (h : whileSome step fuel s = some r) :
    I r ∧ step r = none := by
  induction fuel generalizing s with
  | zero =>
    rw [whileSome] at h
    split at h
    · rename_i h'; cases h; exact ⟨hs, h'⟩
    · cases h
  | succ n ih =>
    rw [whileSome] at h
    split at h
    · rename_i h'; cases h; exact ⟨hs, h'⟩
    · rename_i s' h'; exact ih (hstep _ _ hs h') h

theorem whileSome_terminates {I : σ → Prop} (μ : σ → Nat)
    (hstep : ∀ s s', I s → step s = some s' → I s' ∧ μ s' < μ s)
    {fuel : Nat} {s : σ} (hs : I s) (hf : μ s ≤ fuel) : ∃ r, whileSome step fuel s = some r := by
  induction fuel generalizing s with
  | zero =>
    rw [whileSome]
    split
    · exact ⟨_, rfl⟩
    · rename_i s' h'; have := (hstep _ _ hs h').2; omega
  | succ n ih =>
    rw [whileSome]
    split
    · exact ⟨_, rfl⟩
    · rename_i s' h'
      have := hstep _ _ hs h'
      exact ih this.1 (by omega)

end

namespace Reducer

theorem mem_takeDrop (s x : Nat) (l : List Nat) :
    x ∈ l ↔ x ∈ l.takeWhile (fun y => decide (y < s)) ∨ x ∈ l.dropWhile (fun y => decide (y < s)) := by
  rw [← List.mem_append, List.takeWhile_append_dropWhile]

theorem takeWhile_lt {s x : Nat} {l : List Nat} (h : x ∈ l.takeWhile (fun y => decide (y < s))) :
    x < s := by
  have := List.mem_takeWhile_imp h; simpa using this

theorem dropWhile_head {s x : Nat} {l xs : List Nat}
    (h : l.dropWhile (fun y => decide (y < s)) = x :: xs) : s ≤ x := by
  have := List.head?_dropWhile_not (fun f => decide (f < s)) l
  rw [h] at this; simpa using this

theorem dropWhile_ge {s x : Nat} {l : List Nat} (hl : SSorted l)
    (h : x ∈ l.dropWhile (fun y => decide (y < s))) : s ≤ x := by
  rcases hd : l.dropWhile (fun y => decide (y < s)) with _ | ⟨a, as⟩
  · rw [hd] at h; cases h
  · have ha := dropWhile_head hd
    have hs : SSorted (l.dropWhile (fun y => decide (y < s))) := hl.sublist (List.dropWhile_sublist _)
    rw [hd] at hs h
    rcases List.mem_cons.1 h with rfl | h
    · exact ha
    · have := (List.pairwise_cons.1 hs).1 _ h; omega

theorem takeWhile_ssorted {l : List Nat} (hl : SSorted l) (s : Nat) :
    SSorted (l.takeWhile (fun y => decide (y < s))) := hl.sublist (List.takeWhile_sublist _)

theorem dropWhile_ssorted {l : List Nat} (hl : SSorted l) (s : Nat) :
    SSorted (l.dropWhile (fun y => decide (y < s))) := hl.sublist (List.dropWhile_sublist _)

/-- Prepending smaller elements keeps a list strictly sorted. -/
theorem ssorted_append {as bs : List Nat} {s : Nat} (ha : SSorted as) (hb : SSorted bs)
    (h1 : ∀ x ∈ as, x < s) (h2 : ∀ x ∈ bs, s ≤ x) : SSorted (as ++ bs) :=
  List.pairwise_append.2 ⟨ha, hb, fun x hx y hy => Nat.lt_of_lt_of_le (h1 x hx) (h2 y hy)⟩

/-- Result of merging the labels `add` into the sorted vector `old`. -/
structure Merged (old add new : List Nat) (changed : Bool) : Prop where
  sorted : SSorted new
  mem : ∀ x, x ∈ new ↔ x ∈ old ∨ x ∈ add
  chg : changed = true ↔ ∃ x ∈ add, x ∉ old

theorem ssorted_nodup {as : List Nat} (ha : SSorted as) : as.Nodup :=
  ha.imp (fun h => Nat.ne_of_lt h)

theorem ssorted_length_le {as bs : List Nat} (ha : SSorted as) (h : ∀ x ∈ as, x ∈ bs) :
    as.length ≤ bs.length :=
  (List.Nodup.subperm (ssorted_nodup ha) h).length_le

theorem ssorted_ext {as bs : List Nat} (ha : SSorted as) (hb : SSorted bs)
    (h : ∀ x, x ∈ as ↔ x ∈ bs) : as = bs := by
  induction as generalizing bs with
  | nil =>
    cases bs with
    | nil => rfl
    | cons b bs => exact absurd ((h b).2 (by simp)) (by simp)
  | cons a as ih =>
    cases bs with
    | nil => exact absurd ((h a).1 (by simp)) (by simp)
    | cons b bs =>
      rw [SSorted, List.pairwise_cons] at ha hb
      have hab : a = b := by
        have h1 := (h a).1 (by simp)
        have h2 := (h b).2 (by simp)
        rcases List.mem_cons.1 h1 with h1 | h1
        · exact h1
        · rcases List.mem_cons.1 h2 with h2 | h2
          · exact h2.symm
          · have := ha.1 _ h2; have := hb.1 _ h1; omega
      subst hab
      congr 1
      refine ih ha.2 hb.2 fun x => ?_
      constructor
      · intro hx
        rcases List.mem_cons.1 ((h x).1 (by simp [hx])) with h' | h'
        · have := ha.1 _ hx; omega
        · exact h'
      · intro hx
        rcases List.mem_cons.1 ((h x).2 (by simp [hx])) with h' | h'
        · have := hb.1 _ hx; omega
        · exact h'

namespace Merged

variable {old add new : List Nat} {c : Bool}

theorem same (h : Merged old add new c) (ho : SSorted old) (hc : c = false) : new = old := by
  refine ssorted_ext h.sorted ho fun x => ?_
  rw [h.mem]
  constructor
  · rintro (h1 | h1)
    · exact h1
    · by_contra h2
      have := h.chg.2 ⟨x, h1, h2⟩
      rw [hc] at this; cases this
  · exact .inl

theorem grows (h : Merged old add new c) (ho : SSorted old) (hc : c = true) :
    old.length < new.length := by
  obtain ⟨x, h1, h2⟩ := h.chg.1 hc
  by_contra hlt
  have hle : new.length ≤ old.length := by omega
  have hsp := List.Nodup.subperm (ssorted_nodup ho)
    (fun y hy => (h.mem y).2 (.inl hy) : old ⊆ new)
  have hp := hsp.perm_of_length_le hle
  exact h2 (hp.mem_iff.2 ((h.mem x).2 (.inr h1)))

theorem le (h : Merged old add new c) (ho : SSorted old) : old.length ≤ new.length :=
  ssorted_length_le ho fun x hx => (h.mem x).2 (.inl hx)

end Merged

theorem insertLoop_spec (suf syms : List Nat) (h1 : SSorted suf) (h2 : SSorted syms) :
    Merged suf syms (insertLoop suf syms).1 (insertLoop suf syms).2 := by
  induction syms generalizing suf with
  | nil => rw [insertLoop]; exact ⟨h1, by simp, by simp⟩
  | cons s ss ih =>
    rw [SSorted, List.pairwise_cons] at h2
    have htl : ∀ x ∈ suf.takeWhile (fun y => decide (y < s)), x < s := fun x hx => takeWhile_lt hx
    have hts := takeWhile_ssorted h1 s
    have hds := dropWhile_ssorted h1 s
    have hge : ∀ x ∈ suf.dropWhile (fun y => decide (y < s)), s ≤ x := fun x hx => dropWhile_ge h1 hx
    have hm := fun x => mem_takeDrop s x suf
    rw [insertLoop]
    split
    · rename_i hd
      rw [hd] at hm
      have := ih [s] (List.pairwise_singleton _ _) h2.2
      refine ⟨ssorted_append hts this.sorted htl fun x hx => ?_, fun x => ?_, ?_⟩
      · rcases (this.mem x).1 hx with h | h
        · simp at h; omega
        · exact Nat.le_of_lt (h2.1 _ h)
      · simp only [List.mem_append, this.mem, List.mem_cons, List.not_mem_nil, or_false]
        rw [hm]; simp
      · simp only [true_iff]
        refine ⟨s, by simp, fun h => ?_⟩
        rw [hm] at h; simp at h; have := htl s h; omega
    · rename_i x xs hd
      have hx := dropWhile_head hd
      rw [hd] at hm hds hge
      split
      · rename_i he
        subst he
        have := ih (x :: xs) hds h2.2
        refine ⟨ssorted_append hts this.sorted htl fun y hy => ?_, fun y => ?_, ?_⟩
        · rcases (this.mem y).1 hy with h | h
          · exact hge _ h
          · exact Nat.le_of_lt (h2.1 _ h)
        · simp only [List.mem_append, this.mem, List.mem_cons]
          rw [hm]; simp only [List.mem_cons]; grind
        · simp only
          rw [this.chg]
          constructor
          · rintro ⟨y, hy, hn⟩
            refine ⟨y, by simp [hy], fun h => ?_⟩
            rcases (hm y).1 h with h' | h'
            · have := htl _ h'; have := h2.1 _ hy; omega
            · exact hn h'
          · rintro ⟨y, hy, hn⟩
            rcases List.mem_cons.1 hy with rfl | hy
            · exact absurd ((hm y).2 (.inr (by simp))) hn
            · exact ⟨y, hy, fun h => hn ((hm y).2 (.inr h))⟩
      · rename_i he
        have hsx : SSorted (s :: x :: xs) := List.pairwise_cons.2 ⟨fun y hy => by
          rcases List.mem_cons.1 hy with rfl | h
          · omega
          · have := (List.pairwise_cons.1 hds).1 _ h; omega, hds⟩
        have := ih (s :: x :: xs) hsx h2.2
        refine ⟨ssorted_append hts this.sorted htl fun y hy => ?_, fun y => ?_, ?_⟩
        · rcases (this.mem y).1 hy with h | h
          · rcases List.mem_cons.1 h with rfl | h
            · exact Nat.le_refl _
            · exact hge _ h
          · exact Nat.le_of_lt (h2.1 _ h)
        · simp only [List.mem_append, this.mem, List.mem_cons]
          rw [hm]; simp only [List.mem_cons]; grind
        · simp only [true_iff]
          refine ⟨s, by simp, fun h => ?_⟩
          rcases (hm s).1 h with h' | h'
          · have := htl s h'; omega
          · rcases List.mem_cons.1 h' with h' | h'
            · exact he h'.symm
            · have := (List.pairwise_cons.1 hds).1 _ h'; omega

theorem insertNextLoop_spec (suf syms : List Nat) (h1 : SSorted suf) (h2 : SSorted syms) :
    Merged suf syms (insertNextLoop suf syms).1 (insertNextLoop suf syms).2 := by
  induction syms generalizing suf with
  | nil => rw [insertNextLoop]; exact ⟨h1, by simp, by simp⟩
  | cons s ss ih =>
    rw [SSorted, List.pairwise_cons] at h2
    have htl : ∀ x ∈ suf.takeWhile (fun y => decide (y < s)), x < s := fun x hx => takeWhile_lt hx
    have hts := takeWhile_ssorted h1 s
    have hds := dropWhile_ssorted h1 s
    have hge : ∀ x ∈ suf.dropWhile (fun y => decide (y < s)), s ≤ x := fun x hx => dropWhile_ge h1 hx
    have hm := fun x => mem_takeDrop s x suf
    rw [insertNextLoop]
    split
    · rename_i hd
      rw [hd] at hm
      have := ih [] List.Pairwise.nil h2.2
      have hss : SSorted (s :: (insertNextLoop [] ss).1) := List.pairwise_cons.2 ⟨fun y hy => by
        rcases (this.mem y).1 hy with h | h
        · cases h
        · exact h2.1 _ h, this.sorted⟩
      refine ⟨ssorted_append hts hss htl fun x hx => ?_, fun x => ?_, ?_⟩
      · rcases List.mem_cons.1 hx with rfl | h
        · exact Nat.le_refl _
        · exact Nat.le_of_lt ((List.pairwise_cons.1 hss).1 _ h)
      · simp only [List.mem_append, this.mem, List.mem_cons, List.not_mem_nil, false_or]
        rw [hm]; simp
      · simp only [true_iff]
        refine ⟨s, by simp, fun h => ?_⟩
        rw [hm] at h; simp at h; have := htl s h; omega
    · rename_i x xs hd
      have hx := dropWhile_head hd
      rw [hd] at hm hds hge
      have hds' := List.pairwise_cons.1 hds
      split
      · rename_i he
        subst he
        have := ih xs hds'.2 h2.2
        have hss : SSorted (x :: (insertNextLoop xs ss).1) := List.pairwise_cons.2 ⟨fun y hy => by
          rcases (this.mem y).1 hy with h | h
          · exact hds'.1 _ h
          · exact h2.1 _ h, this.sorted⟩
        refine ⟨ssorted_append hts hss htl fun y hy => ?_, fun y => ?_, ?_⟩
        · rcases List.mem_cons.1 hy with rfl | h
          · exact Nat.le_refl _
          · exact Nat.le_of_lt ((List.pairwise_cons.1 hss).1 _ h)
        · simp only [List.mem_append, this.mem, List.mem_cons]
          rw [hm]; simp only [List.mem_cons]; grind
        · simp only
          rw [this.chg]
          constructor
          · rintro ⟨y, hy, hn⟩
            refine ⟨y, by simp [hy], fun h => ?_⟩
            have hxy := h2.1 _ hy
            rcases (hm y).1 h with h' | h'
            · have := htl _ h'; omega
            · rcases List.mem_cons.1 h' with h' | h'
              · omega
              · exact hn h'
          · rintro ⟨y, hy, hn⟩
            rcases List.mem_cons.1 hy with rfl | hy
            · exact absurd ((hm y).2 (.inr (by simp))) hn
            · exact ⟨y, hy, fun h => hn ((hm y).2 (.inr (by simp [h])))⟩
      · rename_i he
        have := ih (x :: xs) hds h2.2
        have hss : SSorted (s :: (insertNextLoop (x :: xs) ss).1) :=
          List.pairwise_cons.2 ⟨fun y hy => by
            rcases (this.mem y).1 hy with h | h
            · rcases List.mem_cons.1 h with rfl | h
              · omega
              · have := hds'.1 _ h; omega
            · exact h2.1 _ h, this.sorted⟩
        refine ⟨ssorted_append hts hss htl fun y hy => ?_, fun y => ?_, ?_⟩
        · rcases List.mem_cons.1 hy with rfl | h
          · exact Nat.le_refl _
          · exact Nat.le_of_lt ((List.pairwise_cons.1 hss).1 _ h)
        · simp only [List.mem_append, this.mem, List.mem_cons]
          rw [hm]; simp only [List.mem_cons]; grind
        · simp only [true_iff]
          refine ⟨s, by simp, fun h => ?_⟩
          rcases (hm s).1 h with h' | h'
          · have := htl s h'; omega
          · rcases List.mem_cons.1 h' with h' | h'
            · exact he h'.symm
            · have := hds'.1 _ h'; omega

theorem fwdLoop_spec (suf syms : List Nat) (h1 : SSorted suf) (h2 : SSorted syms) :
    SSorted (fwdLoop suf syms) ∧ ∀ x, x ∈ fwdLoop suf syms ↔ x ∈ suf ∨ x ∈ syms := by
  generalize hn : syms.length = n
  induction n using Nat.strongRecOn generalizing suf syms with
  | ind n ih =>
  cases syms with
  | nil => rw [fwdLoop]; exact ⟨h1, by simp⟩
  | cons s ss =>
    have h2' := List.pairwise_cons.1 h2
    have htl : ∀ x ∈ suf.takeWhile (fun y => decide (y < s)), x < s := fun x hx => takeWhile_lt hx
    have hts := takeWhile_ssorted h1 s
    have hds := dropWhile_ssorted h1 s
    have hge : ∀ x ∈ suf.dropWhile (fun y => decide (y < s)), s ≤ x := fun x hx => dropWhile_ge h1 hx
    have hm := fun x => mem_takeDrop s x suf
    rw [fwdLoop]
    split
    · rename_i hd
      rw [hd] at hm
      refine ⟨ssorted_append hts h2 htl fun x hx => ?_, fun x => ?_⟩
      · rcases List.mem_cons.1 hx with rfl | h
        · exact Nat.le_refl _
        · exact Nat.le_of_lt (h2'.1 _ h)
      · rw [List.mem_append, hm]; simp
    · rename_i x xs hd
      have hx := dropWhile_head hd
      rw [hd] at hm hds hge
      have hds' := List.pairwise_cons.1 hds
      split
      · rename_i he
        subst he
        have := ih ss.length (by rw [← hn]; simp) (x :: xs) ss hds h2'.2 rfl
        refine ⟨ssorted_append hts this.1 htl fun y hy => ?_, fun y => ?_⟩
        · rcases (this.2 y).1 hy with h | h
          · exact hge _ h
          · exact Nat.le_of_lt (h2'.1 _ h)
        · rw [List.mem_append, this.2, hm]; simp only [List.mem_cons]; grind
      · rename_i he
        have hsx : s < x := by omega
        have hdl := (List.dropWhile_sublist (l := ss) fun y => decide (y < x)).length_le
        have hins : SSorted ((s :: ss.takeWhile fun y => decide (y < x)) ++ x :: xs) := by
          refine ssorted_append (s := x) (List.pairwise_cons.2 ⟨fun y hy => ?_, takeWhile_ssorted h2'.2 x⟩)
            hds (fun y hy => ?_) fun y hy => ?_
          · exact h2'.1 _ ((List.takeWhile_sublist _).subset hy)
          · rcases List.mem_cons.1 hy with rfl | h
            · exact hsx
            · exact takeWhile_lt h
          · rcases List.mem_cons.1 hy with rfl | h
            · exact Nat.le_refl _
            · exact Nat.le_of_lt (hds'.1 _ h)
        have := ih (ss.dropWhile fun y => decide (y < x)).length
          (by rw [← hn]; simp only [List.length_cons]; omega) _ _ hins (dropWhile_ssorted h2'.2 x) rfl
        refine ⟨ssorted_append hts this.1 htl fun y hy => ?_, fun y => ?_⟩
        · rcases (this.2 y).1 hy with h | h
          · rcases List.mem_append.1 h with h | h
            · rcases List.mem_cons.1 h with rfl | h
              · exact Nat.le_refl _
              · exact Nat.le_of_lt (h2'.1 _ ((List.takeWhile_sublist _).subset h))
            · exact hge _ h
          · exact Nat.le_of_lt (h2'.1 _ ((List.dropWhile_sublist _).subset h))
        · rw [List.mem_append, this.2, hm, List.mem_cons (l := ss), mem_takeDrop x y ss]
          simp only [List.mem_append, List.mem_cons]; grind

theorem activeLoop_spec (tos ls : List Nat) (h1 : SSorted tos) (h2 : SSorted ls) :
    activeLoop tos ls = true ↔ ∃ x ∈ tos, x ∈ ls := by
  induction tos generalizing ls with
  | nil => simp [activeLoop]
  | cons s ss ih =>
    have h1' := List.pairwise_cons.1 h1
    have hds := dropWhile_ssorted h2 s
    have hm := fun x => mem_takeDrop s x ls
    have hkeep : ∀ x, s ≤ x → (x ∈ ls ↔ x ∈ ls.dropWhile (fun y => decide (y < s))) := by
      intro x hx
      rw [hm]
      constructor
      · rintro (h | h)
        · have := takeWhile_lt h; omega
        · exact h
      · exact .inr
    rw [activeLoop]
    split
    · rename_i hd
      rw [hd] at hkeep
      simp only [Bool.false_eq_true, List.mem_cons, false_iff, not_exists, not_and]
      rintro x (rfl | hx) hl
      · exact absurd ((hkeep x (Nat.le_refl _)).1 hl) (by simp)
      · exact absurd ((hkeep x (Nat.le_of_lt (h1'.1 _ hx))).1 hl) (by simp)
    · rename_i y ys hd
      have hy := dropWhile_head hd
      rw [hd] at hkeep hds
      split
      · rename_i he
        subst he
        simp only [true_iff]
        exact ⟨y, by simp, (hkeep y hy).2 (by simp)⟩
      · rename_i he
        rw [ih _ h1'.2 hds]
        constructor
        · rintro ⟨x, hx, hl⟩
          exact ⟨x, by simp [hx], (hkeep x (Nat.le_of_lt (h1'.1 _ hx))).2 hl⟩
        · rintro ⟨x, hx, hl⟩
          rcases List.mem_cons.1 hx with rfl | hx
          · have := (hkeep x (Nat.le_refl _)).1 hl
            rcases List.mem_cons.1 this with h | h
            · exact absurd h.symm he
            · have := (List.pairwise_cons.1 hds).1 _ h; omega
          · exact ⟨x, hx, (hkeep x (Nat.le_of_lt (h1'.1 _ hx))).1 hl⟩

theorem emplace_spec (l : List Nat) (x : Nat) (h : SSorted l) :
    Merged l [x] (VSet.emplace natLt l x).1 (VSet.emplace natLt l x).2 := by
  have hs : VSet.Sorted natLt l := h.imp (by simp [natLt])
  refine ⟨?_, fun y => ?_, ?_⟩
  · exact (VSet.emplace_sorted natLt_total hs x).imp (by simp [natLt])
  · rw [VSet.mem_emplace natLt_total]; simp
  · rw [VSet.emplace_fresh natLt_total hs]; simp

end Reducer

end Verif
