import Verif.Proofs.ReducerTarget

/-! # The Reducer: the saturated approximation is closed under the rules, and saturation terminates -/

namespace Verif

variable {W : Type}

namespace Reducer

/-- Both vectors of an approximation are sorted, without repetitions and in range. -/
structure TosOK (n : Nat) (t : Tos) : Prop where
  tos : SSorted t.tos
  tosLt : ∀ x ∈ t.tos, x < n
  stack : SSorted t.stack
  stackLt : ∀ x ∈ t.stack, x < n

/-- What every `merge_*` guarantees about the changed object and the returned flags. -/
structure MergeOK (n : Nat) (t t' : Tos) (c : Bool × Bool) : Prop where
  ok : TosOK n t'
  tosSub : ∀ x ∈ t.tos, x ∈ t'.tos
  stackSub : ∀ x ∈ t.stack, x ∈ t'.stack
  sameT : c.1 = false → t'.tos = t.tos
  sameS : c.2 = false → t'.stack = t.stack
  growT : c.1 = true → t.tos.length < t'.tos.length
  growS : c.2 = true → t.stack.length < t'.stack.length
  flagT : t'.wTos = t.wTos
  flagB : t'.wBos = t.wBos

theorem MergeOK.refl {n : Nat} {t : Tos} (h : TosOK n t) : MergeOK n t t (false, false) :=
  ⟨h, fun _ h => h, fun _ h => h, fun _ => rfl, fun _ => rfl, by simp, by simp, rfl, rfl⟩

theorem length_lt_of_ne {n : Nat} {l : List Nat} (hs : SSorted l) (hl : ∀ x ∈ l, x < n)
    (hne : l.length ≠ n) : l.length < n := by
  have := ssorted_length_le hs (bs := List.range n) (fun x hx => List.mem_range.2 (hl x hx))
  simp at this; omega

theorem forwardStack_spec {n : Nat} {t prev : Tos} (ht : TosOK n t) (hp : TosOK n prev) :
    MergeOK n t (t.forwardStack prev n).1 (false, (t.forwardStack prev n).2) ∧
    ∀ x ∈ prev.stack, x ∈ (t.forwardStack prev n).1.stack := by
  unfold Tos.forwardStack
  by_cases h1 : t.stack.length ≠ n
  · simp only [if_pos h1]
    by_cases h2 : prev.stack.length = n
    · simp only [if_pos h2]
      have hfull := fun x hx => full_of_length n prev.stack hp.stack hp.stackLt h2 x hx
      have hlt := length_lt_of_ne ht.stack ht.stackLt h1
      refine ⟨⟨⟨ht.tos, ht.tosLt, hp.stack, hp.stackLt⟩, fun _ h => h,
        fun x hx => hfull x (ht.stackLt x hx), fun _ => rfl, ?_, by simp, ?_, rfl, rfl⟩, fun _ h => h⟩
      · intro hc; simp only [bne_eq_false_iff_eq] at hc; omega
      · intro _; simp only; omega
    · simp only [if_neg h2]
      obtain ⟨h3, h4⟩ := fwdLoop_spec t.stack prev.stack ht.stack hp.stack
      have hle := ssorted_length_le ht.stack (fun x hx => (h4 x).2 (.inl hx))
      refine ⟨⟨⟨ht.tos, ht.tosLt, h3, fun x hx => ?_⟩, fun _ h => h,
        fun x hx => (h4 x).2 (.inl hx), fun _ => rfl, ?_, by simp, ?_, rfl, rfl⟩,
        fun x hx => (h4 x).2 (.inr hx)⟩
      · rcases (h4 x).1 hx with h | h
        · exact ht.stackLt x h
        · exact hp.stackLt x h
      · intro hc
        simp only [bne_eq_false_iff_eq] at hc
        refine ssorted_ext h3 ht.stack fun x => ?_
        have hperm := (List.Nodup.subperm (ssorted_nodup ht.stack)
          (fun x hx => (h4 x).2 (.inl hx) : t.stack ⊆ fwdLoop t.stack prev.stack)).perm_of_length_le
            (by omega)
        exact hperm.mem_iff.symm
      · intro hc
        simp only [bne_iff_ne] at hc
        simp only; omega
  · simp only [if_neg h1]
    have h1' : t.stack.length = n := by simpa using h1
    refine ⟨⟨ht, fun _ h => h, fun _ h => h, fun _ => rfl, fun _ => rfl, by simp, by simp, rfl, rfl⟩,
      fun x hx => full_of_length n t.stack ht.stack ht.stackLt h1' x (hp.stackLt x hx)⟩

/-- Some label on top of the stack is read by the rule. -/
def Active (n : Nat) (prev : Tos) (l : Labels) : Prop := ∃ x ∈ prev.tos, x ∈ expandN n l

theorem active_of {n : Nat} {prev : Tos} {l : Labels} (hp : TosOK n prev) (hl : LabOK n l)
    (h : Active n prev l) : active prev l = true := by
  obtain ⟨x, hx, hxl⟩ := h
  rcases l with ⟨wc, ls⟩
  unfold active
  cases wc
  · simp only [expandN, Bool.false_eq_true, if_false] at hxl
    have : Labels.isEmpty ⟨false, ls⟩ = false := by
      cases ls with
      | nil => cases hxl
      | cons a as => rfl
    rw [this]
    simp only [Bool.false_eq_true, if_false]
    exact (activeLoop_spec _ _ hp.tos hl.strict).2 ⟨x, hx, hxl⟩
  · simp [Labels.isEmpty]

/-- The approximation of the target covers what the rule can do from the approximation `prev`. -/
def Covered (ds : Bool) (n : Nat) (prev t : Tos) (r : Rule W) (l : Labels) : Prop :=
  match r.op with
  | .pop => Active n prev l →
      if ds then ∀ x ∈ prev.stack, x ∈ t.tos ∧ x ∈ t.stack else ∀ x, x < n → x ∈ t.tos
  | .noop => (∀ x ∈ prev.tos, x ∈ expandN n l → x ∈ t.tos) ∧
      (ds = true → ∀ x ∈ prev.stack, x ∈ t.stack)
  | .swap => Active n prev l → r.opLabel ∈ t.tos ∧ (ds = true → ∀ x ∈ prev.stack, x ∈ t.stack)
  | .push => Active n prev l → r.opLabel ∈ t.tos ∧
      (ds = true → ∀ x, x ∈ prev.stack ∨ x ∈ prev.tos → x ∈ t.stack)

theorem Covered.mono {ds : Bool} {n : Nat} {prev prev' t t' : Tos} {r : Rule W} {l : Labels}
    (h : Covered ds n prev t r l) (h1 : prev'.tos = prev.tos) (h2 : prev'.stack = prev.stack)
    (h3 : ∀ x ∈ t.tos, x ∈ t'.tos) (h4 : ∀ x ∈ t.stack, x ∈ t'.stack) :
    Covered ds n prev' t' r l := by
  unfold Covered Active at *
  rw [h1, h2]
  cases hop : r.op <;> rw [hop] at h <;> simp only at h ⊢
  · intro ha
    obtain ⟨h5, h6⟩ := h ha
    exact ⟨h3 _ h5, fun hd x hx => h4 _ (h6 hd x hx)⟩
  · intro ha
    have := h ha
    cases ds
    · simp only [Bool.false_eq_true, if_false] at this ⊢; exact fun x hx => h3 _ (this x hx)
    · simp only [if_true] at this ⊢; exact fun x hx => ⟨h3 _ (this x hx).1, h4 _ (this x hx).2⟩
  · intro ha
    obtain ⟨h5, h6⟩ := h ha
    exact ⟨h3 _ h5, fun hd x hx => h4 _ (h6 hd x hx)⟩
  · exact ⟨fun x hx hl => h3 _ (h.1 x hx hl), fun hd x hx => h4 _ (h.2 hd x hx)⟩

theorem mergeSwap_spec {n : Nat} {t prev : Tos} {g : Nat} {l : Labels} {ds : Bool}
    (ht : TosOK n t) (hp : TosOK n prev) (hl : LabOK n l) (hg : g < n) :
    MergeOK n t (t.mergeSwap prev g l ds n).1 (t.mergeSwap prev g l ds n).2 ∧
    (Active n prev l → g ∈ (t.mergeSwap prev g l ds n).1.tos ∧
      (ds = true → ∀ x ∈ prev.stack, x ∈ (t.mergeSwap prev g l ds n).1.stack)) := by
  unfold Tos.mergeSwap
  by_cases ha : active prev l = true
  · simp only [ha, Bool.not_true, Bool.false_eq_true, if_false]
    have he := emplace_spec t.tos g ht.tos
    have ht1 : TosOK n { t with tos := (VSet.emplace natLt t.tos g).1 } :=
      ⟨he.sorted, fun x hx => by
        rcases (he.mem x).1 hx with h | h
        · exact ht.tosLt x h
        · rw [List.mem_singleton.1 h]; exact hg, ht.stack, ht.stackLt⟩
    cases ds
    · simp only [Bool.false_eq_true, if_false]
      refine ⟨⟨ht1, fun x hx => (he.mem x).2 (.inl hx), fun _ h => h, fun hc => he.same ht.tos hc,
        fun _ => rfl, fun hc => he.grows ht.tos hc, by simp, rfl, rfl⟩, fun _ => ⟨(he.mem g).2 (.inr (by simp)), by simp⟩⟩
    · simp only [if_true]
      obtain ⟨h1, h2⟩ := forwardStack_spec ht1 hp
      refine ⟨⟨h1.ok, fun x hx => h1.tosSub x ((he.mem x).2 (.inl hx)), h1.stackSub, fun hc => ?_,
        h1.sameS, fun hc => ?_, h1.growS, h1.flagT, h1.flagB⟩, fun _ =>
        ⟨h1.tosSub _ ((he.mem g).2 (.inr (by simp))), fun _ => h2⟩⟩
      · rw [h1.sameT rfl]; exact he.same ht.tos hc
      · rw [h1.sameT rfl]; exact he.grows ht.tos hc
  · simp only [ha, Bool.not_false, if_true]
    exact ⟨MergeOK.refl ht, fun h => absurd (active_of hp hl h) ha⟩

theorem mergePush_spec {n : Nat} {t prev : Tos} {self : Bool} {g : Nat} {l : Labels} {ds : Bool}
    (ht : TosOK n t) (hp : TosOK n prev) (hs : self = true → prev = t) (hl : LabOK n l) (hg : g < n) :
    MergeOK n t (t.mergePush prev self g l ds n).1 (t.mergePush prev self g l ds n).2 ∧
    (Active n prev l → g ∈ (t.mergePush prev self g l ds n).1.tos ∧
      (ds = true → ∀ x, x ∈ prev.stack ∨ x ∈ prev.tos →
        x ∈ (t.mergePush prev self g l ds n).1.stack)) := by
  obtain ⟨h1, h2⟩ := mergeSwap_spec (ds := ds) ht hp hl hg
  unfold Tos.mergePush
  generalize hc : t.mergeSwap prev g l ds n = c at h1 h2
  cases ds
  · simp only [Bool.false_eq_true, if_false]
    exact ⟨h1, fun ha => ⟨(h2 ha).1, by simp⟩⟩
  · simp only [if_true]
    have hpt : TosOK n { tos := [], stack := if self then c.1.tos else prev.tos } := by
      cases self
      · exact ⟨List.Pairwise.nil, by simp, hp.tos, hp.tosLt⟩
      · exact ⟨List.Pairwise.nil, by simp, h1.ok.tos, h1.ok.tosLt⟩
    have hsub : ∀ x ∈ prev.tos, x ∈ (if self then c.1.tos else prev.tos) := by
      intro x hx
      cases self
      · exact hx
      · simp only [if_true]; rw [hs rfl] at hx; exact h1.tosSub x hx
    generalize (if self = true then c.1.tos else prev.tos) = pt at hpt hsub
    by_cases h3 : c.1.stack.length ≠ n
    · rw [if_pos h3]
      by_cases h4 : pt.length = n
      · rw [if_pos h4]
        have hfull := fun x hx => full_of_length n pt hpt.stack hpt.stackLt h4 x hx
        have hlt := length_lt_of_ne h1.ok.stack h1.ok.stackLt h3
        have hle := ssorted_length_le ht.stack h1.stackSub
        refine ⟨⟨⟨h1.ok.tos, h1.ok.tosLt, hpt.stack, hpt.stackLt⟩, h1.tosSub,
          fun x hx => hfull x (ht.stackLt x hx), h1.sameT, by simp, h1.growT, ?_, h1.flagT, h1.flagB⟩,
          fun ha => ⟨(h2 ha).1, fun _ x hx => ?_⟩⟩
        · intro _; simp only; omega
        · rcases hx with hx | hx
          · exact hfull x (hp.stackLt x hx)
          · exact hfull x (hp.tosLt x hx)
      · rw [if_neg h4]
        have hi := insertLoop_spec c.1.stack pt h1.ok.stack hpt.stack
        have hle := ssorted_length_le ht.stack h1.stackSub
        refine ⟨⟨⟨h1.ok.tos, h1.ok.tosLt, hi.sorted, fun x hx => ?_⟩, h1.tosSub,
          fun x hx => (hi.mem x).2 (.inl (h1.stackSub x hx)), h1.sameT, fun hc => ?_, h1.growT,
          fun hc => ?_, h1.flagT, h1.flagB⟩,
          fun ha => ⟨(h2 ha).1, fun _ x hx => ?_⟩⟩
        · rcases (hi.mem x).1 hx with h | h
          · exact h1.ok.stackLt x h
          · exact hpt.stackLt x h
        · simp only [Bool.or_eq_false_iff] at hc
          simp only
          rw [hi.same h1.ok.stack hc.2]; exact h1.sameS hc.1
        · simp only [Bool.or_eq_true] at hc
          have := hi.le h1.ok.stack
          rcases hc with hc | hc
          · have := h1.growS hc; simp only; omega
          · have := hi.grows h1.ok.stack hc; simp only; omega
        · rw [hi.mem]
          rcases hx with hx | hx
          · exact .inl ((h2 ha).2 rfl x hx)
          · exact .inr (hsub x hx)
    · rw [if_neg h3]
      have h3' : c.1.stack.length = n := by simpa using h3
      have hfull := fun x hx => full_of_length n c.1.stack h1.ok.stack h1.ok.stackLt h3' x hx
      refine ⟨h1, fun ha => ⟨(h2 ha).1, fun _ x hx => ?_⟩⟩
      rcases hx with hx | hx
      · exact hfull x (hp.stackLt x hx)
      · exact hfull x (hp.tosLt x hx)

theorem mergeNoop_spec {n : Nat} {t prev : Tos} {l : Labels} {ds : Bool}
    (ht : TosOK n t) (hp : TosOK n prev) (hl : LabOK n l) (hne : l.isEmpty = false) :
    MergeOK n t (t.mergeNoop prev l ds n).1 (t.mergeNoop prev l ds n).2 ∧
    (∀ x ∈ prev.tos, x ∈ expandN n l → x ∈ (t.mergeNoop prev l ds n).1.tos) ∧
      (ds = true → ∀ x ∈ prev.stack, x ∈ (t.mergeNoop prev l ds n).1.stack) := by
  unfold Tos.mergeNoop
  simp only [hne, Bool.false_eq_true, if_false]
  have hsyms : SSorted (if l.wildcard then prev.tos else l.labels) ∧
      (∀ x ∈ (if l.wildcard then prev.tos else l.labels), x < n) ∧
      ∀ x ∈ prev.tos, x ∈ expandN n l → x ∈ (if l.wildcard then prev.tos else l.labels) := by
    unfold expandN
    split
    · exact ⟨hp.tos, hp.tosLt, fun x hx _ => hx⟩
    · exact ⟨hl.strict, hl.lt, fun x _ hx => hx⟩
  generalize (if l.wildcard = true then prev.tos else l.labels) = syms at hsyms
  obtain ⟨hs1, hs2, hs3⟩ := hsyms
  have he := insertNextLoop_spec t.tos syms ht.tos hs1
  have ht1 : TosOK n { t with tos := (insertNextLoop t.tos syms).1 } :=
    ⟨he.sorted, fun x hx => by
      rcases (he.mem x).1 hx with h | h
      · exact ht.tosLt x h
      · exact hs2 x h, ht.stack, ht.stackLt⟩
  cases ds
  · simp only [Bool.false_eq_true, if_false]
    refine ⟨⟨ht1, fun x hx => (he.mem x).2 (.inl hx), fun _ h => h, fun hc => he.same ht.tos hc,
      fun _ => rfl, fun hc => he.grows ht.tos hc, by simp, rfl, rfl⟩,
      fun x hx hxl => (he.mem x).2 (.inr (hs3 x hx hxl)), by simp⟩
  · simp only [if_true]
    obtain ⟨h1, h2⟩ := forwardStack_spec ht1 hp
    refine ⟨⟨h1.ok, fun x hx => h1.tosSub x ((he.mem x).2 (.inl hx)), h1.stackSub, fun hc => ?_,
      h1.sameS, fun hc => ?_, h1.growS, h1.flagT, h1.flagB⟩,
      fun x hx hxl => h1.tosSub x ((he.mem x).2 (.inr (hs3 x hx hxl))), fun _ => h2⟩
    · rw [h1.sameT rfl]; exact he.same ht.tos hc
    · rw [h1.sameT rfl]; exact he.grows ht.tos hc

theorem mergePop_spec {n : Nat} {t prev : Tos} {l : Labels} {ds : Bool}
    (ht : TosOK n t) (hp : TosOK n prev) (hl : LabOK n l) :
    MergeOK n t (t.mergePop prev l ds n).1 (t.mergePop prev l ds n).2 ∧
    (Active n prev l → if ds then ∀ x ∈ prev.stack, x ∈ (t.mergePop prev l ds n).1.tos ∧
      x ∈ (t.mergePop prev l ds n).1.stack else ∀ x, x < n → x ∈ (t.mergePop prev l ds n).1.tos) := by
  unfold Tos.mergePop
  by_cases ha : active prev l = true
  · simp only [ha, Bool.not_true, Bool.false_eq_true, if_false]
    cases ds
    · simp only [Bool.not_false, if_true, Bool.false_eq_true, if_false]
      by_cases h1 : t.tos.length ≠ n
      · rw [if_pos h1]
        have hlt := length_lt_of_ne ht.tos ht.tosLt h1
        refine ⟨⟨⟨List.pairwise_lt_range, by simp, ht.stack, ht.stackLt⟩,
          fun x hx => List.mem_range.2 (ht.tosLt x hx), fun _ h => h, by simp, fun _ => rfl, ?_, by simp,
          rfl, rfl⟩, fun _ x hx => List.mem_range.2 hx⟩
        intro _; simpa using hlt
      · rw [if_neg h1]
        have h1' : t.tos.length = n := by simpa using h1
        exact ⟨MergeOK.refl ht, fun _ x hx => full_of_length n t.tos ht.tos ht.tosLt h1' x hx⟩
    · simp only [Bool.not_true, Bool.false_eq_true, if_false, if_true]
      obtain ⟨h1, h2⟩ := forwardStack_spec ht hp
      generalize t.forwardStack prev n = f at h1 h2
      by_cases h3 : f.1.tos.length ≠ n
      · rw [if_pos h3]
        by_cases h4 : prev.stack.length = n
        · rw [if_pos h4]
          have hfull := fun x hx => full_of_length n prev.stack hp.stack hp.stackLt h4 x hx
          have hlt := length_lt_of_ne h1.ok.tos h1.ok.tosLt h3
          refine ⟨⟨⟨hp.stack, hp.stackLt, h1.ok.stack, h1.ok.stackLt⟩,
            fun x hx => hfull x (ht.tosLt x hx), h1.stackSub, by simp, h1.sameS, ?_, h1.growS, h1.flagT,
            h1.flagB⟩, fun _ x hx => ⟨hx, h2 x hx⟩⟩
          intro _
          rw [h1.sameT rfl] at hlt; simp only; omega
        · rw [if_neg h4]
          have hi := insertLoop_spec f.1.tos prev.stack h1.ok.tos hp.stack
          have hft := h1.sameT rfl
          refine ⟨⟨⟨hi.sorted, fun x hx => ?_, h1.ok.stack, h1.ok.stackLt⟩,
            fun x hx => (hi.mem x).2 (.inl (h1.tosSub x hx)), h1.stackSub, fun hc => ?_, h1.sameS,
            fun hc => ?_, h1.growS, h1.flagT, h1.flagB⟩,
            fun _ x hx => ⟨(hi.mem x).2 (.inr hx), h2 x hx⟩⟩
          · rcases (hi.mem x).1 hx with h | h
            · exact h1.ok.tosLt x h
            · exact hp.stackLt x h
          · simp only; rw [hi.same h1.ok.tos hc]; exact hft
          · have := hi.grows h1.ok.tos hc; rw [hft] at this; simpa [hft] using this
      · rw [if_neg h3]
        have h3' : f.1.tos.length = n := by simpa using h3
        refine ⟨h1, fun _ x hx => ⟨full_of_length n f.1.tos h1.ok.tos h1.ok.tosLt h3' x (hp.stackLt x hx),
          h2 x hx⟩⟩
  · simp only [ha, Bool.not_false, if_true]
    exact ⟨MergeOK.refl ht, fun h => absurd (active_of hp hl h) ha⟩

theorem merge_spec {n : Nat} {t prev : Tos} {self : Bool} {r : Rule W} {l : Labels} {ds : Bool}
    (ht : TosOK n t) (hp : TosOK n prev) (hs : self = true → prev = t) (hl : LabOK n l)
    (hg : r.op = .push ∨ r.op = .swap → r.opLabel < n) (hne : l.isEmpty = false) :
    MergeOK n t (t.merge prev self r l ds n).1 (t.merge prev self r l ds n).2 ∧
    Covered ds n prev (t.merge prev self r l ds n).1 r l := by
  unfold Tos.merge Covered
  cases hop : r.op <;> simp only
  · exact mergePush_spec ht hp hs hl (hg (.inl hop))
  · exact mergePop_spec ht hp hl
  · exact mergeSwap_spec ht hp hl (hg (.inr hop))
  · obtain ⟨h1, h2, h3⟩ := mergeNoop_spec (ds := ds) ht hp hl hne
    exact ⟨h1, h2, h3⟩

theorem updateState_spec (t : Tos) (c : Bool × Bool) :
    (t.updateState c).1.tos = t.tos ∧ (t.updateState c).1.stack = t.stack ∧
    (t.updateState c).1.wTos = (t.wTos || c.1) ∧ (t.updateState c).1.wBos = (t.wBos || c.2) ∧
    ((t.updateState c).2 = false → (t.updateState c).1.wTos = t.wTos ∧ (t.updateState c).1.wBos = t.wBos) ∧
    ((t.updateState c).2 = true → c.1 = true ∨ c.2 = true) := by
  rcases t with ⟨a, b, x, y⟩
  rcases c with ⟨u, v⟩
  cases x <;> cases y <;> cases u <;> cases v <;> simp [Tos.updateState]

/-! ## The saturation loop -/

/-- Labels collected so far. -/
def Sat.total (a : Sat) : Nat := (a.app.map fun t => t.tos.length + t.stack.length).sum

theorem sum_set {α : Type} (f : α → Nat) (l : List α) (i : Nat) (y : α) (hi : i < l.length) :
    ((l.set i y).map f).sum + f l[i] = (l.map f).sum + f y := by
  induction l generalizing i with
  | nil => simp at hi
  | cons a l ih =>
    cases i with
    | zero => simp only [List.set_cons_zero, List.map_cons, List.sum_cons, List.getElem_cons_zero]; omega
    | succ i =>
      have := ih i (by simpa using hi)
      simp only [List.set_cons_succ, List.map_cons, List.sum_cons, List.getElem_cons_succ]; omega

theorem Sat.at_set (app : List Tos) (ws : List Nat) {i : Nat} (y : Tos) (hi : i < app.length) (j : Nat) :
    Sat.at { app := app.set i y, waiting := ws } j = if j = i then y else (app[j]?).getD {} := by
  unfold Sat.at
  rw [List.getElem?_set]
  by_cases h : i = j
  · subst h; simp [hi]
  · have h' : ¬ j = i := fun h1 => h h1.symm
    simp [h, h']

section
variable [LinearOrder W]

/-- Loop invariant of the saturation; `D i` are the rules of state `i` that have been taken into
account, `B` the labels that must be covered from the start. -/
structure SatInv (p : Pda W) (term : Nat) (ds : Bool) (B : Nat → Nat → Prop)
    (D : Nat → List (Rule W × Labels)) (a : Sat) : Prop where
  len : a.app.length = p.size
  ok : ∀ i, TosOK p.nLabels (a.at i)
  wait : ∀ i, (a.at i).wTos = true ∨ (a.at i).wBos = true → i ∈ a.waiting
  closed : ∀ i, i ∈ a.waiting ∨ ((a.at i).tos = [] ∧ (a.at i).stack = []) ∨
    ∀ e ∈ D i, e.1.to ≠ term → e.2.isEmpty = false →
      Covered ds p.nLabels (a.at i) (a.at e.1.to) e.1 e.2
  base : ∀ i g, B i g → g ∈ (a.at i).tos
  termEmpty : (a.at term).tos = []

/-- Add a processed rule of state `el`. -/
def addDone (D : Nat → List (Rule W × Labels)) (el : Nat) (e : Rule W × Labels) :
    Nat → List (Rule W × Labels) := fun i => if i = el then D i ++ [e] else D i

theorem sat_rule {p : Pda W} (hp : OK p) {term : Nat} {ds : Bool} {B : Nat → Nat → Prop}
    {D : Nat → List (Rule W × Labels)} {a : Sat} {el : Nat} (ha : SatInv p term ds B D a)
    {e : Rule W × Labels} (he : e ∈ (p.st el).rules) :
    SatInv p term ds B (addDone D el e) (satRule term ds p.nLabels el a e) ∧
    (satRule term ds p.nLabels el a e).waiting.length + a.total ≤
      a.waiting.length + (satRule term ds p.nLabels el a e).total := by
  have hskip : (e.1.to = term ∨ e.2.isEmpty = true) → SatInv p term ds B (addDone D el e) a := by
    intro h
    refine ⟨ha.len, ha.ok, ha.wait, fun i => ?_, ha.base, ha.termEmpty⟩
    rcases ha.closed i with h1 | h1 | h1
    · exact .inl h1
    · exact .inr (.inl h1)
    · refine .inr (.inr fun e' he' ht hne => ?_)
      unfold addDone at he'
      by_cases hi : i = el
      · rw [if_pos hi] at he'
        rcases List.mem_append.1 he' with he' | he'
        · exact h1 e' he' ht hne
        · rw [List.mem_singleton] at he'
          subst he'
          rcases h with h | h
          · exact absurd h ht
          · rw [h] at hne; cases hne
      · rw [if_neg hi] at he'
        exact h1 e' he' ht hne
  unfold satRule
  by_cases h1 : e.1.to = term
  · rw [if_pos h1]; exact ⟨hskip (.inl h1), Nat.le_refl _⟩
  rw [if_neg h1]
  by_cases h2 : e.2.isEmpty = true
  · rw [if_pos h2]; exact ⟨hskip (.inr h2), Nat.le_refl _⟩
  rw [if_neg h2]
  have hne : e.2.isEmpty = false := by simpa using h2
  have hto : e.1.to < a.app.length := by rw [ha.len]; exact hp.wf.toLt el e he
  obtain ⟨hm, hcov⟩ := merge_spec (t := a.at e.1.to) (prev := a.at el) (self := decide (e.1.to = el))
    (r := e.1) (l := e.2) (ds := ds) (ha.ok _) (ha.ok _)
    (fun h => by rw [of_decide_eq_true h]) (hp.lab he) (hp.wf.opLt el e he) hne
  generalize (a.at e.1.to).merge (a.at el) (decide (e.1.to = el)) e.1 e.2 ds p.nLabels = m at hm hcov
  obtain ⟨hu1, hu2, hu3, hu4, hu5, hu6⟩ := updateState_spec m.1 m.2
  simp only
  generalize m.1.updateState m.2 = u at hu1 hu2 hu3 hu4 hu5 hu6
  generalize hw : (if u.2 = true then a.waiting ++ [e.1.to] else a.waiting) = ws
  have hat := fun j => Sat.at_set a.app ws u.1 hto j
  have hat' : ∀ j, Sat.at { app := a.app.set e.1.to u.1, waiting := ws } j =
      if j = e.1.to then u.1 else a.at j := hat
  have hsub : ∀ i ∈ a.waiting, i ∈ ws := by
    intro i hi
    rw [← hw]; split
    · exact List.mem_append_left _ hi
    · exact hi
  have hwait : ∀ i, (if i = e.1.to then u.1 else a.at i).wTos = true ∨
      (if i = e.1.to then u.1 else a.at i).wBos = true → i ∈ ws := by
    intro i hi
    by_cases h : i = e.1.to
    · rw [if_pos h] at hi
      subst h
      cases hu : u.2
      · obtain ⟨h3, h4⟩ := hu5 hu
        rw [h3, h4, hm.flagT, hm.flagB] at hi
        exact hsub _ (ha.wait _ hi)
      · rw [← hw, hu]; simp
    · rw [if_neg h] at hi
      exact hsub _ (ha.wait _ hi)
  -- the tops and the stack labels of the target only grow
  have hmono : ∀ j, (∀ x ∈ (a.at j).tos, x ∈ (if j = e.1.to then u.1 else a.at j).tos) ∧
      (∀ x ∈ (a.at j).stack, x ∈ (if j = e.1.to then u.1 else a.at j).stack) := by
    intro j
    by_cases h : j = e.1.to
    · rw [if_pos h]; subst h
      rw [hu1, hu2]; exact ⟨hm.tosSub, hm.stackSub⟩
    · rw [if_neg h]; exact ⟨fun _ h => h, fun _ h => h⟩
  -- a state is waiting or unchanged
  have hsame : ∀ j, j ∈ ws ∨ ((if j = e.1.to then u.1 else a.at j).tos = (a.at j).tos ∧
      (if j = e.1.to then u.1 else a.at j).stack = (a.at j).stack) := by
    intro j
    by_cases h : j = e.1.to
    · by_cases hc : m.2.1 = true ∨ m.2.2 = true
      · refine .inl (hwait j ?_)
        rw [if_pos h, hu3, hu4]
        rcases hc with hc | hc <;> simp [hc]
      · rw [not_or, Bool.not_eq_true, Bool.not_eq_true] at hc
        right
        rw [if_pos h, hu1, hu2]; subst h
        exact ⟨hm.sameT hc.1, hm.sameS hc.2⟩
    · right; rw [if_neg h]; exact ⟨rfl, rfl⟩
  refine ⟨⟨by simpa using ha.len, ?_, ?_, ?_, ?_, ?_⟩, ?_⟩
  · intro i
    rw [hat']
    split
    · have := hm.ok
      exact ⟨by rw [hu1]; exact this.tos, by rw [hu1]; exact this.tosLt, by rw [hu2]; exact this.stack,
        by rw [hu2]; exact this.stackLt⟩
    · exact ha.ok i
  · intro i hi; rw [hat'] at hi; exact hwait i hi
  · intro i
    simp only [hat']
    rcases hsame i with h3 | ⟨h3, h4⟩
    · exact .inl h3
    · rw [h3, h4]
      rcases ha.closed i with h5 | h5 | h5
      · exact .inl (hsub i h5)
      · exact .inr (.inl h5)
      · refine .inr (.inr fun e' he' ht hne' => ?_)
        unfold addDone at he'
        have hold : e' ∈ D i → Covered ds p.nLabels (if i = e.1.to then u.1 else a.at i)
            (if e'.1.to = e.1.to then u.1 else a.at e'.1.to) e'.1 e'.2 := fun hd =>
          (h5 e' hd ht hne').mono h3 h4 (hmono _).1 (hmono _).2
        by_cases hi : i = el
        · rw [if_pos hi] at he'
          rcases List.mem_append.1 he' with he' | he'
          · exact hold he'
          · rw [List.mem_singleton] at he'
            subst he'
            rw [if_pos rfl]
            subst hi
            exact hcov.mono h3 h4 (by rw [hu1]; exact fun _ h => h) (by rw [hu2]; exact fun _ h => h)
        · rw [if_neg hi] at he'
          exact hold he'
  · intro i g hb; rw [hat']; exact (hmono i).1 g (ha.base i g hb)
  · rw [hat', if_neg (fun h => h1 h.symm)]; exact ha.termEmpty
  · have hsum := sum_set (fun t : Tos => t.tos.length + t.stack.length) a.app e.1.to u.1 hto
    have hget : a.app[e.1.to] = a.at e.1.to := by
      unfold Sat.at; rw [List.getElem?_eq_getElem hto]; rfl
    rw [hget, hu1, hu2] at hsum
    have hle1 := ssorted_length_le (ha.ok e.1.to).tos hm.tosSub
    have hle2 := ssorted_length_le (ha.ok e.1.to).stack hm.stackSub
    show ws.length + a.total ≤ _ + ((a.app.set e.1.to u.1).map fun t => t.tos.length + t.stack.length).sum
    have htot : a.total = (a.app.map fun t => t.tos.length + t.stack.length).sum := rfl
    rw [← htot] at hsum
    rw [← hw]
    cases hu : u.2
    · simp only [Bool.false_eq_true, if_false]; omega
    · simp only [if_true, List.length_append, List.length_cons, List.length_nil]
      rcases hu6 hu with hc | hc
      · have := hm.growT hc; omega
      · have := hm.growS hc; omega

theorem sat_fold {p : Pda W} (hp : OK p) {term : Nat} {ds : Bool} {B : Nat → Nat → Prop}
    {D : Nat → List (Rule W × Labels)} {a : Sat} {el : Nat} (es : List (Rule W × Labels))
    (hes : ∀ e ∈ es, e ∈ (p.st el).rules) (ha : SatInv p term ds B D a) :
    SatInv p term ds B (fun i => if i = el then D i ++ es else D i)
      (es.foldl (satRule term ds p.nLabels el) a) ∧
    (es.foldl (satRule term ds p.nLabels el) a).waiting.length + a.total ≤
      a.waiting.length + (es.foldl (satRule term ds p.nLabels el) a).total := by
  induction es generalizing a D with
  | nil =>
    refine ⟨?_, Nat.le_refl _⟩
    have : (fun i => if i = el then D i ++ [] else D i) = D := by funext i; simp
    rw [this]; exact ha
  | cons e es ih =>
    rw [List.foldl_cons]
    obtain ⟨h1, h2⟩ := sat_rule hp ha (hes e (by simp))
    obtain ⟨h3, h4⟩ := ih (fun e' he' => hes e' (by simp [he'])) h1
    refine ⟨?_, by omega⟩
    have : (fun i => if i = el then addDone D el e i ++ es else addDone D el e i) =
        (fun i => if i = el then D i ++ e :: es else D i) := by
      funext i; unfold addDone; split <;> simp
    rw [this] at h3; exact h3

theorem total_le {p : Pda W} {term : Nat} {ds : Bool} {B : Nat → Nat → Prop}
    {D : Nat → List (Rule W × Labels)} {a : Sat} (ha : SatInv p term ds B D a) :
    a.total ≤ 2 * p.nLabels * p.size := by
  have hall : ∀ t ∈ a.app, t.tos.length + t.stack.length ≤ 2 * p.nLabels := by
    intro t ht
    obtain ⟨i, hi, rfl⟩ := List.getElem_of_mem ht
    have : a.app[i] = a.at i := by unfold Sat.at; rw [List.getElem?_eq_getElem hi]; rfl
    rw [this]
    have hk := ha.ok i
    have h1 := ssorted_length_le hk.tos (bs := List.range p.nLabels)
      (fun x hx => List.mem_range.2 (hk.tosLt x hx))
    have h2 := ssorted_length_le hk.stack (bs := List.range p.nLabels)
      (fun x hx => List.mem_range.2 (hk.stackLt x hx))
    simp only [List.length_range] at h1 h2
    omega
  rw [← ha.len]
  unfold Sat.total
  generalize a.app = l at hall
  induction l with
  | nil => simp
  | cons t l ih =>
    have h1 := hall t (by simp)
    have h2 := ih fun t ht => hall t (by simp [ht])
    simp only [List.map_cons, List.sum_cons, List.length_cons, Nat.mul_add, Nat.mul_one]
    omega

theorem sat_step {p : Pda W} (hp : OK p) {term : Nat} {ds : Bool} {B : Nat → Nat → Prop} {a a' : Sat}
    (ha : SatInv p term ds B (fun i => (p.st i).rules) a) (h : satStep p term ds a = some a') :
    SatInv p term ds B (fun i => (p.st i).rules) a' ∧
    a'.waiting.length + (2 * p.nLabels * p.size - a'.total) <
      a.waiting.length + (2 * p.nLabels * p.size - a.total) := by
  unfold satStep at h
  rcases hw : a.waiting with _ | ⟨el, ws⟩
  · rw [hw] at h; cases h
  rw [hw] at h
  simp only [Option.some.injEq] at h
  let a0 : Sat := { app := a.app.set el { a.at el with wTos := false, wBos := false }, waiting := ws }
  have hat : ∀ j, (a0.at j).tos = (a.at j).tos ∧ (a0.at j).stack = (a.at j).stack ∧
      ((a0.at j).wTos = true ∨ (a0.at j).wBos = true → j ≠ el ∧
        ((a.at j).wTos = true ∨ (a.at j).wBos = true)) := by
    intro j
    by_cases hel : el < a.app.length
    · have := Sat.at_set a.app ws { a.at el with wTos := false, wBos := false } hel j
      show (Sat.at a0 j).tos = _ ∧ (Sat.at a0 j).stack = _ ∧ _
      rw [show Sat.at a0 j = _ from this]
      by_cases hj : j = el
      · subst hj; simp
      · simp only [if_neg hj]
        exact ⟨rfl, rfl, fun h => ⟨hj, h⟩⟩
    · have hset : a.app.set el { a.at el with wTos := false, wBos := false } = a.app :=
        List.set_eq_of_length_le (by omega)
      have : a0.at j = a.at j := by
        show ((a.app.set el _)[j]?).getD {} = (a.app[j]?).getD {}
        rw [hset]
      rw [this]
      refine ⟨rfl, rfl, fun hfl => ⟨?_, hfl⟩⟩
      rintro rfl
      have hd : a.at j = {} := by
        show (a.app[j]?).getD {} = {}
        rw [List.getElem?_eq_none (by omega)]; rfl
      rw [hd] at hfl; simp at hfl
  have hD : SatInv p term ds B (fun i => if i = el then [] else (p.st i).rules) a0 := by
    refine ⟨by simpa [a0] using ha.len, fun i => ?_, fun i hi => ?_, fun i => ?_, fun i g hb => ?_, ?_⟩
    · obtain ⟨h1, h2, _⟩ := hat i
      have := ha.ok i
      exact ⟨by rw [h1]; exact this.tos, by rw [h1]; exact this.tosLt, by rw [h2]; exact this.stack,
        by rw [h2]; exact this.stackLt⟩
    · obtain ⟨h1, h2⟩ := (hat i).2.2 hi
      have := ha.wait i h2
      rw [hw] at this
      rcases List.mem_cons.1 this with h3 | h3
      · exact absurd h3 h1
      · exact h3
    · by_cases hi : i = el
      · right; right; intro e he; simp only [if_pos hi] at he; cases he
      · rcases ha.closed i with h1 | h1 | h1
        · rw [hw] at h1
          rcases List.mem_cons.1 h1 with h3 | h3
          · exact absurd h3 hi
          · exact .inl h3
        · right; left; rw [(hat i).1, (hat i).2.1]; exact h1
        · right; right
          intro e he ht hne
          simp only [if_neg hi] at he
          exact (h1 e he ht hne).mono (hat i).1 (hat i).2.1 (fun x hx => by rw [(hat _).1]; exact hx)
            (fun x hx => by rw [(hat _).2.1]; exact hx)
    · rw [(hat i).1]; exact ha.base i g hb
    · rw [(hat term).1]; exact ha.termEmpty
  obtain ⟨h1, h2⟩ := sat_fold hp (el := el) (p.st el).rules (fun _ h => h) hD
  have hfun : (fun i => if i = el then (if i = el then ([] : List (Rule W × Labels)) else (p.st i).rules) ++
      (p.st el).rules else if i = el then [] else (p.st i).rules) = fun i => (p.st i).rules := by
    funext i
    by_cases hi : i = el
    · subst hi; simp
    · simp [hi]
  rw [hfun] at h1
  have h' : (p.st el).rules.foldl (satRule term ds p.nLabels el) a0 = a' := h
  rw [h'] at h1 h2
  have htot : a0.total = a.total := by
    unfold Sat.total
    show (((a.app.set el _)).map _).sum = _
    by_cases hel : el < a.app.length
    · have hsum := sum_set (fun t : Tos => t.tos.length + t.stack.length) a.app el
        { a.at el with wTos := false, wBos := false } hel
      have hget : a.app[el] = a.at el := by
        unfold Sat.at; rw [List.getElem?_eq_getElem hel]; rfl
      rw [hget] at hsum
      exact Nat.add_right_cancel hsum
    · rw [List.set_eq_of_length_le (by omega)]
  have hle := total_le h1
  refine ⟨h1, ?_⟩
  rw [htot] at h2
  have hws : a0.waiting.length = ws.length := rfl
  simp only [List.length_cons]
  omega

/-! ## Initialisation -/

/-- Invariant of the initialisation loop. -/
structure InitInv (p : Pda W) (term : Nat) (D : List (Rule W × Labels)) (a : Sat) : Prop where
  len : a.app.length = p.size
  ok : ∀ i, TosOK p.nLabels (a.at i)
  wait : ∀ i, (a.at i).wTos = true ∨ (a.at i).wBos = true → i ∈ a.waiting
  closed : ∀ i, i ∈ a.waiting ∨ ((a.at i).tos = [] ∧ (a.at i).stack = [])
  base : ∀ e ∈ D, e.1.to ≠ term → e.2.isEmpty = false → e.1.opLabel ∈ (a.at e.1.to).tos
  termEmpty : (a.at term).tos = []

theorem init_rule {p : Pda W} (hp : OK p) {term : Nat} {D : List (Rule W × Labels)} {a : Sat}
    (ha : InitInv p term D a) {i : Nat} {e : Rule W × Labels} (he : e ∈ (p.st i).rules)
    (hop : e.1.to ≠ term → e.2.isEmpty = false → e.1.op = .push) :
    InitInv p term (D ++ [e]) (initRule term a e) := by
  have hskip : (e.1.to = term ∨ e.2.isEmpty = true) → InitInv p term (D ++ [e]) a := by
    intro h
    refine ⟨ha.len, ha.ok, ha.wait, ha.closed, fun e' he' ht hne => ?_, ha.termEmpty⟩
    rcases List.mem_append.1 he' with he' | he'
    · exact ha.base e' he' ht hne
    · rw [List.mem_singleton] at he'
      subst he'
      rcases h with h | h
      · exact absurd h ht
      · rw [h] at hne; cases hne
  unfold initRule
  by_cases h1 : e.1.to = term
  · rw [if_pos h1]; exact hskip (.inl h1)
  rw [if_neg h1]
  by_cases h2 : e.2.isEmpty = true
  · rw [if_pos h2]; exact hskip (.inr h2)
  rw [if_neg h2]
  have hne : e.2.isEmpty = false := by simpa using h2
  have hto : e.1.to < a.app.length := by rw [ha.len]; exact hp.wf.toLt i e he
  have hlt := hp.wf.opLt i e he (.inl (hop h1 hne))
  simp only
  generalize hfr : (!(a.at e.1.to).wTos && !(a.at e.1.to).wBos) = fresh
  generalize hss : (if fresh = true then ((a.at e.1.to).updateState (true, true)).1 else a.at e.1.to) = ss
  obtain ⟨hu1, hu2, hu3, hu4, _, _⟩ := updateState_spec (a.at e.1.to) (true, true)
  have hst : ss.tos = (a.at e.1.to).tos ∧ ss.stack = (a.at e.1.to).stack := by
    rw [← hss]; split
    · exact ⟨hu1, hu2⟩
    · exact ⟨rfl, rfl⟩
  have hem := emplace_spec ss.tos e.1.opLabel (by rw [hst.1]; exact (ha.ok _).tos)
  generalize hw : (if fresh = true then a.waiting ++ [e.1.to] else a.waiting) = ws
  have hat : ∀ j, Sat.at (Sat.mk (a.app.set e.1.to { ss with tos := (VSet.emplace natLt ss.tos e.1.opLabel).1 })
      ws) j = if j = e.1.to then { ss with tos := (VSet.emplace natLt ss.tos e.1.opLabel).1 }
        else a.at j := fun j => Sat.at_set a.app ws _ hto j
  have hsub : ∀ i ∈ a.waiting, i ∈ ws := by
    intro i hi
    rw [← hw]; split
    · exact List.mem_append_left _ hi
    · exact hi
  have hin : e.1.to ∈ ws := by
    rw [← hw]
    cases hf : fresh
    · rw [hf] at hfr
      simp only [Bool.false_eq_true, if_false]
      refine ha.wait _ ?_
      cases h3 : (a.at e.1.to).wTos
      · cases h4 : (a.at e.1.to).wBos
        · rw [h3, h4] at hfr; cases hfr
        · exact .inr rfl
      · exact .inl rfl
    · simp
  refine ⟨by simpa using ha.len, fun j => ?_, fun j hj => ?_, fun j => ?_, fun e' he' ht hne' => ?_, ?_⟩
  · rw [hat]
    by_cases hj : j = e.1.to
    · rw [if_pos hj]
      have hk := ha.ok e.1.to
      refine ⟨hem.sorted, fun x hx => ?_, by simp only; rw [hst.2]; exact hk.stack,
        by simp only; rw [hst.2]; exact hk.stackLt⟩
      rcases (hem.mem x).1 hx with h | h
      · rw [hst.1] at h; exact hk.tosLt x h
      · rw [List.mem_singleton.1 h]; exact hlt
    · rw [if_neg hj]; exact ha.ok j
  · rw [hat] at hj
    by_cases h : j = e.1.to
    · subst h; exact hin
    · rw [if_neg h] at hj; exact hsub _ (ha.wait j hj)
  · by_cases hj : j = e.1.to
    · subst hj; exact .inl hin
    · rcases ha.closed j with h | h
      · exact .inl (hsub _ h)
      · right; rw [hat, if_neg hj]; exact h
  · rw [hat]
    have hold : e' ∈ D → e'.1.opLabel ∈ (if e'.1.to = e.1.to then
        { ss with tos := (VSet.emplace natLt ss.tos e.1.opLabel).1 } else a.at e'.1.to).tos := by
      intro hd
      have := ha.base e' hd ht hne'
      by_cases hj : e'.1.to = e.1.to
      · rw [if_pos hj]
        rw [hj, ← hst.1] at this
        exact (hem.mem _).2 (.inl this)
      · rw [if_neg hj]; exact this
    rcases List.mem_append.1 he' with he' | he'
    · exact hold he'
    · rw [List.mem_singleton] at he'
      subst he'
      rw [if_pos rfl]
      exact (hem.mem _).2 (.inr (by simp))
  · rw [hat, if_neg (fun h => h1 h.symm)]; exact ha.termEmpty

theorem init_fold {p : Pda W} (hp : OK p) {term i : Nat} (es D : List (Rule W × Labels)) {a : Sat}
    (hes : ∀ e ∈ es, e ∈ (p.st i).rules)
    (hop : ∀ e ∈ es, e.1.to ≠ term → e.2.isEmpty = false → e.1.op = .push)
    (ha : InitInv p term D a) : InitInv p term (D ++ es) (es.foldl (initRule term) a) := by
  induction es generalizing a D with
  | nil => simpa using ha
  | cons e es ih =>
    rw [List.foldl_cons]
    have h1 := init_rule hp ha (hes e (by simp)) (hop e (by simp))
    have h2 := ih (D ++ [e]) (fun e' he' => hes e' (by simp [he'])) (fun e' he' => hop e' (by simp [he'])) h1
    simpa using h2

theorem init_inv {p : Pda W} (hp : OK p) {init term : Nat}
    (hop : ∀ e ∈ (p.st init).rules, e.1.to ≠ term → e.2.isEmpty = false → e.1.op = .push) :
    InitInv p term (p.st init).rules (initSat p init term) := by
  have h0 : ∀ j, Sat.at { app := List.replicate p.size {}, waiting := [] } j = {} := by
    intro j
    unfold Sat.at
    by_cases h : j < p.size
    · rw [List.getElem?_replicate_of_lt h]; rfl
    · rw [List.getElem?_eq_none (by simp; omega)]; rfl
  have := init_fold hp (term := term) (i := init) (p.st init).rules []
    (a := { app := List.replicate p.size {}, waiting := [] }) (fun _ h => h) hop
    ⟨by simp, fun j => by rw [h0]; exact ⟨List.Pairwise.nil, by simp, List.Pairwise.nil, by simp⟩,
      fun j hj => by rw [h0] at hj; simp at hj, fun j => by rw [h0]; exact .inr ⟨rfl, rfl⟩, by simp,
      by rw [h0]⟩
  simpa [initSat] using this

/-- The labels that the initial rules push. -/
def InitTop (p : Pda W) (init term : Nat) (i g : Nat) : Prop :=
  i ≠ term ∧ ∃ r, p.Has r ∧ r.src = init ∧ r.dst = i ∧ r.opLabel = g

theorem has_nonempty {p : Pda W} {r : URule W} (h : p.Has r) :
    ∃ l, (Pda.toImpl r, l) ∈ (p.st r.src).rules ∧ l.isEmpty = false ∧ r.pre ∈ expandN p.nLabels l := by
  obtain ⟨l, h1, h2⟩ := (Pda.Has_iff _ r).1 h
  refine ⟨l, h1, ?_, h2⟩
  rcases l with ⟨wc, ls⟩
  unfold Pda.expand at h2
  cases wc
  · cases ls with
    | nil => simp at h2
    | cons a as => rfl
  · rfl

theorem sat_init {p q : Pda W} (hp : OK p) {init term : Nat} (hnar : Narrow p q) (ds : Bool)
    (hop : ∀ e ∈ (p.st init).rules, e.1.to ≠ term → e.2.isEmpty = false → e.1.op = .push) :
    SatInv q term ds (InitTop p init term) (fun i => (q.st i).rules) (initSat p init term) := by
  have h := init_inv hp hop
  refine ⟨by rw [h.len, hnar.size], by rw [hnar.labels]; exact h.ok, h.wait, fun i => ?_, ?_,
    h.termEmpty⟩
  · rcases h.closed i with h1 | h1
    · exact .inl h1
    · exact .inr (.inl h1)
  · rintro i g ⟨hi, r, hr, hs, hd, hg⟩
    obtain ⟨l, h1, h2, _⟩ := has_nonempty hr
    rw [hs] at h1
    have := h.base _ h1 (show r.dst ≠ term by rw [hd]; exact hi) h2
    rw [← hg, ← hd]; exact this

/-- What the saturation gives. -/
structure SatDone (p : Pda W) (term : Nat) (ds : Bool) (B : Nat → Nat → Prop) (a : Sat) : Prop where
  ok : ∀ i, TosOK p.nLabels (a.at i)
  closed : ∀ i, (a.at i).tos ≠ [] → ∀ e ∈ (p.st i).rules, e.1.to ≠ term → e.2.isEmpty = false →
    Covered ds p.nLabels (a.at i) (a.at e.1.to) e.1 e.2
  base : ∀ i g, B i g → g ∈ (a.at i).tos
  termEmpty : (a.at term).tos = []

theorem sat_done {p : Pda W} (hp : OK p) {term : Nat} {ds : Bool} {B : Nat → Nat → Prop} {a0 a : Sat}
    (h0 : SatInv p term ds B (fun i => (p.st i).rules) a0) {fuel : Nat}
    (h : whileSome (satStep p term ds) fuel a0 = some a) : SatDone p term ds B a := by
  obtain ⟨h1, h2⟩ := whileSome_inv
    (I := fun a => SatInv p term ds B (fun i => (p.st i).rules) a)
    (fun s s' hs h => (sat_step hp hs h).1) h0 h
  have hw : a.waiting = [] := by
    unfold satStep at h2
    rcases hw : a.waiting with _ | ⟨el, ws⟩
    · rfl
    · rw [hw] at h2; cases h2
  refine ⟨h1.ok, fun i hi e he ht hne => ?_, h1.base, h1.termEmpty⟩
  rcases h1.closed i with h3 | h3 | h3
  · rw [hw] at h3; cases h3
  · exact absurd h3.1 hi
  · exact h3 e he ht hne

theorem sat_terminates {p : Pda W} (hp : OK p) {term : Nat} {ds : Bool} {B : Nat → Nat → Prop} {a0 : Sat}
    (h0 : SatInv p term ds B (fun i => (p.st i).rules) a0) {fuel : Nat}
    (hf : a0.waiting.length + 2 * p.nLabels * p.size ≤ fuel) :
    ∃ a, whileSome (satStep p term ds) fuel a0 = some a :=
  whileSome_terminates (I := fun a => SatInv p term ds B (fun i => (p.st i).rules) a)
    (fun a => a.waiting.length + (2 * p.nLabels * p.size - a.total))
    (fun s s' hs h => sat_step hp hs h) h0 (by omega)

end

end Reducer

end Verif
