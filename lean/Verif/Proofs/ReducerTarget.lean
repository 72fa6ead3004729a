import Verif.Proofs.Reducer

/-! # The Reducer: `target_tos_prune` keeps the runs to the terminal state and terminates -/

namespace Verif

variable {W : Type}

namespace Reducer

/-! ## Replacing the rules of one state -/

/-- The rules of state `q` replaced. -/
def modRules (p : Pda W) (q : Nat) (f : VMap (Rule W) Labels → VMap (Rule W) Labels) : Pda W :=
  { p with states := p.states.modify q fun x => { x with rules := f x.rules } }

theorem modRules_st (p : Pda W) {q : Nat} {f : VMap (Rule W) Labels → VMap (Rule W) Labels}
    (hq : q < p.size) (i : Nat) :
    (modRules p q f).st i = if i = q then { p.st i with rules := f (p.st i).rules } else p.st i :=
  Pda.getD_modify p.states q i _ hq

theorem modRules_size (p : Pda W) (q : Nat) (f : VMap (Rule W) Labels → VMap (Rule W) Labels) :
    (modRules p q f).size = p.size := by simp [modRules, Pda.size]

theorem narrower_sorted [LinearOrder W] {n : Nat} {l' l : VMap (Rule W) Labels}
    (h : List.SublistForall₂ (Narrower n) l' l) (hs : l.Sorted Rule.lt) : l'.Sorted Rule.lt := by
  induction h with
  | nil => exact List.Pairwise.nil
  | cons hr ht ih =>
    have hs' := List.pairwise_cons.1 hs
    refine List.pairwise_cons.2 ⟨fun y hy => ?_, ih hs'.2⟩
    obtain ⟨z, hz, h1⟩ := sublistForall_mem ht hy
    have := hs'.1 z hz
    rw [hr.1, h1.1]; exact this
  | cons_right _ ih => exact ih (List.pairwise_cons.1 hs).2

/-- The label set is fine for `n` labels. -/
structure LabOK (n : Nat) (l : Labels) : Prop where
  strict : SSorted l.labels
  lt : ∀ g ∈ l.labels, g < n
  wild : l.wildcard = true → l.labels = []

theorem OK.lab [LinearOrder W] {p : Pda W} (hp : OK p) {i : Nat} {x : Rule W × Labels}
    (hx : x ∈ (p.st i).rules) : LabOK p.nLabels x.2 :=
  ⟨hp.strict i x hx, hp.wf.labLt i x hx, hp.wild i x hx⟩

theorem LabOK.lt' {n : Nat} {l : Labels} (h : LabOK n l) {g : Nat} (hg : g ∈ expandN n l) : g < n := by
  unfold expandN at hg
  split at hg
  · exact List.mem_range.1 hg
  · exact h.lt g hg

theorem modRules_ok [LinearOrder W] {p : Pda W} (hp : OK p) {q : Nat}
    {f : VMap (Rule W) Labels → VMap (Rule W) Labels} (hq : q < p.size)
    (hf : List.SublistForall₂ (Narrower p.nLabels) (f (p.st q).rules) (p.st q).rules)
    (hl : ∀ x ∈ f (p.st q).rules, LabOK p.nLabels x.2) :
    OK (modRules p q f) ∧ Narrow p (modRules p q f) := by
  have hst := fun i => modRules_st p (f := f) hq i
  have hn : (modRules p q f).nLabels = p.nLabels := rfl
  have hsz := modRules_size p q f
  have hnar : Narrow p (modRules p q f) := by
    refine ⟨hsz, rfl, fun i => ?_⟩
    rw [hst]
    by_cases h : i = q
    · subst h; rw [if_pos rfl]; exact hf
    · rw [if_neg h]; exact Std.Refl.refl _
  have hlab : ∀ i, ∀ x ∈ ((modRules p q f).st i).rules, LabOK p.nLabels x.2 := by
    intro i x hx
    rw [hst] at hx
    by_cases h : i = q
    · subst h; rw [if_pos rfl] at hx; exact hl x hx
    · rw [if_neg h] at hx; exact hp.lab hx
  have hpre : ∀ i, ((modRules p q f).st i).preStates = (p.st i).preStates := by
    intro i; rw [hst]; split <;> rfl
  refine ⟨⟨⟨?_, ?_, ?_, ?_, ?_, ?_, ?_, ?_⟩, fun i x hx => (hlab i x hx).strict,
    fun i x hx => (hlab i x hx).wild⟩, hnar⟩
  · intro i; exact narrower_sorted (hnar.rules i) (hp.wf.sorted i)
  · intro i x hx
    obtain ⟨l, h1, _⟩ := hnar.mem hx
    rw [hsz]; exact hp.wf.toLt i (x.1, l) h1
  · intro i x hx
    obtain ⟨l, h1, _⟩ := hnar.mem hx
    rw [hpre]; exact hp.wf.preMem i (x.1, l) h1
  · intro i j hj; rw [hpre] at hj; rw [hsz]; exact hp.wf.preLt i j hj
  · intro i; rw [hpre]; exact hp.wf.preSorted i
  · intro i x hx; exact (hlab i x hx).strict.wsorted
  · intro i x hx; exact (hlab i x hx).lt
  · intro i x hx
    obtain ⟨l, h1, _⟩ := hnar.mem hx
    exact hp.wf.opLt i (x.1, l) h1

/-! ## The useful labels -/

theorem setInsert_spec (ls u : List Nat) (hu : SSorted u) :
    SSorted (setInsert u ls) ∧ ∀ x, x ∈ setInsert u ls ↔ x ∈ u ∨ x ∈ ls := by
  unfold setInsert
  induction ls generalizing u with
  | nil => exact ⟨hu, by simp⟩
  | cons a ls ih =>
    rw [List.foldl_cons]
    have he := emplace_spec u a hu
    obtain ⟨h1, h2⟩ := ih _ he.sorted
    refine ⟨h1, fun x => ?_⟩
    rw [h2, he.mem]; simp only [List.mem_cons, List.not_mem_nil, or_false]; grind

theorem usefulLoop_spec {n : Nat} (rules : VMap (Rule W) Labels) (u : List Nat) (hu : SSorted u)
    {v : List Nat} (h : usefulLoop n rules u = some v) :
    SSorted v ∧ (∀ x ∈ rules, x.2.wildcard = false) ∧
      ∀ g, g ∈ v ↔ g ∈ u ∨ ∃ x ∈ rules, g ∈ x.2.labels := by
  induction rules generalizing u with
  | nil => rw [usefulLoop] at h; cases h; exact ⟨hu, by simp, by simp⟩
  | cons e es ih =>
    rw [usefulLoop] at h
    by_cases hw : e.2.wildcard = true
    · rw [if_pos hw] at h; cases h
    · rw [if_neg hw] at h
      obtain ⟨hs, hm⟩ := setInsert_spec e.2.labels u hu
      simp only at h
      by_cases hl : (setInsert u e.2.labels).length = n
      · rw [if_pos hl] at h; cases h
      · rw [if_neg hl] at h
        obtain ⟨h1, h2, h3⟩ := ih _ hs h
        refine ⟨h1, fun x hx => ?_, fun g => ?_⟩
        · rcases List.mem_cons.1 hx with rfl | hx
          · simpa using hw
          · exact h2 x hx
        · rw [h3, hm]; simp only [List.mem_cons, exists_eq_or_imp]; grind

/-! ## Filtering one rule -/

/-- Measure of a label set: a wildcard counts more than any list. -/
def labWeight (n : Nat) (l : Labels) : Nat := if l.wildcard then n + 1 else l.labels.length

theorem filterRule_spec {n : Nat} {u : List Nat} (hu : SSorted u) (hun : ∀ x ∈ u, x < n)
    (e : Rule W × Labels) (he : LabOK n e.2) :
    LabOK n (filterRule u e).1 ∧
    (∀ g ∈ expandN n (filterRule u e).1, g ∈ expandN n e.2) ∧
    (∀ g ∈ expandN n e.2, g ∈ expandN n (filterRule u e).1 ∨
      ((e.1.op = .push ∨ e.1.op = .swap) ∧ e.1.opLabel ∉ u) ∨ (e.1.op = .noop ∧ g ∉ u)) ∧
    labWeight n (filterRule u e).1 ≤ labWeight n e.2 ∧
    ((filterRule u e).2 = true → labWeight n (filterRule u e).1 < labWeight n e.2) := by
  have hus : VSet.Sorted natLt u := hu.imp (by simp [natLt])
  have hlen : u.length ≤ n := by
    have := ssorted_length_le hu (bs := List.range n) (fun x hx => List.mem_range.2 (hun x hx))
    simpa using this
  rcases e with ⟨r, ⟨wc, ls⟩⟩
  have hclear : (r.op = .push ∨ r.op = .swap) →
      filterRule u (r, ⟨wc, ls⟩) =
        if !Labels.isEmpty ⟨wc, ls⟩ && !VSet.contains natLt u r.opLabel then
          (Labels.clear ⟨wc, ls⟩, true) else (⟨wc, ls⟩, false) := by
    rintro (h | h) <;> simp only [filterRule, h]
  rcases hop : r.op with _ | _ | _ | _
  -- push
  · rw [hclear (.inl hop)]
    split
    · rename_i h
      simp only [Bool.and_eq_true, Bool.not_eq_true'] at h
      have hnot : r.opLabel ∉ u := by
        intro hm
        have := (VSet.contains_eq natLt_total hus r.opLabel).2 hm
        rw [h.2] at this; cases this
      refine ⟨⟨by simp [Labels.clear], by simp [Labels.clear], by simp [Labels.clear]⟩,
        by simp [Labels.clear, expandN], fun g hg => .inr (.inl ⟨.inl rfl, hnot⟩), ?_, fun _ => ?_⟩
      · simp [Labels.clear, labWeight]
      · have h1 := h.1
        unfold Labels.isEmpty at h1
        cases wc <;> cases ls <;> simp_all [Labels.clear, labWeight]
    · exact ⟨he, fun g h => h, fun g h => .inl h, Nat.le_refl _, by simp⟩
  -- pop
  · simp only [filterRule, hop]
    exact ⟨he, fun g h => h, fun g h => .inl h, Nat.le_refl _, by simp⟩
  -- swap
  · rw [hclear (.inr hop)]
    split
    · rename_i h
      simp only [Bool.and_eq_true, Bool.not_eq_true'] at h
      have hnot : r.opLabel ∉ u := by
        intro hm
        have := (VSet.contains_eq natLt_total hus r.opLabel).2 hm
        rw [h.2] at this; cases this
      refine ⟨⟨by simp [Labels.clear], by simp [Labels.clear], by simp [Labels.clear]⟩,
        by simp [Labels.clear, expandN], fun g hg => .inr (.inl ⟨.inr rfl, hnot⟩), ?_, fun _ => ?_⟩
      · simp [Labels.clear, labWeight]
      · have h1 := h.1
        unfold Labels.isEmpty at h1
        cases wc <;> cases ls <;> simp_all [Labels.clear, labWeight]
    · exact ⟨he, fun g h => h, fun g h => .inl h, Nat.le_refl _, by simp⟩
  -- noop
  · simp only [filterRule, hop]
    unfold Labels.noopPreFilter
    cases wc
    · have hsub : (Labels.filterLoop ls u).Sublist ls := by
        rw [filterLoop_eq]; exact intersectLoop_sublist ls u
      have hm : ∀ x, x ∈ Labels.filterLoop ls u ↔ x ∈ ls ∧ x ∈ u := fun x => by
        rw [filterLoop_eq]; exact intersectLoop_mem ls u he.strict.wsorted hu.wsorted x
      simp only [Bool.false_eq_true, if_false]
      split
      · rename_i h
        refine ⟨⟨he.strict.sublist hsub, fun g hg => he.lt g (hsub.subset hg), by simp⟩,
          ?_, ?_, ?_, ?_⟩
        · simp only [expandN, Bool.false_eq_true, if_false]; exact fun g hg => hsub.subset hg
        · simp only [expandN, Bool.false_eq_true, if_false]
          intro g hg
          rw [hm]
          by_cases hgu : g ∈ u
          · exact .inl ⟨hg, hgu⟩
          · exact .inr (.inr ⟨trivial, hgu⟩)
        · simp only [labWeight, Bool.false_eq_true, if_false]; exact hsub.length_le
        · intro _
          simp only [labWeight, Bool.false_eq_true, if_false]
          have := hsub.length_le
          omega
      · exact ⟨he, fun g h => h, fun g h => .inl h, Nat.le_refl _, by simp⟩
    · have hls : ls = [] := he.wild rfl
      subst hls
      simp only [if_true, List.append_nil]
      refine ⟨⟨hu, hun, by simp⟩, ?_, ?_, ?_, ?_⟩
      · simp only [expandN, Bool.false_eq_true, if_false, if_true, List.mem_range]; exact hun
      · simp only [expandN, Bool.false_eq_true, if_false, if_true, List.mem_range]
        intro g hg
        by_cases hgu : g ∈ u
        · exact .inl hgu
        · exact .inr (.inr ⟨trivial, hgu⟩)
      · simp only [labWeight, Bool.false_eq_true, if_false, if_true]; omega
      · intro _
        simp only [labWeight, Bool.false_eq_true, if_false, if_true]; omega

/-! ## The loop -/

/-- Total measure of the labels of a PDA. -/
def labTotal (p : Pda W) : Nat :=
  (p.states.map fun s => (s.rules.map fun e => labWeight p.nLabels e.2).sum).sum

theorem sum_modify_le {α : Type} (g : α → Nat) (f : α → α) (l : List α) (q : Nat)
    (h : ∀ x, l[q]? = some x → g (f x) ≤ g x) :
    ((l.modify q f).map g).sum ≤ (l.map g).sum := by
  induction l generalizing q with
  | nil => simp
  | cons a l ih =>
    cases q with
    | zero =>
      have := h a rfl
      simp only [List.modify_zero_cons, List.map_cons, List.sum_cons]; omega
    | succ q =>
      have := ih q (fun x hx => h x (by simpa using hx))
      simp only [List.modify_succ_cons, List.map_cons, List.sum_cons]; omega

theorem sum_modify_lt {α : Type} (g : α → Nat) (f : α → α) (l : List α) (q : Nat) {x : α}
    (hx : l[q]? = some x) (h : g (f x) < g x) :
    ((l.modify q f).map g).sum < (l.map g).sum := by
  induction l generalizing q with
  | nil => simp at hx
  | cons a l ih =>
    cases q with
    | zero =>
      simp only [List.getElem?_cons_zero, Option.some.injEq] at hx
      subst hx
      simp only [List.modify_zero_cons, List.map_cons, List.sum_cons]; omega
    | succ q =>
      have := ih q (by simpa using hx)
      simp only [List.modify_succ_cons, List.map_cons, List.sum_cons]; omega

theorem filterRules_sum {n s : Nat} {u : List Nat} (hu : SSorted u) (hun : ∀ x ∈ u, x < n)
    (rules : VMap (Rule W) Labels) (hl : ∀ e ∈ rules, LabOK n e.2) :
    ((filterRules s u rules).map fun e => labWeight n e.2).sum ≤
      (rules.map fun e => labWeight n e.2).sum ∧
    (filterChanged s u rules = true → ((filterRules s u rules).map fun e => labWeight n e.2).sum <
      (rules.map fun e => labWeight n e.2).sum) := by
  induction rules with
  | nil => simp [filterRules, filterChanged]
  | cons e es ih =>
    obtain ⟨h1, h2⟩ := ih fun x hx => hl x (by simp [hx])
    obtain ⟨_, _, _, h3, h4⟩ := filterRule_spec hu hun e (hl e (by simp))
    unfold filterRules filterChanged at *
    simp only [List.map_cons, List.sum_cons, List.any_cons, Bool.or_eq_true, Bool.and_eq_true,
      decide_eq_true_eq]
    by_cases he : e.1.to = s
    · simp only [if_pos he]
      refine ⟨by omega, ?_⟩
      rintro (h | h)
      · have := h4 h.2; omega
      · have := h2 h; omega
    · rw [if_neg he]
      refine ⟨by omega, ?_⟩
      rintro (h | h)
      · exact absurd h.1 he
      · have := h2 h; omega

section
variable [LinearOrder W]

/-- The label on top of the stack after the rule, if the rule puts or leaves one there. -/
def topAfter (r : URule W) : Option Nat :=
  match r.op with
  | .push | .swap => some r.opLabel
  | .noop => some r.pre
  | .pop => none

/-- Effect of the loop over the predecessors. -/
structure TargetPre (s : Nat) (u : List Nat) (t t' : Target W) : Prop where
  ok : OK t'.pda
  narrow : Narrow t.pda t'.pda
  pre : ∀ i, (t'.pda.st i).preStates = (t.pda.st i).preStates
  kept : ∀ r, t.pda.Has r → t'.pda.Has r ∨ (r.dst = s ∧ ∃ g, topAfter r = some g ∧ g ∉ u)
  keys : ∀ i, (t'.pda.st i).rules.map Prod.fst = (t.pda.st i).rules.map Prod.fst
  measure : t'.waiting.length + labTotal t'.pda ≤ t.waiting.length + labTotal t.pda

theorem target_pre {s : Nat} {u : List Nat} (hu : SSorted u) {t : Target W} (ht : OK t.pda)
    (hun : ∀ x ∈ u, x < t.pda.nLabels) {q : Nat} (hq : q < t.pda.size) :
    TargetPre s u t (t.pre s u q) := by
  have hsub : List.SublistForall₂ (Narrower t.pda.nLabels) (filterRules s u (t.pda.st q).rules)
      (t.pda.st q).rules := by
    have hall : ∀ e ∈ (t.pda.st q).rules, LabOK t.pda.nLabels e.2 := fun e he => ht.lab he
    revert hall
    generalize (t.pda.st q).rules = rules
    intro hall
    induction rules with
    | nil => exact List.SublistForall₂.nil
    | cons e es ih =>
      refine List.SublistForall₂.cons ?_ (ih fun e' he' => hall e' (by simp [he']))
      obtain ⟨_, h2, _⟩ := filterRule_spec hu hun e (hall e (by simp))
      show Narrower t.pda.nLabels (if e.1.to = s then (e.1, (filterRule u e).1) else e) e
      split
      · exact ⟨rfl, h2⟩
      · exact ⟨rfl, fun _ h => h⟩
  have hlab : ∀ x ∈ filterRules s u (t.pda.st q).rules, LabOK t.pda.nLabels x.2 := by
    intro x hx
    obtain ⟨e, he, rfl⟩ := List.mem_map.1 hx
    split
    · exact (filterRule_spec hu hun e (ht.lab he)).1
    · exact ht.lab he
  have hpda : (t.pre s u q).pda = modRules t.pda q (filterRules s u) := by
    unfold Target.pre; simp only; split <;> rfl
  obtain ⟨h1, h2⟩ := modRules_ok ht hq hsub hlab
  have hst := fun i => modRules_st t.pda (f := filterRules s u) hq i
  refine ⟨by rw [hpda]; exact h1, by rw [hpda]; exact h2, ?_, ?_, ?_, ?_⟩
  · intro i; rw [hpda, hst]; split <;> rfl
  · intro r hr
    rw [hpda]
    obtain ⟨l, h3, h4⟩ := (Pda.Has_iff _ r).1 hr
    by_cases hrq : r.src = q
    · by_cases hrs : r.dst = s
      · obtain ⟨_, _, h5, _⟩ := filterRule_spec hu hun (Pda.toImpl r, l) (ht.lab h3)
        rcases h5 r.pre h4 with h5 | h5 | h5
        · refine .inl ((Pda.Has_iff _ r).2 ⟨_, ?_, h5⟩)
          rw [hst, if_pos hrq]
          refine List.mem_map.2 ⟨_, h3, ?_⟩
          rw [if_pos (by exact hrs)]
        · refine .inr ⟨hrs, r.opLabel, ?_, h5.2⟩
          rcases h5.1 with h6 | h6
          · have : r.op = .push := h6
            simp [topAfter, this]
          · have : r.op = .swap := h6
            simp [topAfter, this]
        · refine .inr ⟨hrs, r.pre, ?_, h5.2⟩
          have : r.op = .noop := h5.1
          simp [topAfter, this]
      · refine .inl ((Pda.Has_iff _ r).2 ⟨l, ?_, h4⟩)
        rw [hst, if_pos hrq]
        refine List.mem_map.2 ⟨_, h3, ?_⟩
        rw [if_neg (by exact hrs)]
    · refine .inl ((Pda.Has_iff _ r).2 ⟨l, ?_, h4⟩)
      rw [hst, if_neg hrq]; exact h3
  · intro i
    rw [hpda, hst]
    split
    · simp only [filterRules, List.map_map]
      refine List.map_congr_left fun e _ => ?_
      simp only [Function.comp]
      split <;> rfl
    · rfl
  · have hsum := filterRules_sum (s := s) hu hun (t.pda.st q).rules (fun e he => ht.lab he)
    have hget : t.pda.states[q]? = some (t.pda.st q) := by
      unfold Pda.st
      rw [List.getElem?_eq_getElem (show q < t.pda.states.length from hq)]; rfl
    have hle : labTotal (modRules t.pda q (filterRules s u)) ≤ labTotal t.pda := by
      refine sum_modify_le _ _ _ q fun x hx => ?_
      rw [hget] at hx; cases hx
      exact hsum.1
    have hlt : filterChanged s u (t.pda.st q).rules = true →
        labTotal (modRules t.pda q (filterRules s u)) < labTotal t.pda := by
      intro hc
      exact sum_modify_lt _ _ _ q hget (hsum.2 hc)
    rw [hpda]
    unfold Target.pre
    simp only
    split
    · rename_i hc
      rw [Bool.and_eq_true] at hc
      have := hlt hc.1
      simp only [List.length_append, List.length_cons, List.length_nil]; omega
    · simp only; omega

theorem target_fold {s : Nat} {u : List Nat} (hu : SSorted u) (qs : List Nat) {t : Target W}
    (ht : OK t.pda) (hun : ∀ x ∈ u, x < t.pda.nLabels) (hq : ∀ q ∈ qs, q < t.pda.size) :
    TargetPre s u t (qs.foldl (Target.pre s u) t) := by
  induction qs generalizing t with
  | nil => exact ⟨ht, Narrow.refl _, fun _ => rfl, fun _ h => .inl h, fun _ => rfl, Nat.le_refl _⟩
  | cons q qs ih =>
    rw [List.foldl_cons]
    have h1 := target_pre (s := s) hu ht hun (hq q (by simp))
    have h2 := ih h1.ok (by rw [h1.narrow.labels]; exact hun)
      (fun q' hq' => by rw [h1.narrow.size]; exact hq q' (by simp [hq']))
    refine ⟨h2.ok, h1.narrow.trans h2.narrow, fun i => (h2.pre i).trans (h1.pre i), fun r hr => ?_,
      fun i => (h2.keys i).trans (h1.keys i), Nat.le_trans h2.measure h1.measure⟩
    rcases h1.kept r hr with h3 | h3
    · exact h2.kept r h3
    · exact .inr h3

theorem target_step {t t' : Target W} {init term : Nat} (ht : OK t.pda)
    (h : t.step term = some t') : Phase t.pda t'.pda init term ∧
      t'.waiting.length + labTotal t'.pda < t.waiting.length + labTotal t.pda := by
  unfold Target.step at h
  rcases hw : t.waiting with _ | ⟨s, ws⟩
  · rw [hw] at h; cases h
  · rw [hw] at h
    simp only at h
    by_cases hs : s = term
    · rw [if_pos hs] at h
      cases h
      exact ⟨Phase.refl ht _ _, by simp⟩
    · rw [if_neg hs] at h
      rcases hul : usefulLoop t.pda.nLabels (t.pda.st s).rules [] with _ | u
      · rw [hul] at h; cases h
        exact ⟨Phase.refl ht _ _, by simp⟩
      · rw [hul] at h
        simp only [Option.some.injEq] at h
        obtain ⟨hu1, hu2, hu3⟩ := usefulLoop_spec _ [] List.Pairwise.nil hul
        have hun : ∀ x ∈ u, x < t.pda.nLabels := by
          intro x hx
          rcases (hu3 x).1 hx with h' | ⟨e, he, hg⟩
          · cases h'
          · exact ht.wf.labLt s e he x hg
        have hf := target_fold (s := s) hu1 (t.pda.st s).preStates
          (t := { t with waiting := ws, inWaiting := t.inWaiting.set s false }) ht hun
          (fun q hq => ht.wf.preLt s q hq)
        rw [h] at hf
        refine ⟨⟨hf.ok, hf.narrow, fun w rs w' hr hun' => ?_, fun _ => ?_⟩, ?_⟩
        · refine keep (fun _ => True) (fun _ _ _ _ _ _ => trivial) (fun r w rs w' hr hsrc _ hrun hus => ?_)
            hr hun' (fun _ => trivial)
          rcases hf.kept r hr with h' | ⟨hd, g, hg, hgu⟩
          · exact h'
          · exfalso
            have htop : ∃ v, effect r.op r.pre r.opLabel w = g :: v := by
              unfold topAfter at hg
              rcases ho : r.op with _ | _ | _ | _ <;> rw [ho] at hg <;> simp only [Option.some.injEq] at hg
              · exact ⟨_, by simp only [effect]; rw [hg]⟩
              · cases hg
              · exact ⟨_, by simp only [effect]; rw [hg]⟩
              · exact ⟨_, by simp only [effect]; rw [hg]⟩
            obtain ⟨v, hv⟩ := htop
            rw [hv, hd] at hrun
            generalize hc : (s, g :: v) = c at hrun
            generalize he : (term, w') = e at hrun
            cases hrun with
            | nil =>
              rw [← he] at hc
              exact hs (congrArg Prod.fst hc)
            | cons r2 w2 rs2 _ h2 =>
              cases hc
              obtain ⟨hh, _⟩ := hus r2 (by simp)
              obtain ⟨l, hl1, hl2⟩ := (Pda.Has_iff _ r2).1 hh
              have hwc := hu2 _ hl1
              refine hgu ((hu3 _).2 (.inr ⟨_, hl1, ?_⟩))
              unfold Pda.expand at hl2
              simp only at hwc
              rw [hwc] at hl2
              simpa using hl2
        · rintro ⟨x, hx, he⟩
          have hk := hf.keys term
          have : x.1 ∈ ((t'.pda.st term).rules.map Prod.fst) := by
            rw [hk]; exact List.mem_map_of_mem hx
          obtain ⟨y, hy, hyx⟩ := List.mem_map.1 this
          exact ⟨y, hy, by rw [hyx]; exact he⟩
        · have := hf.measure
          simp only [List.length_cons] at *
          omega

theorem target_phase {p : Pda W} (hp : OK p) {init term fuel : Nat} {p' : Pda W}
    (h : targetPrune fuel p term = some p') : Phase p p' init term := by
  unfold targetPrune at h
  obtain ⟨t, ht, rfl⟩ := Option.map_eq_some_iff.1 h
  exact (whileSome_inv (I := fun t => Phase p t.pda init term)
    (fun s s' hs h => hs.trans (target_step hs.ok h).1) (Phase.refl hp _ _) ht).1

theorem target_terminates {p : Pda W} (hp : OK p) (term : Nat) {fuel : Nat}
    (hf : p.size + labTotal p ≤ fuel) : ∃ p', targetPrune fuel p term = some p' := by
  obtain ⟨t, ht⟩ := whileSome_terminates (I := fun t : Target W => OK t.pda)
    (fun t => t.waiting.length + labTotal t.pda)
    (fun s s' hs h => ⟨(target_step (init := 0) hs h).1.ok, (target_step (init := 0) hs h).2⟩)
    (s := { pda := p, waiting := List.range p.size, inWaiting := List.replicate p.size true }) hp
    (by simpa using hf)
  exact ⟨_, by rw [targetPrune, ht]; rfl⟩

theorem targetIf_phase {p : Pda W} (hp : OK p) {init term fuel : Nat} {aggr : Int} {p' : Pda W}
    (h : targetIf fuel p aggr term = some p') : Phase p p' init term := by
  unfold targetIf at h
  split at h
  · exact target_phase hp h
  · cases h; exact Phase.refl hp _ _

end

end Reducer

end Verif
