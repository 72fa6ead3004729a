import Verif.Model.Typed
import Verif.Proofs.Pda
import Mathlib.Data.List.Nodup
import Mathlib.Data.List.Perm.Basic
import Verif.Proofs.Algorithms

/-! # The hash container holds the same rules as the vector container -/

namespace Verif.HPda

variable {W : Type}

theorem mem_emplaceMerge [DecidableEq W] (m : List (Rule W × Labels)) (r : Rule W) (wc : Bool) (pre : List Nat)
    (x : Rule W × Labels) : x ∈ emplaceMerge m r wc pre ↔ (x.1 ≠ r ∧ x ∈ m) ∨
      (x.1 = r ∧ ∃ l, ((r, l) ∈ m ∨ (l = {} ∧ ∀ l', (r, l') ∉ m)) ∧ x.2 = l.merge wc pre) := by
  unfold emplaceMerge
  split
  · rename_i h
    obtain ⟨⟨k, l0⟩, he, hk⟩ := List.any_eq_true.1 h
    have hk' : k = r := by simpa using hk
    subst hk'
    simp only [List.mem_map]
    constructor
    · rintro ⟨⟨k', l⟩, h1, rfl⟩
      by_cases h2 : k' = k
      · subst h2
        simp only [if_true]
        exact .inr ⟨trivial, l, .inl h1, rfl⟩
      · simp only [if_neg h2]
        exact .inl ⟨h2, h1⟩
    · rintro (⟨h1, h2⟩ | ⟨h1, l, h2 | ⟨_, h2⟩, h3⟩)
      · exact ⟨x, h2, by simp [h1]⟩
      · refine ⟨(k, l), h2, ?_⟩
        rcases x with ⟨a, b⟩
        simp only at h1 h3
        simp [h1, h3]
      · exact absurd he (h2 l0)
  · rename_i h
    have hn : ∀ l, (r, l) ∉ m := fun l hl => h (List.any_eq_true.2 ⟨_, hl, by simp⟩)
    simp only [List.mem_append, List.mem_singleton]
    constructor
    · rintro (h1 | rfl)
      · refine .inl ⟨fun h2 => hn x.2 ?_, h1⟩
        rw [← h2]; exact h1
      · exact .inr ⟨rfl, {}, .inr ⟨rfl, hn⟩, rfl⟩
    · rintro (⟨h1, h2⟩ | ⟨h1, l, h2 | ⟨h2, _⟩, h3⟩)
      · exact .inl h2
      · exact absurd h2 (hn l)
      · right
        rcases x with ⟨a, b⟩
        simp only at h1 h3
        rw [h1, h3, h2]

theorem keys_emplaceMerge [DecidableEq W] {m : List (Rule W × Labels)} (h : (m.map Prod.fst).Nodup)
    (r : Rule W) (wc : Bool) (pre : List Nat) : ((emplaceMerge m r wc pre).map Prod.fst).Nodup := by
  unfold emplaceMerge
  split
  · have : (m.map fun e => if e.1 = r then (e.1, e.2.merge wc pre) else e).map Prod.fst = m.map Prod.fst := by
      rw [List.map_map]
      apply List.map_congr_left
      intro e _
      simp only [Function.comp]
      split <;> rfl
    rw [this]; exact h
  · rename_i hn
    rw [List.map_append, List.nodup_append]
    refine ⟨h, by simp, ?_⟩
    intro a ha b hb hab
    obtain ⟨e, he, rfl⟩ := List.mem_map.1 ha
    simp only [List.map_cons, List.map_nil, List.mem_singleton] at hb
    exact hn (List.any_eq_true.2 ⟨e, he, by simp [hab, hb]⟩)

theorem nodup_of_keys {m : List (Rule W × Labels)} (h : (m.map Prod.fst).Nodup) : m.Nodup :=
  List.Nodup.of_map _ h

theorem keys_of_sorted [LinearOrder W] {m : VMap (Rule W) Labels} (h : m.Sorted Rule.lt) :
    (m.map Prod.fst).Nodup := by
  rw [List.Nodup, List.pairwise_map]
  exact List.Pairwise.imp (fun hab => Rule.lt_total.ne hab) h

/-- The state `s` of the hash container and the state `v` of the vector container hold the same. -/
def Same (s : HState W) (v : PState W) : Prop := s.rules.Perm v.rules ∧ s.preStates = v.preStates

/-- The two containers hold the same. -/
def Agree (h : HPda W) (p : Pda W) : Prop := h.nLabels = p.nLabels ∧ List.Forall₂ Same h.states p.states

theorem forall₂_modify {α β : Type} {R : α → β → Prop} {as : List α} {bs : List β} (h : List.Forall₂ R as bs)
    (i : Nat) (f : α → α) (g : β → β) (hfg : ∀ a b, as[i]? = some a → bs[i]? = some b → R a b → R (f a) (g b)) :
    List.Forall₂ R (as.modify i f) (bs.modify i g) := by
  induction h generalizing i with
  | nil => cases i <;> simp [List.modify]
  | cons hab hrest ih =>
    cases i with
    | zero => simp only [List.modify_zero_cons]; exact .cons (hfg _ _ rfl rfl hab) hrest
    | succ i =>
      simp only [List.modify_succ_cons]
      exact .cons hab (ih i fun a b ha hb => hfg a b (by simpa using ha) (by simpa using hb))

theorem agree_addState {h : HPda W} {p : Pda W} (ha : Agree h p) (s : Nat) :
    Agree (h.addState s) (p.addState s) := by
  have hl := ha.2.length_eq
  unfold addState Pda.addState
  rw [hl]
  split
  · refine ⟨ha.1, ?_⟩
    simp only
    refine List.rel_append ha.2 ?_
    generalize s + 1 - p.states.length = n
    induction n with
    | zero => exact .nil
    | succ n ih => exact .cons ⟨.nil, rfl⟩ ih
  · exact ha

theorem same_emplace [LinearOrder W] {m : List (Rule W × Labels)} {v : VMap (Rule W) Labels} (hp : m.Perm v)
    (hs : v.Sorted Rule.lt) (r : Rule W) (wc : Bool) (pre : List Nat) :
    (emplaceMerge m r wc pre).Perm
      ((v.emplace Rule.lt r {}).1.modify (v.emplace Rule.lt r {}).2.1 fun x => (x.1, x.2.merge wc pre)) := by
  have hs' := VMap.modify_sorted (VMap.emplace_sorted Rule.lt_total hs r ({} : Labels))
    (v.emplace Rule.lt r {}).2.1 (fun l => l.merge wc pre)
  have hk : (m.map Prod.fst).Nodup := (hp.map Prod.fst).nodup_iff.2 (keys_of_sorted hs)
  rw [List.perm_ext_iff_of_nodup (nodup_of_keys (keys_emplaceMerge hk r wc pre))
    (nodup_of_keys (keys_of_sorted hs'))]
  intro x
  rw [mem_emplaceMerge]
  obtain ⟨l0, hv⟩ := VMap.emplace_idx Rule.lt_total hs r ({} : Labels)
  have hse := VMap.emplace_sorted Rule.lt_total hs r ({} : Labels)
  rw [VMap.mem_modify_key Rule.lt_total hse hv (fun l => l.merge wc pre)]
  have hvm := (VMap.mem_emplace Rule.lt_total hs r ({} : Labels) (r, l0)).1 (List.mem_of_getElem? hv)
  rw [VMap.mem_emplace Rule.lt_total hs]
  simp only [hp.mem_iff]
  constructor
  · rintro (⟨h1, h2⟩ | ⟨h1, l, h2, h3⟩)
    · exact .inl ⟨h1, .inl h2⟩
    · refine .inr ?_
      have : l0 = l := by
        rcases h2 with h2 | ⟨h2, h4⟩
        · rcases hvm with h5 | ⟨_, h5⟩
          · exact VMap.Sorted.unique Rule.lt_total hs h5 h2
          · exact absurd h2 (h5 l)
        · rcases hvm with h5 | ⟨h5, _⟩
          · exact absurd h5 (h4 l0)
          · rw [h2]; exact congrArg Prod.snd h5
      subst this
      cases x; simp_all
  · rintro (⟨h1, h2 | ⟨h2, _⟩⟩ | h1)
    · exact .inl ⟨h1, h2⟩
    · subst h2; exact absurd rfl h1
    · subst h1
      refine .inr ⟨rfl, l0, ?_, rfl⟩
      rcases hvm with h3 | ⟨h3, h4⟩
      · exact .inl h3
      · exact .inr ⟨congrArg Prod.snd h3, h4⟩

/-- What the vector container maintains, without any condition on the labels. -/
def RulesSorted [LinearOrder W] (p : Pda W) : Prop := ∀ s ∈ p.states, s.rules.Sorted Rule.lt

theorem rulesSorted_call [LinearOrder W] {p : Pda W} (hp : RulesSorted p) (c : PdaCall W) :
    RulesSorted (p.call c) := by
  have hadd : ∀ s, RulesSorted (p.addState s) := by
    intro s
    unfold Pda.addState
    split
    · intro x hx
      rcases List.mem_append.1 hx with h | h
      · exact hp x h
      · rw [List.eq_of_mem_replicate h]; exact List.Pairwise.nil
    · exact hp
  have hmod : ∀ (l : List (PState W)) (i : Nat) (f : PState W → PState W), (∀ s ∈ l, s.rules.Sorted Rule.lt) →
      (∀ s ∈ l, (f s).rules.Sorted Rule.lt) → ∀ s ∈ l.modify i f, s.rules.Sorted Rule.lt := by
    intro l i f h1 h2
    induction l generalizing i with
    | nil => cases i <;> simp [List.modify]
    | cons a l ih =>
      cases i with
      | zero =>
        simp only [List.modify_zero_cons]
        intro s hs
        rcases List.mem_cons.1 hs with rfl | hs
        · exact h2 a (by simp)
        · exact h1 s (by simp [hs])
      | succ i =>
        simp only [List.modify_succ_cons]
        intro s hs
        rcases List.mem_cons.1 hs with rfl | hs
        · exact h1 _ (by simp)
        · exact ih i (fun s hs => h1 s (by simp [hs])) (fun s hs => h2 s (by simp [hs])) s hs
  cases c with
  | state s => exact hadd s
  | rule src r wc pre =>
    unfold Pda.call Pda.addRuleImpl
    have h0 := hadd (max src r.to)
    have h1 := hmod _ src (fun s => PState.mk ((s.rules.emplace Rule.lt r {}).1.modify
        (s.rules.emplace Rule.lt r {}).2.1 fun x => (x.1, x.2.merge wc pre)) s.preStates) h0 (fun s hs =>
        VMap.modify_sorted (VMap.emplace_sorted Rule.lt_total (h0 s hs) r ({} : Labels)) _
          (fun l => l.merge wc pre))
    exact hmod _ _ _ h1 h1

theorem agree_call [LinearOrder W] {h : HPda W} {p : Pda W} (ha : Agree h p) (hs : RulesSorted p)
    (c : PdaCall W) : Agree (h.call c) (p.call c) := by
  cases c with
  | state s => exact agree_addState ha s
  | rule src r wc pre =>
    have h0 := agree_addState ha (max src r.to)
    have hs0 : RulesSorted (p.addState (max src r.to)) := rulesSorted_call hs (.state _)
    refine ⟨h0.1, ?_⟩
    refine forall₂_modify (forall₂_modify h0.2 _ _ _ ?_) _ _ _ ?_
    · intro a b _ hb hab
      exact ⟨same_emplace hab.1 (hs0 b (List.mem_of_getElem? hb)) r wc pre, hab.2⟩
    · intro a b _ _ hab
      exact ⟨hab.1, by simp only [hab.2]⟩

theorem agree_build [LinearOrder W] (n : Nat) (cs : List (PdaCall W)) :
    Agree (build n cs) (Pda.build n cs) ∧ RulesSorted (Pda.build n cs) := by
  suffices h : ∀ (cs : List (PdaCall W)) (h : HPda W) (p : Pda W), Agree h p → RulesSorted p →
      Agree (cs.foldl call h) (cs.foldl Pda.call p) ∧ RulesSorted (cs.foldl Pda.call p) from
    h cs _ _ ⟨rfl, .nil⟩ (by intro s hs; simp at hs)
  intro cs
  induction cs with
  | nil => exact fun _ _ h1 h2 => ⟨h1, h2⟩
  | cons c cs ih => exact fun h p h1 h2 => ih _ _ (agree_call h1 h2 c) (rulesSorted_call h2 c)

theorem insertRule_sorted [LinearOrder W] (x : Rule W × Labels) (l : List (Rule W × Labels))
    (hl : VMap.Sorted Rule.lt l) (hx : ∀ y ∈ l, y.1 ≠ x.1) :
    VMap.Sorted Rule.lt (insertBy (fun a b => Rule.lt a.1 b.1) x l) := by
  induction l with
  | nil => simp [insertBy, VMap.Sorted]
  | cons y l ih =>
    rw [VMap.Sorted, List.pairwise_cons] at hl
    unfold insertBy
    split
    · rename_i h
      refine List.pairwise_cons.2 ⟨fun z hz => ?_, ih hl.2 fun z hz => hx z (by simp [hz])⟩
      rcases List.mem_cons.1 ((insertBy_perm _ _ _).mem_iff.1 hz) with rfl | hz
      · exact h
      · exact hl.1 z hz
    · rename_i h
      have hxy : Rule.lt x.1 y.1 = true := by
        rcases Rule.lt_total.tri x.1 y.1 with h1 | h1 | h1
        · exact h1
        · exact absurd h1.symm (hx y (by simp))
        · exact absurd h1 h
      refine List.pairwise_cons.2 ⟨fun z hz => ?_, List.pairwise_cons.2 hl⟩
      rcases List.mem_cons.1 hz with rfl | hz
      · exact hxy
      · exact Rule.lt_total.trans _ _ _ hxy (hl.1 z hz)

theorem sortRules_sorted [LinearOrder W] (l : List (Rule W × Labels)) (h : (l.map Prod.fst).Nodup) :
    VMap.Sorted Rule.lt (sortBy (fun a b => Rule.lt a.1 b.1) l) := by
  induction l with
  | nil => simp [sortBy, VMap.Sorted]
  | cons x l ih =>
    rw [List.map_cons, List.nodup_cons] at h
    refine insertRule_sorted x _ (ih h.2) fun y hy hxy => h.1 ?_
    rw [mem_sortBy] at hy
    exact List.mem_map.2 ⟨y, hy, hxy⟩

theorem toVector_eq [LinearOrder W] (iter : List (Rule W × Labels) → List (Rule W × Labels))
    (hi : ∀ l, (iter l).Perm l) {h : HPda W} {p : Pda W} (ha : Agree h p) (hs : RulesSorted p) :
    h.toVector iter = p := by
  obtain ⟨hn, hst⟩ := ha
  rcases p with ⟨n, ps⟩
  rcases h with ⟨n', hs'⟩
  simp only at hn hst
  subst hn
  unfold toVector
  simp only [Pda.mk.injEq, true_and]
  have hs2 : ∀ s ∈ ps, s.rules.Sorted Rule.lt := hs
  clear hs
  induction hst with
  | nil => rfl
  | @cons a b as bs hab hrest ih =>
    rw [List.map_cons]
    refine List.cons_eq_cons.2 ⟨?_, ih fun s hs => hs2 s (by simp [hs])⟩
    rcases a with ⟨ar, ap⟩
    rcases b with ⟨br, bp⟩
    obtain ⟨h1, h2⟩ := hab
    simp only at h1 h2
    subst h2
    simp only [PState.mk.injEq, and_true]
    have hb : VMap.Sorted Rule.lt br := hs2 ⟨br, ap⟩ (by simp)
    have hperm : (iter ar).Perm br := (hi ar).trans h1
    have hk : ((iter ar).map Prod.fst).Nodup := (hperm.map Prod.fst).nodup_iff.2 (keys_of_sorted hb)
    refine List.Perm.eq_of_pairwise (le := fun a b : Rule W × Labels => Rule.lt a.1 b.1 = true) ?_ (sortRules_sorted _ hk) hb
      ((sortBy_perm _ _).trans hperm)
    intro a b _ _ h3 h4
    exact absurd h4 (by simp [Rule.lt_total.asymm h3])

end Verif.HPda
