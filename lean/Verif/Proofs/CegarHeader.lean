import Verif.Model.Cegar
import Verif.Spec.Headers
import Verif.Proofs.NfaRun
import Verif.Proofs.Mapping
import Verif.Props.Nfa

/-! # Headers of the reconstruction: `update_header`, `finalize_header` -/

namespace Verif.Cegar

open Verif

/-- The states of a path: states of the automaton that accept or have an edge with symbols. -/
def PathOK (n : Nfa) (path : List Nat) : Prop := ∀ q ∈ path, q ∈ n.ptrs ∧ n.Useful q

theorem checkPath_iff {n : Nfa} (hn : n.WF) {path : List Nat} (hp : PathOK n path) (l i : Nat) :
    checkPath n path l i = true ↔ ReadsAt n path i l := by
  unfold checkPath ReadsAt
  cases hq : path[i]? with
  | none => simp
  | some q =>
    have hqm : q ∈ path := List.mem_of_getElem? hq
    simp only [Option.some.injEq]
    rw [Nfa.hasAsSuccessor_spec hn]
    · constructor
      · rintro ⟨⟨p, hpS, r, h1, h2⟩, -⟩
        refine ⟨q, rfl, p, ?_, r, h1, h2⟩
        by_cases hi : i = 0
        · simpa [hi] using hpS
        · simp only [hi, if_false] at hpS ⊢
          have : i - 1 < path.length := by
            have := (List.getElem?_eq_some_iff.1 hq).1; omega
          rw [List.getElem?_eq_getElem this] at hpS ⊢
          simp at hpS
          rw [hpS]
      · rintro ⟨_, rfl, p, hp', r, h1, h2⟩
        refine ⟨⟨p, ?_, r, h1, h2⟩, (hp _ hqm).2⟩
        by_cases hi : i = 0
        · simpa [hi] using hp'
        · simp only [hi, if_false] at hp' ⊢
          rw [hp']; simp
    · intro x hx
      by_cases hi : i = 0
      · simp only [hi, if_true] at hx
        exact hn.init x hx
      · simp only [hi, if_false] at hx
        have : i - 1 < path.length := by
          have := (List.getElem?_eq_some_iff.1 hq).1; omega
        rw [List.getElem?_eq_getElem this] at hx
        simp at hx
        rw [hx]
        exact (hp _ (List.getElem_mem this)).1

/-- A path that ends in an accepting state (if it is empty: an initial state accepts): the stack is accepted. -/
theorem along_lang {n : Nfa} {path s : List Nat} (h : Along n path s)
    (hacc : match path.getLast? with | some q => n.Acc q | none => n.Lang []) : n.Lang s := by
  have key : ∀ (path s : List Nat) (p0 : Nat), s.length = path.length →
      (∀ i l, s[i]? = some l → ∃ q, path[i]? = some q ∧ ∃ p, (if i = 0 then p = p0 else path[i - 1]? = some p) ∧
        ∃ r, n.Sym p l r ∧ WPath n.Eps n.Sym r [] q) →
      WPath n.Eps n.Sym p0 s ((path.getLast?).getD p0) := by
    intro path
    induction path with
    | nil => intro s p0 hl _; cases s <;> simp at hl; exact .nil _
    | cons q path ih =>
      intro s p0 hl hr
      cases s with
      | nil => simp at hl
      | cons l s =>
        obtain ⟨q', hq', p, hp, r, h1, h2⟩ := hr 0 l rfl
        simp at hq' hp; subst hq' hp
        have hrest : WPath n.Eps n.Sym q s ((path.getLast?).getD q) := by
          refine ih s q (by simpa using hl) fun i l' hi => ?_
          obtain ⟨q2, hq2, p2, hp2, r2, h3, h4⟩ := hr (i + 1) l' (by simpa using hi)
          refine ⟨q2, by simpa using hq2, p2, ?_, r2, h3, h4⟩
          simp only [Nat.add_one_ne_zero, if_false, Nat.add_sub_cancel] at hp2
          cases i with
          | zero => simpa using hp2.symm
          | succ i => simpa using hp2
        have hcat : ∀ {a b : Nat}, WPath n.Eps n.Sym a [] b → ∀ {w c}, WPath n.Eps n.Sym b w c → WPath n.Eps n.Sym a w c := by
          intro a b hab
          generalize hw0 : ([] : List Nat) = w0 at hab
          induction hab with
          | nil => intro w c h; exact h
          | eps h _ ih => intro w c h'; exact .eps h (ih hw0 h')
          | sym => cases hw0
        have : ((q :: path).getLast?).getD p = (path.getLast?).getD q := by
          cases path <;> simp [List.getLast?_cons]
        rw [this]
        exact .sym h1 (hcat h2 hrest)
  obtain ⟨hl, hr⟩ := h
  cases path with
  | nil =>
    cases s <;> simp at hl
    simpa using hacc
  | cons q path =>
    cases s with
    | nil => simp at hl
    | cons l s =>
      obtain ⟨q', hq', p, hp, r, h1, h2⟩ := hr 0 l rfl
      simp only [if_true] at hp
      refine ⟨p, hp, ((q :: path).getLast?).getD p, ?_, key (q :: path) (l :: s) p hl ?_⟩
      · cases hq : (q :: path).getLast? with
        | none => simp at hq
        | some x => rw [hq] at hacc; simpa using hacc
      · intro i l' hi
        obtain ⟨q2, hq2, p2, hp2, r2, h3, h4⟩ := hr i l' hi
        cases i with
        | zero =>
          simp at hi; subst hi
          exact ⟨q', hq', p, by simp, r, h1, h2⟩
        | succ i => exact ⟨q2, hq2, p2, by simpa using hp2, r2, h3, h4⟩

/-! ## Popping and pushing -/

section
variable {n : Nfa} {path : List Nat}

theorem stands_cons_conc (w : Nat) (c : List Nat) (l x : Nat) (s : List Nat) :
    Stands n path w (c ++ [l]) (x :: s) ↔ x = l ∧ Stands n path w c s := by
  unfold Stands
  simp only [List.reverse_append, List.reverse_cons, List.reverse_nil, List.nil_append, List.singleton_append,
    List.cons_append, List.cons.injEq]
  constructor
  · rintro ⟨ws, ⟨h1, h2⟩, h3⟩; exact ⟨h1, ws, h2, h3⟩
  · rintro ⟨h1, ws, h2, h3⟩; exact ⟨ws, ⟨h1, h2⟩, h3⟩

theorem stands_cons_wild {w : Nat} (hw : w + 1 ≤ path.length) (x : Nat) (s : List Nat) :
    Stands n path (w + 1) [] (x :: s) ↔ ReadsAt n path (path.length - (w + 1)) x ∧ Stands n path w [] s := by
  unfold Stands
  simp only [List.reverse_nil, List.nil_append]
  constructor
  · rintro ⟨ws, rfl, h2, h3⟩
    refine ⟨by simpa using h3 0 x rfl, s, rfl, by simpa using h2, fun j l hj => ?_⟩
    have := h3 (j + 1) l (by simpa using hj)
    rwa [show path.length - (w + 1) + (j + 1) = path.length - w + j by omega] at this
  · rintro ⟨h1, ws, rfl, h2, h3⟩
    refine ⟨x :: s, rfl, by simpa using h2, fun j l hj => ?_⟩
    cases j with
    | zero => simp at hj; subst hj; simpa using h1
    | succ j =>
      have := h3 j l (by simpa using hj)
      rwa [show path.length - (w + 1) + (j + 1) = path.length - w + j by omega]

theorem stands_append (w : Nat) (c post s : List Nat) :
    Stands n path w (c ++ post) s ↔ ∃ rest, s = post.reverse ++ rest ∧ Stands n path w c rest := by
  unfold Stands
  simp only [List.reverse_append, List.append_assoc]
  constructor
  · rintro ⟨ws, rfl, h⟩; exact ⟨_, rfl, ws, rfl, h⟩
  · rintro ⟨_, rfl, ws, rfl, h⟩; exact ⟨ws, rfl, h⟩

theorem stands_length {w : Nat} {c s : List Nat} (h : Stands n path w c s) : s.length = w + c.length := by
  obtain ⟨ws, rfl, h2, -⟩ := h; simp; omega

theorem stands_zero (c s : List Nat) : Stands n path 0 c s ↔ s = c.reverse := by
  unfold Stands
  constructor
  · rintro ⟨ws, rfl, h2, -⟩; simp [List.length_eq_zero_iff.1 h2]
  · rintro rfl; exact ⟨[], by simp, rfl, by simp⟩

end

/-- The stacks a header stands for. -/
def Recon.Fits (k : Recon) (h : Header) (s : List Nat) : Prop := Stands k.initNfa k.initPath h.wild h.conc s

/-- What the reconstruction is built from. -/
structure Recon.WF (k : Recon) : Prop where
  map : RMap.Inv k.map
  init : k.initNfa.WF
  fin : k.finNfa.WF
  initPath : PathOK k.initNfa k.initPath
  finPath : PathOK k.finNfa k.finPath

/-- At each position of the initial path some label of the class given by the initial abstract stack can be read. -/
def Recon.Covered (k : Recon) : Prop :=
  ∀ i < k.initPath.length, ∃ l, k.map.find l = some ((k.initStack[i]?).getD 0) ∧ ReadsAt k.initNfa k.initPath i l

variable {k : Recon}

theorem fits_pop {h : Header} (hw : h.wild ≤ k.initPath.length) (x : Nat) (s : List Nat)
    (hx : k.Fits h (x :: s)) : k.Fits h.pop s := by
  unfold Recon.Fits at *
  rcases h with ⟨w, c⟩
  unfold Header.pop
  rcases List.eq_nil_or_concat c with rfl | ⟨c, l, rfl⟩
  · cases w with
    | zero => have := stands_length hx; simp at this
    | succ w => exact ((stands_cons_wild hw x s).1 hx).2
  · simpa using ((stands_cons_conc w c l x s).1 (by simpa using hx)).2

theorem pop_wild_le (h : Header) : h.pop.wild ≤ h.wild := by
  unfold Header.pop; split <;> simp

theorem pop_size (h : Header) : h.pop.size = h.size - 1 := by
  rcases h with ⟨w, c⟩
  unfold Header.pop Header.size
  rcases List.eq_nil_or_concat c with rfl | ⟨c, l, rfl⟩
  · simp
  · simp

/-- `popMany`: the popped labels, those found for wildcards, and the stacks of the header afterwards. -/
theorem popMany_spec (hk : k.WF) : ∀ (n : Nat) (h : Header) (ls : List Nat) {h' : Header} {ls' : List Nat},
    k.popMany n h ls = some (h', ls') → h.wild ≤ k.initPath.length → n ≤ h.size →
    h'.wild ≤ h.wild ∧ h'.size = h.size - n ∧
    ∃ new, ls' = ls ++ new ∧ (h.conc.reverse.take n ++ new).length = n ∧
      (∀ j l, new[j]? = some l → k.map.find l = some ((k.initStack[k.initPath.length - h.wild + j]?).getD 0)) ∧
      (∀ rest, k.Fits h' rest → k.Fits h (h.conc.reverse.take n ++ new ++ rest)) ∧
      ∀ popped rest, popped.length = n → k.Fits h (popped ++ rest) → k.Fits h' rest := by
  intro n
  induction n with
  | zero =>
    intro h ls h' ls' he hw _
    simp only [Recon.popMany, Option.some.injEq, Prod.mk.injEq] at he
    obtain ⟨rfl, rfl⟩ := he
    refine ⟨le_rfl, by omega, [], by simp, by simp, by simp, by simp, ?_⟩
    intro popped rest hp
    have : popped = [] := List.length_eq_zero_iff.1 hp
    simp [this]
  | succ n ih =>
    intro h ls h' ls' he hw hn
    have hpop : ∀ popped rest, popped.length = n + 1 → k.Fits h (popped ++ rest) →
        ∃ popped', popped'.length = n ∧ k.Fits h.pop (popped' ++ rest) := by
      intro popped rest hp hf
      cases popped with
      | nil => simp at hp
      | cons x p => exact ⟨p, by simpa using hp, fits_pop hw x _ hf⟩
    rcases h with ⟨w, c⟩
    rcases List.eq_nil_or_concat c with rfl | ⟨c, l, rfl⟩
    · simp only [Recon.popMany, Header.topIsConcrete, List.isEmpty_nil, Bool.not_true, Bool.false_eq_true, if_false] at he
      obtain ⟨l, hl, he⟩ := Option.bind_eq_some_iff.1 he
      cases w with
      | zero => simp [Header.size] at hn
      | succ w =>
        have hpw : (Header.pop ⟨w + 1, []⟩) = ⟨w, []⟩ := by simp [Header.pop]
        rw [hpw] at he hpop
        simp only at hw
        obtain ⟨h1, h2, new, h3, h4, h5, h6, h7⟩ := ih ⟨w, []⟩ _ he (by simp; omega) (by simp [Header.size] at hn ⊢; omega)
        simp only at h1
        unfold Recon.findWildcard at hl
        have hlr := List.find?_some hl
        have hlm := (RMap.mem_concrete hk.map _ _).1 (List.mem_of_find?_eq_some hl)
        simp only at hlr hlm
        rw [checkPath_iff hk.init hk.initPath] at hlr
        refine ⟨by simp; omega, by simp [Header.size] at h2 ⊢; omega, l :: new, by simp [h3], ?_, ?_, ?_, ?_⟩
        · simpa using h4
        · intro j x hj
          cases j with
          | zero => simp at hj; subst hj; simpa using hlm
          | succ j =>
            have := h5 j x (by simpa using hj)
            simp only at this ⊢
            rwa [show k.initPath.length - (w + 1) + (j + 1) = k.initPath.length - w + j by omega]
        · intro rest hr
          have := h6 rest hr
          unfold Recon.Fits at this ⊢
          simp only [List.reverse_nil, List.take_nil, List.nil_append, List.cons_append] at this ⊢
          exact (stands_cons_wild hw l _).2 ⟨hlr, this⟩
        · intro popped rest hp hf
          obtain ⟨p', hp', hf'⟩ := hpop popped rest hp hf
          exact h7 p' rest hp' hf'
    · have hc : (c ++ [l]).isEmpty = false := by cases c <;> rfl
      have hpw : (Header.pop ⟨w, c.concat l⟩) = ⟨w, c⟩ := by simp [Header.pop]
      rw [hpw] at hpop
      simp only [List.concat_eq_append] at *
      simp only [Recon.popMany, Header.topIsConcrete, hc, Bool.not_false, if_true, hpw] at he
      obtain ⟨h1, h2, new, h3, h4, h5, h6, h7⟩ := ih ⟨w, c⟩ _ he hw (by simp [Header.size] at hn ⊢; omega)
      refine ⟨h1, by simp [Header.size] at h2 ⊢; omega, new, h3, ?_, h5, ?_, ?_⟩
      · simp at h4 ⊢; omega
      · intro rest hr
        have := h6 rest hr
        unfold Recon.Fits at this ⊢
        simp only [List.reverse_append, List.reverse_cons, List.reverse_nil, List.nil_append, List.singleton_append,
          List.take_succ_cons, List.cons_append]
        exact (stands_cons_conc w c l l _).2 ⟨rfl, this⟩
      · intro popped rest hp hf
        obtain ⟨p', hp', hf'⟩ := hpop popped rest hp hf
        exact h7 p' rest hp' hf'

theorem popMany_some (hk : k.WF) (hc : k.Covered) : ∀ (n : Nat) (h : Header) (ls : List Nat),
    h.wild ≤ k.initPath.length → n ≤ h.size → ∃ r, k.popMany n h ls = some r := by
  intro n
  induction n with
  | zero => intro h ls _ _; exact ⟨_, rfl⟩
  | succ n ih =>
    intro h ls hw hn
    have hs := pop_size h
    have hpw := Nat.le_trans (pop_wild_le h) hw
    unfold Recon.popMany
    split
    · exact ih _ _ hpw (by omega)
    · rename_i ht
      have hc0 : h.conc = [] := by
        simp only [Header.topIsConcrete, Bool.not_eq_true, Bool.not_eq_false', List.isEmpty_iff] at ht
        exact ht
      have hw0 : 0 < h.wild := by simp only [Header.size, hc0, List.length_nil] at hn; omega
      obtain ⟨l, h1, h2⟩ := hc (k.initPath.length - h.wild) (by omega)
      have : ∃ l', k.findWildcard h = some l' := by
        unfold Recon.findWildcard
        rw [← Option.isSome_iff_exists, List.find?_isSome]
        exact ⟨l, (RMap.mem_concrete hk.map _ _).2 h1, (checkPath_iff hk.init hk.initPath _ _).2 h2⟩
      obtain ⟨l', hl'⟩ := this
      rw [hl']
      exact ih _ _ hpw (by omega)

theorem preMatches_iff (hk : k.WF) {h : Header} (hw : h.wild ≤ k.initPath.length) (h0 : 0 < h.size) (pre : Nat)
    (rest : List Nat) : k.Fits h (pre :: rest) ↔ k.preMatches h pre = true ∧ k.Fits h.pop rest := by
  rcases h with ⟨w, c⟩
  unfold Recon.Fits Recon.preMatches Header.pop
  rcases List.eq_nil_or_concat c with rfl | ⟨c, l, rfl⟩
  · cases w with
    | zero => simp [Header.size] at h0
    | succ w =>
      simp only [List.getLast?_nil, List.isEmpty_nil, if_true]
      rw [checkPath_iff hk.init hk.initPath]
      exact stands_cons_wild hw pre rest
  · simp only [List.concat_eq_append, List.getLast?_append, List.getLast?_singleton, Option.some_or, beq_iff_eq]
    have hc : (c ++ [l]).isEmpty = false := by cases c <;> rfl
    rw [stands_cons_conc]
    simp only [hc, Bool.false_eq_true, if_false, List.dropLast_concat]
    exact and_congr_left fun _ => eq_comm

/-! ## The end of a trace -/

theorem path_sources {n : Nfa} (hn : n.WF) {path : List Nat} (hp : PathOK n path) {i q : Nat} (hq : path[i]? = some q) :
    ∀ x ∈ (if i = 0 then n.initial else [(path[i - 1]?).getD 0]), x ∈ n.ptrs := by
  intro x hx
  by_cases hi : i = 0
  · simp only [hi, if_true] at hx
    exact hn.init x hx
  · simp only [hi, if_false] at hx
    have : i - 1 < path.length := by
      have := (List.getElem?_eq_some_iff.1 hq).1; omega
    rw [List.getElem?_eq_getElem this] at hx
    simp at hx
    rw [hx]
    exact (hp _ (List.getElem_mem this)).1

theorem edgeLabels_sound {n : Nfa} (hn : n.WF) {path : List Nat} (hp : PathOK n path) {labels : List Nat}
    (hl : SSorted labels) {i l : Nat} (h : l ∈ edgeLabels n path labels i) : l ∈ labels ∧ ReadsAt n path i l := by
  unfold edgeLabels at h
  cases hq : path[i]? with
  | none => simp [hq] at h
  | some q =>
    simp only [hq] at h
    obtain ⟨h1, p, hpS, r, h2, h3⟩ := Props.c29_sound hn (path_sources hn hp hq) q hl l h
    refine ⟨h1, q, hq, p, ?_, r, h2, h3⟩
    by_cases hi : i = 0
    · simpa [hi] using hpS
    · simp only [hi, if_false] at hpS ⊢
      have : i - 1 < path.length := by
        have := (List.getElem?_eq_some_iff.1 hq).1; omega
      rw [List.getElem?_eq_getElem this] at hpS ⊢
      simp at hpS
      rw [hpS]

theorem checkConcrete_none (hk : k.WF) : ∀ (ls : List Nat) (i : Nat), k.checkConcrete ls i = none ↔
    ∀ j l, ls[j]? = some l → ReadsAt k.finNfa k.finPath (i + j) l := by
  intro ls
  induction ls with
  | nil => simp [Recon.checkConcrete]
  | cons x ls ih =>
    intro i
    unfold Recon.checkConcrete
    split
    · rename_i hc
      rw [checkPath_iff hk.fin hk.finPath] at hc
      rw [ih]
      constructor
      · intro h j l hj
        cases j with
        | zero => simp at hj; subst hj; simpa using hc
        | succ j => have := h j l (by simpa using hj); rwa [show i + 1 + j = i + (j + 1) by omega] at this
      · intro h j l hj
        have := h (j + 1) l (by simpa using hj); rwa [show i + 1 + j = i + (j + 1) by omega]
    · rename_i hc
      rw [checkPath_iff hk.fin hk.finPath] at hc
      simp only [reduceCtorEq, false_iff]
      intro h
      exact hc (by simpa using h 0 x rfl)

/-- The labels that can be read at position `i` of the final path, as the code finds them. -/
def Recon.finLabels (k : Recon) (i : Nat) : List Nat :=
  edgeLabels k.finNfa k.finPath (sortBy ltB (k.map.concrete ((k.finStack[i]?).getD 0))) i

theorem checkConcrete_some (hk : k.WF) : ∀ (ls : List Nat) (i : Nat) (r : Refinement Nat), k.checkConcrete ls i = some r →
    ∃ j l, ls[j]? = some l ∧ ¬ ReadsAt k.finNfa k.finPath (i + j) l ∧
      r = Refinement.ofPair [l] (k.finLabels (i + j)) ((k.finStack[i + j]?).getD 0) := by
  intro ls
  induction ls with
  | nil => simp [Recon.checkConcrete]
  | cons x ls ih =>
    intro i r h
    unfold Recon.checkConcrete at h
    split at h
    · obtain ⟨j, l, h1, h2, h3⟩ := ih _ _ h
      rw [show i + 1 + j = i + (j + 1) by omega] at h2 h3
      exact ⟨j + 1, l, by simpa using h1, h2, h3⟩
    · rename_i hc
      rw [checkPath_iff hk.fin hk.finPath] at hc
      exact ⟨0, x, rfl, hc, by simpa [Recon.finLabels] using h.symm⟩

theorem scanLabels_spec (hk : k.WF) (i j : Nat) : ∀ (ls a b : List Nat),
    (∀ l a' b', k.scanLabels i j ls a b = (some l, a', b') →
      l ∈ ls ∧ ReadsAt k.initNfa k.initPath i l ∧ ReadsAt k.finNfa k.finPath j l) ∧
    ∀ a' b', k.scanLabels i j ls a b = (none, a', b') →
      a' = a ++ ls.filter (fun l => checkPath k.initNfa k.initPath l i) ∧
      b' = b ++ ls.filter (fun l => checkPath k.finNfa k.finPath l j) ∧
      ∀ l ∈ ls, ¬(ReadsAt k.initNfa k.initPath i l ∧ ReadsAt k.finNfa k.finPath j l) := by
  intro ls
  induction ls with
  | nil =>
    intro a b
    refine ⟨by simp [Recon.scanLabels], fun a' b' h => ?_⟩
    simp only [Recon.scanLabels, Prod.mk.injEq, true_and] at h
    simp [h.1, h.2]
  | cons x ls ih =>
    intro a b
    have e1 := checkPath_iff hk.init hk.initPath x i
    have e2 := checkPath_iff hk.fin hk.finPath x j
    unfold Recon.scanLabels
    cases h1 : checkPath k.initNfa k.initPath x i <;> cases h2 : checkPath k.finNfa k.finPath x j <;>
      simp only [h1, h2, Bool.and_true, Bool.and_false, Bool.true_and, if_true, if_false, Bool.false_eq_true] <;>
      rw [h1] at e1 <;> rw [h2] at e2 <;>
      simp only [Bool.false_eq_true, false_iff, true_iff] at e1 e2
    · obtain ⟨i1, i2⟩ := ih a b
      refine ⟨fun l a' b' h => ⟨List.mem_cons_of_mem _ (i1 l a' b' h).1, (i1 l a' b' h).2⟩, fun a' b' h => ?_⟩
      obtain ⟨j1, j2, j3⟩ := i2 a' b' h
      refine ⟨by simp [List.filter_cons, h1, j1], by simp [List.filter_cons, h2, j2], ?_⟩
      intro l hl
      rcases List.mem_cons.1 hl with rfl | hl
      · exact fun hh => e1 hh.1
      · exact j3 l hl
    · obtain ⟨i1, i2⟩ := ih a (b ++ [x])
      refine ⟨fun l a' b' h => ⟨List.mem_cons_of_mem _ (i1 l a' b' h).1, (i1 l a' b' h).2⟩, fun a' b' h => ?_⟩
      obtain ⟨j1, j2, j3⟩ := i2 a' b' h
      refine ⟨by simp [List.filter_cons, h1, j1], by simp [List.filter_cons, h2, j2], ?_⟩
      intro l hl
      rcases List.mem_cons.1 hl with rfl | hl
      · exact fun hh => e1 hh.1
      · exact j3 l hl
    · obtain ⟨i1, i2⟩ := ih (a ++ [x]) b
      refine ⟨fun l a' b' h => ⟨List.mem_cons_of_mem _ (i1 l a' b' h).1, (i1 l a' b' h).2⟩, fun a' b' h => ?_⟩
      obtain ⟨j1, j2, j3⟩ := i2 a' b' h
      refine ⟨by simp [List.filter_cons, h1, j1], by simp [List.filter_cons, h2, j2], ?_⟩
      intro l hl
      rcases List.mem_cons.1 hl with rfl | hl
      · exact fun hh => e2 hh.2
      · exact j3 l hl
    · refine ⟨fun l a' b' h => ?_, fun a' b' h => by simp at h⟩
      simp only [Prod.mk.injEq, Option.some.injEq] at h
      rw [← h.1]
      exact ⟨by simp, e1, e2⟩

/-- The class of the initial abstract stack at position `i`, filtered. -/
def Recon.initOK (k : Recon) (label i : Nat) : List Nat :=
  (k.map.concrete label).filter fun l => checkPath k.initNfa k.initPath l i

/-- The class, filtered by what can be read at position `j` of the final path. -/
def Recon.finOK (k : Recon) (label j : Nat) : List Nat :=
  (k.map.concrete label).filter fun l => checkPath k.finNfa k.finPath l j

theorem concretize_ok (hk : k.WF) : ∀ (c : Nat) (stack : List Nat) (h : Header), k.concretize c stack = .ok h →
    h.wild = 0 ∧ ∃ ws : List Nat, h.conc.reverse = stack ++ ws ∧ ws.length = c ∧
      ∀ j l, ws[j]? = some l → j < c ∧ k.map.find l = some ((k.initStack[k.initStack.length - (c - j)]?).getD 0) ∧
        ReadsAt k.initNfa k.initPath (k.initPath.length - (c - j)) l ∧
        ReadsAt k.finNfa k.finPath (k.finPath.length - (c - j)) l := by
  intro c
  induction c with
  | zero =>
    intro stack h he
    simp only [Recon.concretize, Except.ok.injEq] at he
    subst he
    exact ⟨rfl, [], by simp, rfl, by simp⟩
  | succ c ih =>
    intro stack h he
    unfold Recon.concretize at he
    dsimp only at he
    split at he
    · rename_i l a b hs
      obtain ⟨h1, h2, h3⟩ := (scanLabels_spec hk _ _ _ _ _).1 l a b hs
      obtain ⟨i1, ws, i2, i3, i4⟩ := ih _ _ he
      refine ⟨i1, l :: ws, by simp [i2], by simp [i3], fun j x hj => ?_⟩
      cases j with
      | zero =>
        simp at hj; subst hj
        exact ⟨by omega, (RMap.mem_concrete hk.map _ _).1 h1, h2, h3⟩
      | succ j =>
        obtain ⟨a1, a2, a3, a4⟩ := i4 j x (by simpa using hj)
        rw [show c + 1 - (j + 1) = c - j by omega]
        exact ⟨by omega, a2, a3, a4⟩
    · cases he

theorem concretize_error (hk : k.WF) : ∀ (c : Nat) (stack : List Nat) (r : Refinement Nat),
    k.concretize c stack = .error r → ∃ d, 0 < d ∧ d ≤ c ∧
      r = Refinement.ofPair (k.initOK ((k.initStack[k.initStack.length - d]?).getD 0) (k.initPath.length - d))
        (k.finOK ((k.initStack[k.initStack.length - d]?).getD 0) (k.finPath.length - d))
        ((k.initStack[k.initStack.length - d]?).getD 0) ∧
      ∀ l, k.map.find l = some ((k.initStack[k.initStack.length - d]?).getD 0) →
        ¬(ReadsAt k.initNfa k.initPath (k.initPath.length - d) l ∧ ReadsAt k.finNfa k.finPath (k.finPath.length - d) l) := by
  intro c
  induction c with
  | zero => intro stack r h; simp [Recon.concretize] at h
  | succ c ih =>
    intro stack r he
    unfold Recon.concretize at he
    dsimp only at he
    split at he
    · obtain ⟨d, h1, h2, h3⟩ := ih _ _ he
      exact ⟨d, h1, by omega, h3⟩
    · rename_i a b hs
      obtain ⟨h1, h2, h3⟩ := (scanLabels_spec hk _ _ _ _ _).2 a b hs
      cases he
      refine ⟨c + 1, by omega, Nat.le_refl _, ?_, fun l hl => h3 l ((RMap.mem_concrete hk.map _ _).2 hl)⟩
      rw [h1, h2]
      simp [Recon.initOK, Recon.finOK]

end Verif.Cegar
