import Verif.Proofs.CegarFinal
import Verif.Props.Cegar

/-!
# C64: headers in the reconstruction of concrete traces

`Stands n path wild conc s` (`Spec/Headers.lean`): the stack `s` (top first) has the known labels `conc` on top and `wild`
more labels, which the initial automaton can read along the last part of the path. `Recon.WF`: the automata and the map of
labels are well-formed, and the states of the two paths are states of the automata that accept or have an edge with
symbols, as the constructor of the P-automaton keeps them. `Recon.Covered`: each position of the initial abstract stack has
a label that the automaton can read there, which the edges of the abstract automaton stand for.
-/

namespace Verif.Props

open Verif.Cegar

variable {k : Recon}

/-- `initial_header()` stands for all stacks that the initial automaton can read along the path. -/
theorem c64_initial (k : Recon) (s : List Nat) :
    Stands k.initNfa k.initPath k.initialHeader.wild k.initialHeader.conc s ↔ Along k.initNfa k.initPath s := by
  unfold Stands Along Recon.initialHeader
  simp only [List.reverse_nil, List.nil_append, Nat.sub_self, Nat.zero_add]
  constructor
  · rintro ⟨ws, rfl, h⟩; exact h
  · intro h; exact ⟨s, rfl, h⟩

/-- A stack along the initial path, if the path ends in an accepting state, is a word of the initial automaton. -/
theorem c64_initial_word {s : List Nat} (h : Along k.initNfa k.initPath s)
    (hacc : match k.initPath.getLast? with | some q => k.initNfa.Acc q | none => k.initNfa.Lang []) :
    k.initNfa.Lang s := along_lang h hacc

theorem covered_stands (hk : k.WF) (hc : k.Covered) (w : Nat) (hw : w ≤ k.initPath.length) :
    ∃ ws : List Nat, Stands k.initNfa k.initPath w [] ws := by
  induction w with
  | zero => exact ⟨[], (stands_zero [] []).2 rfl⟩
  | succ w ih =>
    obtain ⟨ws, h⟩ := ih (by omega)
    obtain ⟨l, -, hl⟩ := hc (k.initPath.length - (w + 1)) (by omega)
    exact ⟨l :: ws, (stands_cons_wild hw l ws).2 ⟨hl, h⟩⟩

theorem covered_fits (hk : k.WF) (hc : k.Covered) (h : Header) (hw : h.wild ≤ k.initPath.length) :
    ∃ s : List Nat, k.Fits h s := by
  obtain ⟨ws, hs⟩ := covered_stands hk hc h.wild hw
  have : Stands k.initNfa k.initPath h.wild ([] ++ h.conc) (h.conc.reverse ++ ws) :=
    (stands_append h.wild [] h.conc _).2 ⟨ws, rfl, hs⟩
  exact ⟨_, by simpa [Recon.Fits] using this⟩

/-- C64: `update_header_wildcard_pre` pops and pushes: the new header stands for exactly the stacks got by replacing the
top `pops` labels of a stack of the old header by `post`. The labels returned, below the known ones, are a valid choice for
the popped wildcards, whatever the rest of the stack, and have the classes of the initial abstract stack. -/
theorem c64_update_wildcard (hk : k.WF) (hc : k.Covered) {h : Header} (hw : h.wild ≤ k.initPath.length) {pops : Nat}
    (hn : pops ≤ h.wild + h.conc.length) (post : List Nat) :
    ∃ h' ls, k.updateWildcardPre h post pops = some (h', ls) ∧ h'.wild ≤ h.wild ∧
      h'.wild + h'.conc.length = h.wild + h.conc.length - pops + post.length ∧
      (∀ s', Stands k.initNfa k.initPath h'.wild h'.conc s' ↔ ∃ popped rest, popped.length = pops ∧
        s' = post.reverse ++ rest ∧ Stands k.initNfa k.initPath h.wild h.conc (popped ++ rest)) ∧
      (∀ rest, Stands k.initNfa k.initPath h'.wild h'.conc (post.reverse ++ rest) →
        Stands k.initNfa k.initPath h.wild h.conc (h.conc.reverse.take pops ++ ls ++ rest)) ∧
      (h.conc.reverse.take pops ++ ls).length = pops ∧
      ∀ j l, ls[j]? = some l → k.map.find l = some ((k.initStack[k.initPath.length - h.wild + j]?).getD 0) := by
  obtain ⟨⟨h1, ls⟩, he⟩ := popMany_some hk hc pops h [] hw hn
  obtain ⟨a1, a2, new, a3, a4, a5, a6, a7⟩ := popMany_spec hk pops h [] he hw hn
  simp only [List.nil_append] at a3
  subst a3
  have hap : ∀ s', Stands k.initNfa k.initPath h1.wild (h1.conc ++ post) s' ↔
      ∃ rest, s' = post.reverse ++ rest ∧ k.Fits h1 rest := fun s' => stands_append _ _ _ _
  refine ⟨h1.append post, ls, by simp [Recon.updateWildcardPre, he], a1, ?_, ?_, ?_, a4, a5⟩
  · simp only [Header.size] at a2
    simp only [Header.append, List.length_append]
    omega
  · intro s'
    rw [Header.append, hap]
    constructor
    · rintro ⟨rest, rfl, hr⟩
      exact ⟨_, rest, a4, rfl, a6 rest hr⟩
    · rintro ⟨popped, rest, hp, rfl, hf⟩
      exact ⟨rest, rfl, a7 popped rest hp hf⟩
  · intro rest hr
    rw [Header.append, hap] at hr
    obtain ⟨rest', he', hr'⟩ := hr
    rw [List.append_cancel_left he']
    exact a6 rest' hr'

/-- C64: `update_header` gives no header exactly if no stack of the header has `pre` on top; otherwise the new header stands
for exactly the stacks got by popping `pre` and `pops` more labels and pushing `post`, and the labels returned are a valid
choice for popped wildcards. -/
theorem c64_update (hk : k.WF) (hc : k.Covered) {h : Header} (hw : h.wild ≤ k.initPath.length) {pops : Nat}
    (hn : 1 + pops ≤ h.wild + h.conc.length) (pre : Nat) (post : List Nat) :
    ∃ res, k.updateHeader h pre post pops = some res ∧
      (res = none ↔ ∀ rest, ¬ Stands k.initNfa k.initPath h.wild h.conc (pre :: rest)) ∧
      ∀ h' ls, res = some (h', ls) → h'.wild ≤ h.wild ∧
        h'.wild + h'.conc.length + 1 + pops = h.wild + h.conc.length + post.length ∧
        (∀ s', Stands k.initNfa k.initPath h'.wild h'.conc s' ↔ ∃ popped rest, popped.length = pops ∧
          s' = post.reverse ++ rest ∧ Stands k.initNfa k.initPath h.wild h.conc (pre :: popped ++ rest)) ∧
        (∀ rest, Stands k.initNfa k.initPath h'.wild h'.conc (post.reverse ++ rest) →
          Stands k.initNfa k.initPath h.wild h.conc (pre :: (h.conc.reverse.tail.take pops ++ ls) ++ rest)) ∧
        (h.conc.reverse.tail.take pops ++ ls).length = pops := by
  have hpm := fun rest => preMatches_iff hk hw (by simp only [Header.size]; omega) pre rest
  have hpw := Nat.le_trans (pop_wild_le h) hw
  have hps : h.pop.wild + h.pop.conc.length = h.wild + h.conc.length - 1 := pop_size h
  have hpc : h.pop.conc.reverse = h.conc.reverse.tail := by
    unfold Header.pop
    rcases List.eq_nil_or_concat h.conc with h0 | ⟨c, l, h0⟩ <;> simp [h0]
  unfold Recon.updateHeader
  by_cases hm : k.preMatches h pre = true
  · obtain ⟨h', ls, b1, b2, b3, b4, b5, b6, -⟩ := c64_update_wildcard hk hc hpw (pops := pops) (by omega) post
    refine ⟨some (h', ls), by simp [hm, b1], ?_, ?_⟩
    · simp only [reduceCtorEq, false_iff]
      intro hh
      obtain ⟨s, hs⟩ := covered_fits hk hc h.pop hpw
      exact hh s ((hpm s).2 ⟨hm, hs⟩)
    · rintro h'' ls'' he
      simp only [Option.some.injEq, Prod.mk.injEq] at he
      obtain ⟨rfl, rfl⟩ := he
      refine ⟨Nat.le_trans b2 (pop_wild_le h), by omega, ?_, ?_, by rwa [← hpc]⟩
      · intro s'
        rw [b4]
        constructor
        · rintro ⟨popped, rest, h1, h2, h3⟩
          exact ⟨popped, rest, h1, h2, (hpm _).2 ⟨hm, h3⟩⟩
        · rintro ⟨popped, rest, h1, h2, h3⟩
          exact ⟨popped, rest, h1, h2, ((hpm _).1 h3).2⟩
      · intro rest hr
        rw [← hpc]
        exact (hpm _).2 ⟨hm, b5 rest hr⟩
  · refine ⟨none, by simp [hm], ?_, by simp⟩
    simp only [true_iff]
    intro rest hr
    exact hm ((hpm rest).1 hr).1

/-- Every label of `pre_labels(header)` is on top of some stack of the header. -/
theorem c64_pre_labels_sound (hk : k.WF) (hc : k.Covered) {h : Header} (hw : h.wild ≤ k.initPath.length) {l : Nat}
    (hl : l ∈ k.preLabels h) : ∃ rest, Stands k.initNfa k.initPath h.wild h.conc (l :: rest) := by
  have hpw := Nat.le_trans (pop_wild_le h) hw
  obtain ⟨s, hs⟩ := covered_fits hk hc h.pop hpw
  suffices hm : k.preMatches h l = true ∧ 0 < h.size from ⟨s, (preMatches_iff hk hw hm.2 l s).2 ⟨hm.1, hs⟩⟩
  unfold Recon.preLabels at hl
  unfold Recon.preMatches Header.size
  rcases List.eq_nil_or_concat h.conc with h0 | ⟨c, x, h0⟩
  · simp only [h0, List.getLast?_nil] at hl ⊢
    split at hl
    · simp at hl
    · refine ⟨?_, by simp; omega⟩
      rw [checkPath_iff hk.init hk.initPath]
      exact (edgeLabels_sound hk.init hk.initPath (concrete_sorted hk.map _) hl).2
  · simp only [h0, List.concat_eq_append, List.getLast?_append, List.getLast?_singleton, Option.some_or,
      List.mem_singleton] at hl ⊢
    exact ⟨by simp [hl], by simp; omega⟩

/-- C64: if different edges to the next state of the initial path read different labels, `pre_labels(header)` lists exactly
the labels of the class that can be on top. The rest is missing because of C29. -/
theorem c64_pre_labels_partial (hk : k.WF) (hc : k.Covered) (he : EdgesClear k.initNfa k.initPath) {h : Header}
    (hw : h.wild ≤ k.initPath.length) (l : Nat) :
    l ∈ k.preLabels h ↔ (∃ rest, Stands k.initNfa k.initPath h.wild h.conc (l :: rest)) ∧
      (h.conc = [] → k.map.find l = some ((k.initStack[k.initPath.length - h.wild]?).getD 0)) := by
  constructor
  · intro hl
    refine ⟨c64_pre_labels_sound hk hc hw hl, fun h0 => ?_⟩
    unfold Recon.preLabels at hl
    simp only [h0, List.getLast?_nil] at hl
    split at hl
    · simp at hl
    · have := (edgeLabels_sound hk.init hk.initPath (concrete_sorted hk.map _) hl).1
      exact (RMap.mem_concrete hk.map _ _).1 ((mem_sortBy _ _ _).1 this)
  · rintro ⟨⟨rest, hr⟩, hcl⟩
    have hlen := stands_length hr
    have hm := ((preMatches_iff hk hw (by simp only [Header.size]; simp at hlen; omega) l rest).1 hr).1
    unfold Recon.preMatches at hm
    unfold Recon.preLabels
    rcases List.eq_nil_or_concat h.conc with h0 | ⟨c, x, h0⟩
    · simp only [h0, List.getLast?_nil] at hm ⊢
      simp only [h0, List.length_cons, List.length_nil] at hlen
      rw [if_neg (by omega)]
      rw [checkPath_iff hk.init hk.initPath] at hm
      exact ((edgeLabels_clear hk.init hk.initPath he (concrete_sorted hk.map _) _).2 l).2
        ⟨(mem_sortBy _ _ _).2 ((RMap.mem_concrete hk.map _ _).2 (hcl h0)), hm⟩
    · simp only [h0, List.concat_eq_append, List.getLast?_append, List.getLast?_singleton, Option.some_or,
        List.mem_singleton, beq_iff_eq] at hm ⊢
      exact hm.symm

/-! ## The final header -/

/-- C64: a header returned by `finalize_header` has no wildcards, and is a stack of the given header that the final
automaton can read along the final path. -/
theorem c64_final_found (hk : k.WF) {h h' : Header} (hw : h.wild ≤ k.initPath.length)
    (hs : h.wild + h.conc.length = k.finPath.length) (hf : k.finalizeHeader h = .ok h') :
    h'.wild = 0 ∧ Stands k.initNfa k.initPath h.wild h.conc h'.conc.reverse ∧
      Along k.finNfa k.finPath h'.conc.reverse := by
  unfold Recon.finalizeHeader at hf
  split at hf
  · cases hf
  · rename_i hn
    rw [checkConcrete_none hk] at hn
    split at hf
    · rename_i h1 hc
      cases hf
      obtain ⟨a1, ws, a2, a3, a4⟩ := concretize_ok hk _ _ _ hc
      simp only [List.nil_append] at a2
      have he : (h1.append h.conc).conc.reverse = h.conc.reverse ++ ws := by simp [Header.append, a2]
      rw [he]
      refine ⟨a1, ⟨ws, rfl, a3, fun j l hj => ?_⟩, ?_, ?_⟩
      · obtain ⟨b1, -, b3, -⟩ := a4 j l hj
        rwa [show k.initPath.length - h.wild + j = k.initPath.length - (h.wild - j) by omega]
      · simp; omega
      · intro i l hi
        by_cases hlt : i < h.conc.reverse.length
        · rw [List.getElem?_append_left hlt] at hi
          simpa using hn i l hi
        · rw [List.getElem?_append_right (by omega)] at hi
          obtain ⟨b1, -, -, b4⟩ := a4 _ l hi
          simp only [List.length_reverse] at hlt b1 b4
          rwa [show k.finPath.length - (h.wild - (i - h.conc.length)) = i by omega] at b4
    · cases hf

/-- The stack has the classes of the initial abstract stack at the last `wild` positions. -/
def WildClass (k : Recon) (wild : Nat) (s : List Nat) : Prop :=
  ∀ j l, j < wild → s[s.length - wild + j]? = some l →
    k.map.find l = some ((k.initStack[k.initStack.length - wild + j]?).getD 0)

/-- The stack has the classes of the final abstract stack at its first positions. -/
def TopClass (k : Recon) (n : Nat) (s : List Nat) : Prop :=
  ∀ j l, j < n → s[j]? = some l → k.map.find l = some ((k.finStack[j]?).getD 0)

/-- The position where a refinement shows the difference. -/
theorem final_position (hk : k.WF) {h : Header} {r : Refinement Nat} (hw : h.wild ≤ k.initPath.length)
    (hp : k.initStack.length = k.initPath.length) (hs : h.wild + h.conc.length = k.finPath.length)
    (hf : k.finalizeHeader h = .error r) :
    (∃ j l, h.conc.reverse[j]? = some l ∧ ¬ ReadsAt k.finNfa k.finPath j l ∧
      r = Refinement.ofPair [l] (k.finLabels j) ((k.finStack[j]?).getD 0)) ∨
    ∃ j < h.wild, r = Refinement.ofPair
        (k.initOK ((k.initStack[k.initStack.length - h.wild + j]?).getD 0) (k.initPath.length - h.wild + j))
        (k.finOK ((k.initStack[k.initStack.length - h.wild + j]?).getD 0) (h.conc.length + j))
        ((k.initStack[k.initStack.length - h.wild + j]?).getD 0) ∧
      ∀ l, k.map.find l = some ((k.initStack[k.initStack.length - h.wild + j]?).getD 0) →
        ¬(ReadsAt k.initNfa k.initPath (k.initPath.length - h.wild + j) l ∧
          ReadsAt k.finNfa k.finPath (h.conc.length + j) l) := by
  unfold Recon.finalizeHeader at hf
  split at hf
  · rename_i r' hr
    cases hf
    obtain ⟨j, l, h1, h2, h3⟩ := checkConcrete_some hk _ _ _ hr
    simp only [Nat.zero_add] at h2 h3
    exact .inl ⟨j, l, h1, h2, h3⟩
  · split at hf
    · cases hf
    · rename_i r' hr
      cases hf
      obtain ⟨d, h1, h2, h3, h4⟩ := concretize_error hk _ _ _ hr
      rw [show k.initStack.length - d = k.initStack.length - h.wild + (h.wild - d) by omega,
        show k.initPath.length - d = k.initPath.length - h.wild + (h.wild - d) by omega,
        show k.finPath.length - d = h.conc.length + (h.wild - d) by omega] at h3 h4
      exact .inr ⟨h.wild - d, by omega, h3, h4⟩

/-- C64: if `finalize_header` returns a refinement, no stack of the header (with wildcards filled by labels of the classes in
the abstract stack) can be read by the final automaton along the final path. -/
theorem c64_final_spurious (hk : k.WF) {h : Header} {r : Refinement Nat} (hw : h.wild ≤ k.initPath.length)
    (hp : k.initStack.length = k.initPath.length) (hs : h.wild + h.conc.length = k.finPath.length)
    (hf : k.finalizeHeader h = .error r) (s : List Nat) (hst : Stands k.initNfa k.initPath h.wild h.conc s)
    (hcl : WildClass k h.wild s) : ¬ Along k.finNfa k.finPath s := by
  rintro ⟨hl, hr⟩
  have hlen := stands_length hst
  obtain ⟨ws, rfl, h2, h3⟩ := hst
  rcases final_position hk hw hp hs hf with ⟨j, l, h4, h5, -⟩ | ⟨j, h4, -, h5⟩
  · refine h5 (hr j l ?_)
    rw [List.getElem?_append_left (List.getElem?_eq_some_iff.1 h4).1]; exact h4
  · have hj : ws[j]? = some ws[j] := List.getElem?_eq_getElem (by omega)
    have hj' : (h.conc.reverse ++ ws)[h.conc.length + j]? = some ws[j] := by
      rw [List.getElem?_append_right (by simp)]; simp
    refine h5 ws[j] (hcl j _ h4 ?_) ⟨h3 j _ hj, hr _ _ hj'⟩
    rw [hlen, show h.wild + h.conc.length - h.wild + j = h.conc.length + j by omega]
    exact hj'

theorem ofPair_parts (a b : List Nat) (id : Nat) : (Refinement.ofPair a b id).id = id ∧
    (Refinement.ofPair a b id).parts = [sortBy ltB a, sortBy ltB b] := ⟨rfl, rfl⟩

/-- The refinement has the two parts of labels of one class. -/
theorem c64_final_class (hk : k.WF) {h : Header} {r : Refinement Nat} (hw : h.wild ≤ k.initPath.length)
    (hp : k.initStack.length = k.initPath.length) (hs : h.wild + h.conc.length = k.finPath.length)
    (hcl : TopClass k h.conc.length h.conc.reverse) (hf : k.finalizeHeader h = .error r) :
    ∃ o0 o1, r.parts = [o0, o1] ∧ (∀ x, x ∈ o0 ∨ x ∈ o1 → k.map.find x = some r.id) ∧ ∀ x ∈ o0, x ∉ o1 := by
  rcases final_position hk hw hp hs hf with ⟨j, l, h4, h5, rfl⟩ | ⟨j, h4, rfl, h5⟩
  · refine ⟨_, _, rfl, ?_, ?_⟩
    · rintro x (hx | hx) <;> rw [mem_sortBy] at hx
      · rw [List.mem_singleton.1 hx]
        exact hcl j l (by have := (List.getElem?_eq_some_iff.1 h4).1; simpa using this) h4
      · have := (edgeLabels_sound hk.fin hk.finPath (concrete_sorted hk.map _) hx).1
        exact (RMap.mem_concrete hk.map _ _).1 ((mem_sortBy _ _ _).1 this)
    · intro x hx hx'
      rw [mem_sortBy] at hx hx'
      rw [List.mem_singleton.1 hx] at hx'
      exact h5 (edgeLabels_sound hk.fin hk.finPath (concrete_sorted hk.map _) hx').2
  · refine ⟨_, _, rfl, ?_, ?_⟩
    · rintro x (hx | hx) <;> rw [mem_sortBy] at hx <;>
        exact (RMap.mem_concrete hk.map _ _).1 (List.mem_filter.1 hx).1
    · intro x hx hx'
      rw [mem_sortBy] at hx hx'
      obtain ⟨a1, a2⟩ := List.mem_filter.1 hx
      obtain ⟨b1, b2⟩ := List.mem_filter.1 hx'
      rw [checkPath_iff hk.init hk.initPath] at a2
      rw [checkPath_iff hk.fin hk.finPath] at b2
      exact h5 x ((RMap.mem_concrete hk.map _ _).1 a1) ⟨a2, b2⟩

/-- At each position of the final path some label of the class given by the final abstract stack can be read. -/
def FinCovered (k : Recon) : Prop :=
  ∀ i < k.finPath.length, ∃ l, k.map.find l = some ((k.finStack[i]?).getD 0) ∧ ReadsAt k.finNfa k.finPath i l

/-- No part of the refinement is empty. -/
theorem c64_final_nonempty (hk : k.WF) (hc : k.Covered) (hc' : FinCovered k) {h : Header} {r : Refinement Nat}
    (hw : h.wild ≤ k.initPath.length) (hp : k.initStack.length = k.initPath.length)
    (hs : h.wild + h.conc.length = k.finPath.length)
    (hsame : ∀ j < h.wild, k.initStack[k.initStack.length - h.wild + j]? = k.finStack[h.conc.length + j]?)
    (hf : k.finalizeHeader h = .error r) : ∀ p ∈ r.parts, p ≠ [] := by
  have hne : ∀ l : List Nat, l ≠ [] → sortBy ltB l ≠ [] := by
    intro l hl hh
    obtain ⟨x, hx⟩ := List.exists_mem_of_ne_nil l hl
    have := (mem_sortBy ltB l x).2 hx
    rw [hh] at this; simp at this
  rcases final_position hk hw hp hs hf with ⟨j, l, h4, h5, rfl⟩ | ⟨j, h4, rfl, h5⟩
  · have hj := (List.getElem?_eq_some_iff.1 h4).1
    simp only [List.length_reverse] at hj
    obtain ⟨x, hx, hx'⟩ := hc' j (by omega)
    simp only [(ofPair_parts _ _ _).2, List.mem_cons, List.not_mem_nil, or_false]
    rintro p (rfl | rfl)
    · exact hne _ (by simp)
    · exact hne _ (edgeLabels_nonempty hk.fin hk.finPath (concrete_sorted hk.map _)
        ((mem_sortBy _ _ _).2 ((RMap.mem_concrete hk.map _ _).2 hx)) hx')
  · simp only [(ofPair_parts _ _ _).2, List.mem_cons, List.not_mem_nil, or_false]
    rintro p (rfl | rfl)
    · obtain ⟨x, hx, hx'⟩ := hc (k.initPath.length - h.wild + j) (by omega)
      rw [hp]
      exact hne _ (List.ne_nil_of_mem (List.mem_filter.2 ⟨(RMap.mem_concrete hk.map _ _).2 hx,
        (checkPath_iff hk.init hk.initPath _ _).2 hx'⟩))
    · obtain ⟨x, hx, hx'⟩ := hc' (h.conc.length + j) (by omega)
      rw [hsame j h4]
      exact hne _ (List.ne_nil_of_mem (List.mem_filter.2 ⟨(RMap.mem_concrete hk.map _ _).2 hx,
        (checkPath_iff hk.fin hk.finPath _ _).2 hx'⟩))

/-- C64: if different edges to the next state of the final path read different labels, the refinement is a split: two
sorted, nonempty, disjoint lists of labels of one class. Without the condition the second list may repeat labels (C29). -/
theorem c64_final_split_partial (hk : k.WF) (hc : k.Covered) (hc' : FinCovered k)
    (he : EdgesClear k.finNfa k.finPath) {h : Header} {r : Refinement Nat}
    (hw : h.wild ≤ k.initPath.length) (hp : k.initStack.length = k.initPath.length)
    (hs : h.wild + h.conc.length = k.finPath.length) (hcl : TopClass k h.conc.length h.conc.reverse)
    (hsame : ∀ j < h.wild, k.initStack[k.initStack.length - h.wild + j]? = k.finStack[h.conc.length + j]?)
    (hf : k.finalizeHeader h = .error r) :
    ∃ o0 o1, r.parts = [o0, o1] ∧ IsSplit o0 o1 ∧ ∀ x, x ∈ o0 ∨ x ∈ o1 → k.map.find x = some r.id := by
  obtain ⟨o0, o1, h1, h2, h3⟩ := c64_final_class hk hw hp hs hcl hf
  have h4 := c64_final_nonempty hk hc hc' hw hp hs hsame hf
  rw [h1] at h4
  refine ⟨o0, o1, h1, ⟨?_, ?_, h4 o0 (by simp), h4 o1 (by simp), h3⟩, h2⟩
  · rcases final_position hk hw hp hs hf with ⟨j, l, _, _, rfl⟩ | ⟨j, _, rfl, _⟩ <;>
      (simp only [(ofPair_parts _ _ _).2, List.cons.injEq, and_true] at h1; rw [← h1.1])
    · exact sortBy_strict (List.nodup_singleton _)
    · exact sortBy_strict ((RMap.nodup_concrete hk.map _).filter _)
  · rcases final_position hk hw hp hs hf with ⟨j, l, _, _, rfl⟩ | ⟨j, _, rfl, _⟩ <;>
      (simp only [(ofPair_parts _ _ _).2, List.cons.injEq, and_true] at h1; rw [← h1.2])
    · exact sortBy_strict (edgeLabels_clear hk.fin hk.finPath he (concrete_sorted hk.map _) _).1
    · exact sortBy_strict ((RMap.nodup_concrete hk.map _).filter _)

/-- C64: the refinement separates the header from the final automaton: whatever stack of the header and whatever stack
along the final path (both of the classes in the abstract stacks), they have at some position labels of different parts, the
first and the second. -/
theorem c64_final_separates_partial (hk : k.WF) (he : EdgesClear k.finNfa k.finPath) {h : Header} {r : Refinement Nat}
    (hw : h.wild ≤ k.initPath.length) (hp : k.initStack.length = k.initPath.length)
    (hs : h.wild + h.conc.length = k.finPath.length)
    (hf : k.finalizeHeader h = .error r) (s s' : List Nat) (hst : Stands k.initNfa k.initPath h.wild h.conc s)
    (hcl : WildClass k h.wild s) (hal : Along k.finNfa k.finPath s') (hcl' : WildClass k h.wild s')
    (htop : TopClass k h.conc.length s') :
    ∃ (o0 o1 : List Nat) (i x y : Nat), r.parts = [o0, o1] ∧ s[i]? = some x ∧ s'[i]? = some y ∧ x ∈ o0 ∧ y ∈ o1 := by
  obtain ⟨hl, hr⟩ := hal
  have hlen := stands_length hst
  obtain ⟨ws, rfl, h2, h3⟩ := hst
  rcases final_position hk hw hp hs hf with ⟨j, l, h4, h5, rfl⟩ | ⟨j, h4, rfl, h5⟩
  · have hj := (List.getElem?_eq_some_iff.1 h4).1
    simp only [List.length_reverse] at hj
    have hj' : s'[j]? = some s'[j] := List.getElem?_eq_getElem (by omega)
    refine ⟨_, _, j, l, s'[j], rfl, ?_, hj', (mem_sortBy _ _ _).2 (by simp), (mem_sortBy _ _ _).2 ?_⟩
    · rw [List.getElem?_append_left (by simpa using hj)]; exact h4
    · exact ((edgeLabels_clear hk.fin hk.finPath he (concrete_sorted hk.map _) _).2 _).2
        ⟨(mem_sortBy _ _ _).2 ((RMap.mem_concrete hk.map _ _).2 (htop j _ hj hj')), hr j _ hj'⟩
  · have hj : ws[j]? = some ws[j] := List.getElem?_eq_getElem (by omega)
    have hj1 : (h.conc.reverse ++ ws)[h.conc.length + j]? = some ws[j] := by
      rw [List.getElem?_append_right (by simp)]; simp
    have hj2 : s'[h.conc.length + j]? = some s'[h.conc.length + j] := List.getElem?_eq_getElem (by omega)
    refine ⟨_, _, h.conc.length + j, ws[j], _, rfl, hj1, hj2, (mem_sortBy _ _ _).2 (List.mem_filter.2 ⟨?_, ?_⟩),
      (mem_sortBy _ _ _).2 (List.mem_filter.2 ⟨?_, ?_⟩)⟩
    · refine (RMap.mem_concrete hk.map _ _).2 (hcl j _ h4 ?_)
      rw [hlen, show h.wild + h.conc.length - h.wild + j = h.conc.length + j by omega]; exact hj1
    · exact (checkPath_iff hk.init hk.initPath _ _).2 (h3 j _ hj)
    · refine (RMap.mem_concrete hk.map _ _).2 (hcl' j _ h4 ?_)
      rw [show s'.length - h.wild + j = h.conc.length + j by omega]; exact hj2
    · exact (checkPath_iff hk.fin hk.finPath _ _).2 (hr _ _ hj2)

/-! ## An example -/

theorem nfa_wf {m : Nfa} (h1 : m.ptrs.Nodup)
    (h2 : ∀ x ∈ m.states, ∀ e ∈ x.2.edges, e.dst ∈ m.ptrs ∧ e.syms.Pairwise (· < ·))
    (h3 : ∀ q ∈ m.initial, q ∈ m.ptrs) (h4 : m.initial.Nodup)
    (h5 : m.accepting = (m.states.filter fun x => x.2.acc).map Prod.fst) : m.WF := by
  refine ⟨h1, fun q s hs e he => (h2 _ hs e he).1, fun q s hs e he => (h2 _ hs e he).2, h3, h4, fun q => ?_⟩
  rw [h5]
  simp [Nfa.Acc]

/-- Reads 1 or 2, and then 3 or 4. -/
def headFirst : Nfa :=
  { states := [(0, { edges := [{ syms := [1, 2], dst := 1 }] }), (1, { edges := [{ syms := [3, 4], dst := 2 }] }),
      (2, { acc := true })], initial := [0], accepting := [2] }

/-- Reads 2 and then 4. -/
def headLast : Nfa :=
  { states := [(0, { edges := [{ syms := [2], dst := 1 }] }), (1, { edges := [{ syms := [4], dst := 2 }] }),
      (2, { acc := true })], initial := [0], accepting := [2] }

theorem headFirst_wf : headFirst.WF := nfa_wf (by decide) (by decide) (by decide) (by decide) rfl
theorem headLast_wf : headLast.WF := nfa_wf (by decide) (by decide) (by decide) (by decide) rfl

/-- The labels 1 to 4 in two classes. -/
def headCalls : List (MapCall Nat Nat) := [1, 2, 3, 4].map fun x => .insert x false

/-- Both paths go through the states 1 and 2. -/
def headRecon : Recon :=
  { map := (mapAfter (fun x => (x - 1) / 2) headCalls).map, initNfa := headFirst, finNfa := headLast,
    initPath := [1, 2], finPath := [1, 2], initStack := [0, 1], finStack := [0, 1] }

theorem headRecon_wf : headRecon.WF :=
  ⟨(mapAfter_spec _ headCalls).1.map, headFirst_wf, headLast_wf, by unfold PathOK Nfa.Useful headRecon; decide,
    by unfold PathOK Nfa.Useful headRecon; decide⟩

theorem headRecon_covered : headRecon.Covered ∧ FinCovered headRecon := by
  have key : ∀ i l, checkPath headRecon.initNfa headRecon.initPath l i = true →
      ReadsAt headRecon.initNfa headRecon.initPath i l := fun i l =>
    (checkPath_iff headRecon_wf.init headRecon_wf.initPath l i).1
  have key' : ∀ i l, checkPath headRecon.finNfa headRecon.finPath l i = true →
      ReadsAt headRecon.finNfa headRecon.finPath i l := fun i l =>
    (checkPath_iff headRecon_wf.fin headRecon_wf.finPath l i).1
  constructor
  · intro i hi
    have : i < 2 := hi
    rcases (by omega : i = 0 ∨ i = 1) with rfl | rfl
    · exact ⟨1, by decide, key _ _ (by decide)⟩
    · exact ⟨3, by decide, key _ _ (by decide)⟩
  · intro i hi
    have : i < 2 := hi
    rcases (by omega : i = 0 ∨ i = 1) with rfl | rfl
    · exact ⟨2, by decide, key' _ _ (by decide)⟩
    · exact ⟨4, by decide, key' _ _ (by decide)⟩

theorem edgesClear_of_le {n : Nfa} {path : List Nat} (h : ∀ q, (n.get q).edges.length ≤ 1) (hi : n.initial.length ≤ 1) :
    EdgesClear n path := by
  intro i q _
  have hlen : ∀ q, ((n.get q).edges).Pairwise fun e e' =>
      n.leadsTo e.dst q = true → n.leadsTo e'.dst q = true → ∀ x, ¬(e.Reads x ∧ e'.Reads x) := by
    intro q
    have := h q
    match hh : (n.get q).edges with
    | [] => exact .nil
    | [e] => simp
    | _ :: _ :: _ => rw [hh] at this; simp at this
  have hall : ∀ S : List Nat, S.length ≤ 1 → (S.flatMap fun s => (n.get s).edges).length ≤ 1 := by
    intro S hS
    match S with
    | [] => simp
    | [s] => simpa using h s
    | _ :: _ :: _ => simp at hS
  have := hall (if i = 0 then n.initial else [(path[i - 1]?).getD 0]) (by split <;> simp [hi])
  generalize ((if i = 0 then n.initial else [(path[i - 1]?).getD 0]).flatMap fun s => (n.get s).edges) = es at this
  match es with
  | [] => exact .nil
  | [e] => simp
  | _ :: _ :: _ => simp at this

theorem headRecon_clear : EdgesClear headRecon.finNfa headRecon.finPath := by
  refine edgesClear_of_le (fun q => ?_) (by decide)
  unfold Nfa.get
  cases h : headRecon.finNfa.states.find? (fun x => x.1 == q) with
  | none => simp
  | some x =>
    have := List.mem_of_find?_eq_some h
    have hall : ∀ x ∈ headRecon.finNfa.states, x.2.edges.length ≤ 1 := by decide
    simpa using hall x this

/-- Both wildcards are found: 2 on top of 4. -/
example : headRecon.finalizeHeader headRecon.initialHeader = .ok ⟨0, [4, 2]⟩ ∧
    Along headRecon.finNfa headRecon.finPath [2, 4] := by
  have h : headRecon.finalizeHeader headRecon.initialHeader = .ok ⟨0, [4, 2]⟩ := by rfl
  exact ⟨h, (c64_final_found headRecon_wf (by decide) (by decide) h).2.2⟩

/-- Label 1 on top does not fit; labels 1 and 2 are to be separated. -/
example : headRecon.finalizeHeader ⟨1, [1]⟩ = .error ⟨0, [[1], [2]]⟩ ∧ ¬ Along headRecon.finNfa headRecon.finPath [1, 4] ∧
    ∃ o0 o1, [[1], [2]] = [o0, o1] ∧ IsSplit o0 o1 ∧ ∀ x, x ∈ o0 ∨ x ∈ o1 → headRecon.map.find x = some 0 := by
  have h : headRecon.finalizeHeader ⟨1, [1]⟩ = .error ⟨0, [[1], [2]]⟩ := by decide +kernel
  refine ⟨h, ?_, ?_⟩
  · refine c64_final_spurious headRecon_wf (by decide) rfl rfl h [1, 4] ⟨[4], rfl, rfl, fun j l hj => ?_⟩ ?_
    · cases j with
      | zero =>
        cases hj
        exact (checkPath_iff headRecon_wf.init headRecon_wf.initPath 4 1).1 (by decide)
      | succ j => simp at hj
    · intro j l hj hl
      have : j = 0 := by simp at hj; exact hj
      subst this
      cases hl
      decide
  · refine c64_final_split_partial headRecon_wf headRecon_covered.1 headRecon_covered.2 headRecon_clear (by decide) rfl rfl
      ?_ (by decide) h
    intro j l hj hl
    have : j = 0 := by simp at hj; exact hj
    subst this
    cases hl
    decide

/-- Popping 2 and one more label from two wildcards: 3 is chosen for it. -/
example : headRecon.updateHeader headRecon.initialHeader 2 [1, 1] 1 = some (some (⟨0, [1, 1]⟩, [3])) ∧
    headRecon.updateHeader headRecon.initialHeader 3 [] 0 = some none ∧
    Along headRecon.initNfa headRecon.initPath [2, 3] := by
  have h : headRecon.updateHeader headRecon.initialHeader 2 [1, 1] 1 = some (some (⟨0, [1, 1]⟩, [3])) := by rfl
  refine ⟨h, by rfl, ?_⟩
  obtain ⟨res, h1, -, h2⟩ := c64_update headRecon_wf headRecon_covered.1 (h := headRecon.initialHeader) (by decide)
    (pops := 1) (by decide) 2 [1, 1]
  rw [h] at h1
  cases h1
  obtain ⟨-, -, -, h3, -⟩ := h2 _ _ rfl
  exact (c64_initial headRecon [2, 3]).1 (h3 [] ((stands_zero [1, 1] _).2 rfl))

/-- Two edges that read 2: the code finds 2 twice. -/
def headTwice : Nfa :=
  { states := [(0, { edges := [{ syms := [2], dst := 1 }, { syms := [2], dst := 2 }] }), (1, { acc := true }),
      (2, { edges := [{ eps := true, dst := 1 }] })], initial := [0], accepting := [1] }

/-- One class; the final automaton has the two edges. -/
def twiceRecon : Recon :=
  { map := (mapAfter (fun _ => 0) ([1, 2, 3].map fun x => MapCall.insert x false)).map, initNfa := headFirst,
    finNfa := headTwice, initPath := [1], finPath := [1], initStack := [0], finStack := [0] }

/-- Without the condition on the edges a label may be repeated in the refinement: 2 stands twice in the second part. -/
theorem c64_final_repeats : twiceRecon.finalizeHeader ⟨0, [1]⟩ = .error ⟨0, [[1], [2, 2]]⟩ := by decide +kernel

end Verif.Props
