import Verif.Proofs.FromNfa
import Verif.Props.Nfa
import Verif.Props.Automata

/-! # C16: P-automata from NFAs -/

namespace Verif.Props

open Verif.Nfa

variable {W : Type} [Zero W]

theorem compile_closed {m : Nfa} (hm : m.WF) : ∀ i ∈ m.compile.initial, ∀ q,
    WPath m.compile.Eps m.compile.Sym i [] q → m.compile.Useful q → q ∈ m.compile.initial := by
  obtain ⟨_, h1⟩ := compile_initial hm
  intro i hi q h2 h3
  obtain ⟨⟨p, h4, h5⟩, _⟩ := (h1 i).1 hi
  have h6 := h5.append (compile_path.1 h2)
  exact (h1 q).2 ⟨⟨p, h4, h6⟩, (compile_useful hm.nodup (WPath.mem_ptrs hm h6 (hm.init p h4))).1 h3⟩

theorem compile_labels {m : Nfa} {nl : Nat}
    (hlab : ∀ p s, (p, s) ∈ m.states → ∀ e ∈ s.edges, ∀ g ∈ e.syms, g < nl) :
    ∀ p s, (p, s) ∈ m.compile.states → ∀ e ∈ s.edges, ∀ g ∈ e.syms, g < nl :=
  fun p s h => hlab p s ((compile_mem m _).1 h)

/-- C16: the P-automaton built from a compiled NFA and a set of control states accepts exactly the
configurations whose control state is in the set and whose stack is a word of the NFA over the labels of
the PDA. -/
theorem c16_from_nfa (h : HashOrder) {m : Nfa} (hm : m.WF) {size nl : Nat}
    (hlab : ∀ p s, (p, s) ∈ m.states → ∀ e ∈ s.edges, ∀ g ∈ e.syms, g < nl)
    {states : List Nat} (hs : SSorted states) (hlt : ∀ q ∈ states, q < size) (c : Nat) (hc : c < size) (w : List Nat) :
    (Aut.ofNfa (W := W) size nl m.compile states).accepts h c w = true ↔
      c ∈ states ∧ m.Lang w ∧ ∀ g ∈ w, g < nl := by
  rw [accepts_iff, (Aut.ofNfa_spec (W := W) (compile_wf hm) (compile_closed hm) (compile_labels hlab) hs hlt).1 c w hc,
    (c28_compile_lang hm).2]

/-- C16: it is a legal input for the saturations. -/
theorem c16_from_nfa_ok {m : Nfa} (hm : m.WF) (p : Pda W)
    (hlab : ∀ q s, (q, s) ∈ m.states → ∀ e ∈ s.edges, ∀ g ∈ e.syms, g < p.nLabels)
    {states : List Nat} (hs : SSorted states) (hlt : ∀ q ∈ states, q < p.size) :
    PAut p (Aut.ofNfa (W := W) p.size p.nLabels m.compile states) := by
  obtain ⟨_, h1, h2, h3⟩ := Aut.ofNfa_spec (W := W) (compile_wf hm) (compile_closed hm) (compile_labels hlab) hs hlt
  exact ⟨⟨h1, fun t ht => ⟨(h3 t ht).1, (h3 t ht).2.1, (h3 t ht).2.2.1⟩, h2⟩, fun t ht => (h3 t ht).2.2.2⟩

/-- `compile` is needed: an NFA with an epsilon edge from its initial state gives an automaton that misses words
otherwise. -/
theorem c16_needs_compile : exA.Lang [1] ∧ (exA.or exB 5).Lang [1] ∧
    (Aut.ofNfa (W := Unit) 2 3 (exA.or exB 5) [1]).accepts HashOrder.id 1 [1] = false := by
  have hd : Apart exA exB := by
    intro q h1 h2
    simp only [show exA.ptrs = [30, 10] from rfl, show exB.ptrs = [20, 40] from rfl, List.mem_cons,
      List.not_mem_nil, or_false] at h1 h2
    omega
  exact ⟨exA_one, ((c26_or exA_wf exB_wf hd (x := 5) (by decide) (by decide)).2 _).2 (.inl exA_one), by decide +kernel⟩

/-- The labels used in the examples. -/
theorem ex_labels : ∀ q s, (q, s) ∈ (exA.plus.concat exB).states → ∀ e ∈ s.edges, ∀ g ∈ e.syms, g < 4 := by
  have : ∀ x ∈ (exA.plus.concat exB).states, ∀ e ∈ x.2.edges, ∀ g ∈ e.syms, g < 4 := by decide +kernel
  exact fun q s h => this (q, s) h

example : (Aut.ofNfa (W := Unit) 3 4 (exA.plus.concat exB).compile [0, 2]).accepts HashOrder.id 2 [1, 1, 2] = true :=
  (c16_from_nfa HashOrder.id (c26_concat exA_plus_wf exB_wf ex_apart).1 ex_labels (by decide) (by decide) 2
    (by decide) _).2 ⟨by decide, ((c26_concat exA_plus_wf exB_wf ex_apart).2 _).2
    ⟨[1, 1], [2], rfl, ((c26_plus exA_wf).2 _).2 ⟨[1], [1], rfl, exA_one, Star.of exA_one⟩, exB_two⟩, by decide⟩

example : (Aut.ofNfa (W := Unit) 3 4 (exA.plus.concat exB).compile [0, 2]).accepts HashOrder.id 1 [1, 1, 2] ≠ true :=
  fun h => absurd ((c16_from_nfa HashOrder.id (c26_concat exA_plus_wf exB_wf ex_apart).1 ex_labels (by decide)
    (by decide) 1 (by decide) _).1 h).1 (by decide)

/-- With negation, only the labels of the PDA are added. -/
example : (Aut.ofNfa (W := Unit) 3 4 (ofSet 8 3 [1, 2] true) [0, 2]).accepts HashOrder.id 2 [3] = true ∧
    (Aut.ofNfa (W := Unit) 3 4 (ofSet 8 3 [1, 2] true) [0, 2]).accepts HashOrder.id 2 [4] = false ∧
    (Aut.ofNfa (W := Unit) 3 4 (ofSet 8 3 [1, 2] true) [0, 2]).accepts HashOrder.id 2 [1] = false := by decide +kernel

end Verif.Props
