import Verif.Proofs.NfaRun

/-!
# Finite automata (C26, C27, C28, C29, C52)

`Nfa.Lang` is the language by paths (`Spec/Regular.lean`). `Nfa.WF` says that no pointer dangles, that states
have distinct addresses and that `_accepting` lists the accepting states; the constructors establish it and
every operation preserves it, which the theorems below state together with the language.
-/

namespace Verif.Props

open Verif.Nfa

/-! ## Constructors -/

/-- The automaton for one symbol of a set, or with negation of its complement. -/
theorem c26_of_set {q0 q1 : Nat} (hq : q0 ≠ q1) {syms : List Nat} (hs : SSorted syms) (neg : Bool) :
    (ofSet q0 q1 syms neg).WF ∧
    ∀ w, (ofSet q0 q1 syms neg).Lang w ↔ ∃ g, w = [g] ∧ (if neg then g ∉ syms else g ∈ syms) := ofSet_spec hq hs neg

example : (ofSet 8 3 [5, 7] true).Lang [6] := ((c26_of_set (by decide) (by decide) true).2 [6]).2 ⟨6, rfl, by decide⟩
example : ¬(ofSet 8 3 [5, 7] true).Lang [7] := fun h => by
  obtain ⟨g, h1, h2⟩ := ((c26_of_set (by decide) (by decide) true).2 [7]).1 h
  simp only [List.cons.injEq, and_true] at h1
  subst h1
  simp at h2

/-- The automaton for the empty word, or for no word at all. -/
theorem c26_of_bool (q : Nat) (b : Bool) :
    (ofBool q b).WF ∧ ∀ w, (ofBool q b).Lang w ↔ b = true ∧ w = [] := ofBool_spec q b

example : (ofBool 4 true).Lang [] := ((c26_of_bool 4 true).2 []).2 ⟨rfl, rfl⟩

/-! ## C26: union, concatenation, positive closure -/

/-- `or_extend` gives the union of the languages. -/
theorem c26_or {m o : Nfa} (hm : m.WF) (ho : o.WF) (hd : Apart m o) {x : Nat} (hx : x ∉ m.ptrs) (hx' : x ∉ o.ptrs) :
    (m.or o x).WF ∧ ∀ w, (m.or o x).Lang w ↔ m.Lang w ∨ o.Lang w :=
  ⟨(or_spec hm ho hd hx hx').1, or_lang hm ho hd hx hx'⟩

/-- `concat` gives the concatenation of the languages. -/
theorem c26_concat {m o : Nfa} (hm : m.WF) (ho : o.WF) (hd : Apart m o) :
    (m.concat o).WF ∧ ∀ w, (m.concat o).Lang w ↔ Words.concat m.Lang o.Lang w :=
  ⟨(concat_spec hm ho hd).1, concat_lang hm ho hd⟩

/-- `plus_extend` gives the words made of one or more words of the language. -/
theorem c26_plus {m : Nfa} (hm : m.WF) : m.plus.WF ∧ ∀ w, m.plus.Lang w ↔ Words.Plus m.Lang w :=
  ⟨plus_wf hm, plus_lang hm⟩

/-- `[1]+[2]`, with states at scattered addresses. -/
def exA : Nfa := ofSet 30 10 [1] false
def exB : Nfa := ofSet 20 40 [2] false

theorem exA_wf : exA.WF := (c26_of_set (by decide) (by decide) false).1
theorem exB_wf : exB.WF := (c26_of_set (by decide) (by decide) false).1
theorem exA_plus_wf : exA.plus.WF := (c26_plus exA_wf).1
theorem ex_apart : Apart exA.plus exB := by
  intro q h1 h2
  simp only [show exA.plus.ptrs = [30, 10] from rfl, show exB.ptrs = [20, 40] from rfl, List.mem_cons,
    List.not_mem_nil, or_false] at h1 h2
  omega

theorem exA_one : exA.Lang [1] := ((c26_of_set (by decide) (by decide) false).2 [1]).2 ⟨1, rfl, by simp⟩
theorem exB_two : exB.Lang [2] := ((c26_of_set (by decide) (by decide) false).2 [2]).2 ⟨2, rfl, by simp⟩

example : (exA.plus.concat exB).Lang [1, 1, 2] :=
  ((c26_concat exA_plus_wf exB_wf ex_apart).2 _).2
    ⟨[1, 1], [2], rfl, ((c26_plus exA_wf).2 _).2 ⟨[1], [1], rfl, exA_one, Star.of exA_one⟩, exB_two⟩

example : (exA.plus.or exB 5).Lang [2] :=
  ((c26_or exA_plus_wf exB_wf ex_apart (x := 5) (by decide) (by decide)).2 _).2 (.inr exB_two)

/-! ## C27: option and Kleene star

Full statement: `m.question.Lang w ↔ m.Lang w ∨ w = []` and `m.star.Lang w ↔ Words.Star m.Lang w`. The code
makes the initial states accepting, so it is wrong exactly when a path leads from an initial state back to an
initial state along a word that should not be accepted; `c27_question_wrong` and `c27_star_wrong` are such
automata, built by the operations of C26. -/

/-- `question_extend` adds the empty word and nothing else iff no path between initial states reads a word
outside. -/
theorem c27_question_partial {m : Nfa} (hm : m.WF) (hne : m.initial ≠ []) :
    m.question.WF ∧
    ((∀ w, m.question.Lang w ↔ m.Lang w ∨ w = []) ↔
      ∀ w, (∃ i ∈ m.initial, ∃ j ∈ m.initial, WPath m.Eps m.Sym i w j) → m.Lang w ∨ w = []) := by
  refine ⟨(question_spec hm).1, ?_, ?_⟩
  · intro h w hw
    exact (h w).1 ((question_lang hm w).2 (.inr hw))
  · intro h w
    rw [question_lang hm]
    constructor
    · rintro (h1 | h1)
      · exact .inl h1
      · exact h w h1
    · rintro (h1 | rfl)
      · exact .inl h1
      · obtain ⟨i, hi⟩ := List.exists_mem_of_ne_nil _ hne
        exact .inr ⟨i, hi, i, hi, .nil i⟩

/-- `star_extend` gives the Kleene closure iff every path between initial states of the automaton reads a word
of the closure. -/
theorem c27_star_partial {m : Nfa} (hm : m.WF) (hne : m.initial ≠ []) :
    m.star.WF ∧
    ((∀ w, m.star.Lang w ↔ Words.Star m.Lang w) ↔
      ∀ w, (∃ i ∈ m.initial, ∃ j ∈ m.initial, WPath m.Eps m.Sym i w j) → Words.Star m.Lang w) := by
  refine ⟨(question_spec (plus_wf hm)).1, ?_, ?_⟩
  · rintro h w ⟨i, hi, j, hj, hp⟩
    exact (h w).1 ((star_lang hm w).2 (.inr ⟨[], w, i, rfl, .nil, hi, j, hj, hp⟩))
  · intro h w
    rw [star_lang hm]
    constructor
    · rintro (h1 | ⟨v, u, i, rfl, h1, h2, j, h3, h4⟩)
      · exact Plus.star h1
      · exact Star.append h1 (h u ⟨i, h2, j, h3, h4⟩)
    · intro h1
      obtain ⟨i, hi⟩ := List.exists_mem_of_ne_nil _ hne
      cases h1 with
      | nil => exact .inr ⟨[], [], i, rfl, .nil, hi, i, hi, .nil i⟩
      | app u v hu hv => exact .inl ⟨u, v, rfl, hu, hv⟩

/-- The condition of the two theorems holds when no edge leads to an initial state. -/
theorem c27_no_incoming {m : Nfa} (h1 : ∀ p, ∀ q ∈ m.initial, ¬m.Eps p q) (h2 : ∀ p g, ∀ q ∈ m.initial, ¬m.Sym p g q)
    (w : List Nat) (h : ∃ i ∈ m.initial, ∃ j ∈ m.initial, WPath m.Eps m.Sym i w j) : w = [] := by
  obtain ⟨i, _, j, hj, hp⟩ := h
  have : ∀ {p w q}, WPath m.Eps m.Sym p w q → q ∈ m.initial → w = [] ∧ p = q := by
    intro p w q h
    induction h with
    | nil q => exact fun _ => ⟨rfl, rfl⟩
    | eps h3 _ ih => intro hq; exact (h1 _ _ hq ((ih hq).2 ▸ h3)).elim
    | sym h3 _ ih => intro hq; exact (h2 _ _ _ hq ((ih hq).2 ▸ h3)).elim
  exact (this hp hj).1

theorem exA_no_eps (p q : Nat) : ¬exA.Eps p q := by
  rintro ⟨s, e, h1, h2, h3, rfl⟩
  simp only [show exA.states = [(30, { edges := [{ neg := false, syms := [1], dst := 10 }] }), (10, { acc := true })]
    from rfl, List.mem_cons, Prod.mk.injEq, List.not_mem_nil, or_false] at h1
  rcases h1 with ⟨_, rfl⟩ | ⟨_, rfl⟩
  · simp only [List.mem_cons, List.not_mem_nil, or_false] at h2
    subst h2
    simp at h3
  · simp at h2

theorem exA_sym (p g q : Nat) : exA.Sym p g q ↔ p = 30 ∧ g = 1 ∧ q = 10 := by
  unfold Nfa.Sym
  simp only [show exA.states = [(30, { edges := [{ neg := false, syms := [1], dst := 10 }] }), (10, { acc := true })]
    from rfl, List.mem_cons, Prod.mk.injEq, List.not_mem_nil, or_false]
  constructor
  · rintro ⟨s, e, ⟨rfl, rfl⟩ | ⟨_, rfl⟩, h2, h3, rfl⟩
    · simp only [List.mem_cons, List.not_mem_nil, or_false] at h2
      subst h2
      simp [NEdge.Reads] at h3
      exact ⟨rfl, h3, rfl⟩
    · simp at h2
  · rintro ⟨rfl, rfl, rfl⟩
    exact ⟨_, _, .inl ⟨rfl, rfl⟩, List.mem_singleton.2 rfl, by simp [NEdge.Reads], rfl⟩

/-- `[1]?` and `[1]*` are correct. -/
example : (∀ w, exA.question.Lang w ↔ exA.Lang w ∨ w = []) ∧ ∀ w, exA.star.Lang w ↔ Words.Star exA.Lang w := by
  have h := c27_no_incoming (m := exA) (fun p q _ => exA_no_eps p q) (fun p g q hq h => by
    obtain ⟨_, _, rfl⟩ := (exA_sym p g q).1 h
    simp [show exA.initial = [30] from rfl] at hq)
  exact ⟨(c27_question_partial exA_wf (by decide)).2.2 fun w hw => .inr (h w hw),
    (c27_star_partial exA_wf (by decide)).2.2 fun w hw => by rw [h w hw]; exact .nil⟩

/-- `[1]+[2]`. -/
abbrev exAB : Nfa := exA.plus.concat exB

theorem exAB_wf : exAB.WF := (c26_concat exA_plus_wf exB_wf ex_apart).1

theorem exAB_loop : ∃ i ∈ exAB.initial, ∃ j ∈ exAB.initial, WPath exAB.Eps exAB.Sym i [1] j := by
  refine ⟨30, by decide, 30, by decide, .sym (q := 10) ?_ (.eps (q := 30) ?_ (.nil 30))⟩
  · exact ⟨{ edges := [{ neg := false, syms := [1], dst := 10 }] }, { neg := false, syms := [1], dst := 10 },
      by decide, by simp, by simp [NEdge.Reads], rfl⟩
  · exact ⟨{ edges := [{ eps := true, dst := 30 }, { eps := true, dst := 20 }] }, { eps := true, dst := 30 },
      by decide, by simp, rfl, rfl⟩

theorem exA_plus_words {w : List Nat} (h : exA.plus.Lang w) : ∀ g ∈ w, g = 1 := by
  have hs : ∀ w, Words.Star exA.Lang w → ∀ g ∈ w, g = 1 := by
    intro w h
    induction h with
    | nil => simp
    | app u v hu _ ih =>
      obtain ⟨g, rfl, hg⟩ := ((c26_of_set (by decide) (by decide) false).2 u).1 hu
      simp at hg
      subst hg
      simpa using ih
  exact hs w (Plus.star (((c26_plus exA_wf).2 w).1 h))

theorem exAB_words {w : List Nat} (h : exAB.Lang w) : ∃ u, w = u ++ [2] := by
  obtain ⟨u, v, rfl, _, h2⟩ := ((c26_concat exA_plus_wf exB_wf ex_apart).2 w).1 h
  obtain ⟨g, rfl, hg⟩ := ((c26_of_set (by decide) (by decide) false).2 v).1 h2
  simp at hg
  exact ⟨u, by rw [hg]⟩

/-- `([1]+[2])?` accepts `1`, which is neither in `[1]+[2]` nor empty. -/
theorem c27_question_wrong : exAB.question.Lang [1] ∧ ¬(exAB.Lang [1] ∨ ([1] : List Nat) = []) := by
  refine ⟨(question_lang exAB_wf _).2 (.inr exAB_loop), ?_⟩
  rintro (h | h)
  · obtain ⟨u, hu⟩ := exAB_words h
    have := congrArg List.getLast? hu
    simp at this
  · simp at h

/-- `([1]+[2])*` accepts `1`, which is not made of words of `[1]+[2]`. -/
theorem c27_star_wrong : exAB.star.Lang [1] ∧ ¬Words.Star exAB.Lang [1] := by
  obtain ⟨i, hi, j, hj, hp⟩ := exAB_loop
  refine ⟨(star_lang exAB_wf _).2 (.inr ⟨[], [1], i, rfl, .nil, hi, j, hj, hp⟩), ?_⟩
  have : ∀ w, Words.Star exAB.Lang w → w = [] ∨ ∃ u, w = u ++ [2] := by
    intro w h
    induction h with
    | nil => exact .inl rfl
    | app u v hu _ ih =>
      rcases ih with rfl | ⟨x, rfl⟩
      · rw [List.append_nil]; exact .inr (exAB_words hu)
      · exact .inr ⟨u ++ x, by rw [List.append_assoc]⟩
  intro h
  rcases this _ h with h | ⟨u, hu⟩
  · simp at h
  · have := congrArg List.getLast? hu
    simp at this

/-! ## C28: ε-closure and reading a word -/

/-- `follow_epsilon` returns, sorted, the states that ε moves reach, except those that neither accept nor
have an edge with symbols. -/
theorem c28_follow_epsilon {m : Nfa} (hm : m.WF) {S : List Nat} (hS : SSorted S) (hp : ∀ q ∈ S, q ∈ m.ptrs) :
    SSorted (m.followEps S) ∧
    ∀ q, q ∈ m.followEps S ↔ (∃ p ∈ S, WPath m.Eps m.Sym p [] q) ∧
      (m.Acc q ∨ ∃ s, (q, s) ∈ m.states ∧ ∃ e ∈ s.edges, e.neg = true ∨ e.syms ≠ []) := by
  obtain ⟨h1, h2⟩ := followEps_spec hm hS hp
  refine ⟨h1, fun q => ?_⟩
  rw [h2]
  constructor
  · rintro ⟨⟨p, h3, h4⟩, h5⟩
    have hq := WPath.mem_ptrs hm h4 (hp p h3)
    refine ⟨⟨p, h3, h4⟩, ?_⟩
    simp only [Useful, NState.hasNonEps, Bool.or_eq_true, List.any_eq_true, Bool.not_eq_true',
      List.isEmpty_eq_false_iff] at h5
    rcases h5 with h5 | ⟨e, h5, h6⟩
    · exact .inl ⟨_, mem_get hm.nodup hq, h5⟩
    · exact .inr ⟨_, mem_get hm.nodup hq, e, h5, h6⟩
  · rintro ⟨h3, h4⟩
    refine ⟨h3, ?_⟩
    rcases h4 with h4 | ⟨s, h4, e, h5, h6⟩
    · exact useful_of_acc hm.nodup h4
    · simp only [Useful, NState.hasNonEps, Bool.or_eq_true, List.any_eq_true, Bool.not_eq_true',
        List.isEmpty_eq_false_iff]
      rw [get_eq hm.nodup h4]
      exact .inr ⟨e, h5, h6⟩

/-- After `compile`, running `successor` over a word and looking for an accepting state decides whether the
original automaton accepts the word. -/
theorem c28_run {m : Nfa} (hm : m.WF) (w : List Nat) :
    (w.foldl m.compile.successor m.compile.initial).any (fun q => (m.compile.get q).acc) = true ↔ m.Lang w := by
  obtain ⟨_, h2, h3⟩ := compile_run hm w
  rw [List.any_eq_true]
  constructor
  · rintro ⟨q, h4, h5⟩
    obtain ⟨⟨i, h6, h7⟩, _⟩ := (h3 q).1 h4
    rw [compile_get hm.nodup (h2 q h4)] at h5
    exact ⟨i, h6, q, (acc_get hm.nodup).2 ⟨h2 q h4, h5⟩, h7⟩
  · rintro ⟨i, h4, f, h5, h6⟩
    refine ⟨f, (h3 f).2 ⟨⟨i, h4, h6⟩, useful_of_acc hm.nodup h5⟩, ?_⟩
    rw [compile_get hm.nodup h5.mem]
    exact ((acc_get hm.nodup).1 h5).2

/-- After `compile`, `empty_accept` decides whether the empty word is accepted. -/
theorem c28_empty_accept {m : Nfa} (hm : m.WF) : m.compile.emptyAccept = true ↔ m.Lang [] := c28_run hm []

/-- `compile` keeps the language. -/
theorem c28_compile_lang {m : Nfa} (hm : m.WF) : m.compile.WF ∧ ∀ w, m.compile.Lang w ↔ m.Lang w := by
  refine ⟨compile_wf hm, fun w => ?_⟩
  obtain ⟨_, h2⟩ := compile_initial hm
  constructor
  · rintro ⟨i, h3, f, h4, h5⟩
    obtain ⟨⟨j, h6, h7⟩, _⟩ := (h2 i).1 h3
    exact ⟨j, h6, f, ((compile_moves m).2.2 f).1 h4, h7.append (compile_path.1 h5)⟩
  · rintro ⟨i, h3, f, h4, h5⟩
    have hf := ((compile_moves m).2.2 f).2 h4
    have hsplit : ∀ {p v q}, WPath m.Eps m.Sym p v q → m.Acc q →
        ∃ r, WPath m.Eps m.Sym p [] r ∧ m.Useful r ∧ WPath m.Eps m.Sym r v q := by
      intro p v q h
      induction h with
      | nil q => intro hq; exact ⟨q, .nil q, useful_of_acc hm.nodup hq, .nil q⟩
      | eps h1 _ ih =>
        intro hq
        obtain ⟨r, h6, h7, h8⟩ := ih hq
        exact ⟨r, .eps h1 h6, h7, h8⟩
      | sym h1 h2 _ => intro _; exact ⟨_, .nil _, useful_of_sym hm.nodup h1, .sym h1 h2⟩
    obtain ⟨r, h6, h7, h8⟩ := hsplit h5 h4
    exact ⟨r, (h2 r).2 ⟨⟨i, h3, h6⟩, h7⟩, f, hf, compile_path.2 h8⟩

example : ([1, 1, 2].foldl exAB.compile.successor exAB.compile.initial).any (fun q => (exAB.compile.get q).acc) = true :=
  (c28_run exAB_wf _).2 (((c26_concat exA_plus_wf exB_wf ex_apart).2 _).2
    ⟨[1, 1], [2], rfl, ((c26_plus exA_wf).2 _).2 ⟨[1], [1], rfl, exA_one, Star.of exA_one⟩, exB_two⟩)

/-! ## C29: labels between two states

Full statement: `l ∈ m.intersectEdgeLabels S goal labels ↔ l ∈ labels ∧ m.hasAsSuccessor S l goal = true`.
`temp` is not cleared between edges, so a label that two edges contribute is counted twice in the test that
stops the loop, and labels go missing (`c29_missing`). -/

/-- `leads_to_by_epsilon` decides whether ε moves lead from one state to the other. -/
theorem c29_leads_to {m : Nfa} (hm : m.WF) {src : Nat} (hs : src ∈ m.ptrs) (goal : Nat) :
    m.leadsTo src goal = true ↔ WPath m.Eps m.Sym src [] goal := leadsTo_spec hm hs goal

/-- `has_as_successor` decides whether reading the label can end in the goal, for a goal that accepts or has
an edge with symbols; it is false for every other goal. -/
theorem c29_has_as_successor {m : Nfa} (hm : m.WF) {S : List Nat} (hp : ∀ q ∈ S, q ∈ m.ptrs) (g goal : Nat) :
    m.hasAsSuccessor S g goal = true ↔
      (∃ p ∈ S, ∃ r, m.Sym p g r ∧ WPath m.Eps m.Sym r [] goal) ∧ m.Useful goal := hasAsSuccessor_spec hm hp g goal

/-- Every label returned is one of `labels`, and reading it leads from a source state to the goal. -/
theorem c29_sound {m : Nfa} (hm : m.WF) {S : List Nat} (hp : ∀ q ∈ S, q ∈ m.ptrs) (goal : Nat) {labels : List Nat}
    (hl : SSorted labels) (l : Nat) (h : l ∈ m.intersectEdgeLabels S goal labels) :
    l ∈ labels ∧ ∃ p ∈ S, ∃ r, m.Sym p l r ∧ WPath m.Eps m.Sym r [] goal := by
  have hes : ∀ e ∈ S.flatMap fun s => (m.get s).edges, SSorted e.syms := by
    intro e he
    obtain ⟨s, h1, h2⟩ := List.mem_flatMap.1 he
    exact hm.syms _ _ (mem_get hm.nodup (hp s h1)) e h2
  refine interLoop_sound m goal hl _ hes [] []
    (fun l => l ∈ labels ∧ ∃ p ∈ S, ∃ r, m.Sym p l r ∧ WPath m.Eps m.Sym r [] goal) (by simp) (by simp) ?_ l h
  intro e he x hx hL
  exact ⟨hx, (edges_leads hm hp x goal).1 ⟨e, he, hL⟩⟩

/-- Nothing is missed if at most two edges lead to the goal, or if they read pairwise different labels. For a
goal that accepts or has an edge with symbols the answer then agrees with `has_as_successor`. -/
theorem c29_exact_partial {m : Nfa} (hm : m.WF) {S : List Nat} (hp : ∀ q ∈ S, q ∈ m.ptrs) {goal : Nat}
    (hg : m.Useful goal) {labels : List Nat} (hl : SSorted labels)
    (hfew : ((S.flatMap fun s => (m.get s).edges).filter fun e => m.leadsTo e.dst goal).length ≤ 2 ∨
      (S.flatMap fun s => (m.get s).edges).Pairwise fun e e' => m.leadsTo e.dst goal = true →
        m.leadsTo e'.dst goal = true → ∀ x ∈ labels, ¬(e.Reads x ∧ e'.Reads x)) (l : Nat) :
    l ∈ m.intersectEdgeLabels S goal labels ↔ l ∈ labels ∧ m.hasAsSuccessor S l goal = true := by
  have hes : ∀ e ∈ S.flatMap fun s => (m.get s).edges, SSorted e.syms := by
    intro e he
    obtain ⟨s, h1, h2⟩ := List.mem_flatMap.1 he
    exact hm.syms _ _ (mem_get hm.nodup (hp s h1)) e h2
  rw [hasAsSuccessor_spec hm hp]
  constructor
  · intro h
    obtain ⟨h1, h2⟩ := c29_sound hm hp goal hl l h
    exact ⟨h1, h2, hg⟩
  · rintro ⟨h1, h2, _⟩
    have h3 := (edges_leads hm hp l goal).2 h2
    rcases hfew with hfew | hfew
    · exact interLoop_two m goal hl _ hes hfew l h1 h3
    · refine interLoop_disjoint m goal hl _ hes (hfew.imp ?_) l h1 h3
      rintro a b h4 x hx ⟨⟨h5, h6⟩, h7, h8⟩
      exact h4 h6 h8 x hx ⟨h5, h7⟩

/-- Four edges from one state to another, reading 2, 1, 2 and 3. -/
def exFour : Nfa :=
  { states := [(0, { edges := [{ syms := [2], dst := 1 }, { syms := [1], dst := 1 }, { syms := [2], dst := 1 },
      { syms := [3], dst := 1 }] }), (1, { acc := true })], initial := [0], accepting := [1] }

/-- Label 3 is missed: 2, 1 and 2 are already three labels. -/
theorem c29_missing : exFour.intersectEdgeLabels [0] 1 [1, 2, 3] = [2, 1, 2] ∧
    exFour.hasAsSuccessor [0] 3 1 = true := by decide +kernel

example : exAB.intersectEdgeLabels [30] 20 [1, 2] = [1] ∧ exAB.hasAsSuccessor [30] 1 20 = true ∧
    exAB.hasAsSuccessor [30] 2 20 = false := by decide +kernel

example : ∀ l, l ∈ exAB.intersectEdgeLabels [30] 20 [1, 2] ↔ l ∈ [1, 2] ∧ exAB.hasAsSuccessor [30] l 20 = true :=
  c29_exact_partial exAB_wf (by decide) (by unfold Useful; decide) (by decide) (.inl (by decide))

/-! ## C52: copies -/

/-- The copy constructor (copy assignment to an empty automaton), with the copied states at new addresses,
gives an automaton with the same language. -/
theorem c52_copy {o : Nfa} (ho : o.WF) {f : Nat → Nat} (hf : ∀ p ∈ o.ptrs, ∀ q ∈ o.ptrs, f p = f q → p = q) :
    (assign {} o f).WF ∧ ∀ w, (assign {} o f).Lang w ↔ o.Lang w := copy_spec ho hf

example : (assign {} exA (· + 100)).Lang [1] := ((c52_copy exA_wf (by intros; omega)).2 [1]).2 exA_one

/-- Assigning to an automaton that is not empty does not replace it: the result of `a = b` with `a` for `[1]`
and `b` for the empty word still has both initial states, and its old edge points to null. -/
theorem c52_assign_appends :
    (assign exA (ofBool 50 true) (· + 100)).initial = [30, 150] ∧
    ∃ s e, (30, s) ∈ (assign exA (ofBool 50 true) (· + 100)).states ∧ e ∈ s.edges ∧ e.dst = 0 := by
  refine ⟨rfl, { edges := [{ neg := false, syms := [1], dst := 0 }] }, { neg := false, syms := [1], dst := 0 }, ?_, ?_, rfl⟩
  · decide
  · simp

end Verif.Props
