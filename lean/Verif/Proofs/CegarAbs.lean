import Verif.Model.CegarLoop
import Verif.Proofs.FromNfa
import Verif.Proofs.Mapping
import Verif.Proofs.CegarHeader

/-! # The abstraction of an automaton -/

namespace Verif.Cegar

open Verif Nfa

/-- An edge with the abstract labels. -/
def absEdge (m : RMap Nat) (e : NEdge) : NEdge := { e with syms := encodeEdge m e }

/-- A state with the abstract labels. -/
def absState (m : RMap Nat) (s : NState) : NState := { s with edges := s.edges.map (absEdge m) }

/-- An automaton with the abstract labels. -/
def absNfa (m : RMap Nat) (n : Nfa) : Nfa := { n with states := n.states.map fun x => (x.1, absState m x.2) }

/-- The map has all the labels of the automaton. -/
def Known (m : RMap Nat) (n : Nfa) : Prop := ∀ q s, (q, s) ∈ n.states → ∀ e ∈ s.edges, ∀ g ∈ e.syms, g ∈ m.keys

section
variable {m : RMap Nat} {n : Nfa}

theorem encodeEdge_spec (hm : m.Inv) {e : NEdge} (hs : SSorted e.syms) (hk : ∀ g ∈ e.syms, g ∈ m.keys) :
    SSorted (encodeEdge m e) ∧ ∀ c, c ∈ encodeEdge m e ↔ (∃ x ∈ e.syms, m.find x = some c) ∧
      (e.neg = true → ∃ x, m.find x = some c ∧ x ∉ e.syms) := by
  obtain ⟨ids, h1, h2, h3⟩ := RMap.encodeLabels_spec hm e.syms (hs.imp Nat.le_of_lt) hk e.neg
  unfold encodeEdge
  rw [h1]
  exact ⟨h2, h3⟩

theorem absNfa_get (m : RMap Nat) (n : Nfa) (q : Nat) : (absNfa m n).get q = absState m (n.get q) := by
  unfold Nfa.get absNfa
  simp only
  generalize n.states = l
  induction l with
  | nil => simp [absState]
  | cons x l ih =>
    rw [List.map_cons, List.find?_cons, List.find?_cons]
    by_cases hx : (x.1 == q) = true
    · simp [hx]
    · simp only [hx, Bool.false_eq_true]; exact ih

theorem absNfa_ptrs (m : RMap Nat) (n : Nfa) : (absNfa m n).ptrs = n.ptrs := by
  simp [Nfa.ptrs, absNfa, Function.comp_def]

theorem absNfa_mem {q : Nat} {s : NState} : (q, s) ∈ (absNfa m n).states ↔ ∃ s', (q, s') ∈ n.states ∧ s = absState m s' := by
  unfold absNfa
  simp only [List.mem_map, Prod.mk.injEq, Prod.exists]
  constructor
  · rintro ⟨a, s', h, rfl, rfl⟩; exact ⟨s', h, rfl⟩
  · rintro ⟨s', h, rfl⟩; exact ⟨q, s', h, rfl, rfl⟩

theorem absNfa_eps (p q : Nat) : (absNfa m n).Eps p q ↔ n.Eps p q := by
  constructor
  · rintro ⟨s, e, h1, h2, h3, h4⟩
    obtain ⟨s', h5, rfl⟩ := absNfa_mem.1 h1
    obtain ⟨e', h6, rfl⟩ := List.mem_map.1 h2
    exact ⟨s', e', h5, h6, h3, h4⟩
  · rintro ⟨s, e, h1, h2, h3, h4⟩
    exact ⟨absState m s, absEdge m e, absNfa_mem.2 ⟨s, h1, rfl⟩, List.mem_map.2 ⟨e, h2, rfl⟩, h3, h4⟩

theorem absNfa_acc (q : Nat) : (absNfa m n).Acc q ↔ n.Acc q := by
  constructor
  · rintro ⟨s, h1, h2⟩
    obtain ⟨s', h5, rfl⟩ := absNfa_mem.1 h1
    exact ⟨s', h5, h2⟩
  · rintro ⟨s, h1, h2⟩
    exact ⟨absState m s, absNfa_mem.2 ⟨s, h1, rfl⟩, h2⟩

theorem absNfa_sym (p c q : Nat) :
    (absNfa m n).Sym p c q ↔ ∃ s e, (p, s) ∈ n.states ∧ e ∈ s.edges ∧ (absEdge m e).Reads c ∧ e.dst = q := by
  constructor
  · rintro ⟨s, e, h1, h2, h3, h4⟩
    obtain ⟨s', h5, rfl⟩ := absNfa_mem.1 h1
    obtain ⟨e', h6, rfl⟩ := List.mem_map.1 h2
    exact ⟨s', e', h5, h6, h3, h4⟩
  · rintro ⟨s, e, h1, h2, h3, h4⟩
    exact ⟨absState m s, absEdge m e, absNfa_mem.2 ⟨s, h1, rfl⟩, List.mem_map.2 ⟨e, h2, rfl⟩, h3, h4⟩

theorem absNfa_epsPath {p q : Nat} : WPath (absNfa m n).Eps (absNfa m n).Sym p [] q ↔ WPath n.Eps n.Sym p [] q := by
  have key : ∀ (k k' : Nfa), (∀ p q, k.Eps p q → k'.Eps p q) → ∀ {p w q}, WPath k.Eps k.Sym p w q → w = [] →
      WPath k'.Eps k'.Sym p [] q := by
    intro k k' hk p w q h hw
    induction h with
    | nil q => exact .nil q
    | eps h _ ih => exact .eps (hk _ _ h) (ih hw)
    | sym => cases hw
  exact ⟨fun h => key _ _ (fun p q => (absNfa_eps p q).1) h rfl, fun h => key _ _ (fun p q => (absNfa_eps p q).2) h rfl⟩

theorem absState_hasNonEps (hm : m.Inv) (hn : n.WF) (hk : Known m n) (q : Nat) :
    (absState m (n.get q)).hasNonEps = (n.get q).hasNonEps := by
  have key : ∀ e ∈ (n.get q).edges, ((absEdge m e).neg || !(absEdge m e).syms.isEmpty) = (e.neg || !e.syms.isEmpty) := by
    intro e he
    have hq : q ∈ n.ptrs := by
      by_contra hc
      have : n.get q = {} := by
        unfold Nfa.get
        have : n.states.find? (fun x => x.1 == q) = none := by
          rw [List.find?_eq_none]
          intro x hx he
          exact hc (mem_ptrs.2 ⟨x.2, by have : x.1 = q := by simpa using he
                                        rw [← this]; exact hx⟩)
        rw [this]
      rw [this] at he
      simp at he
    have hg := mem_get hn.nodup hq
    obtain ⟨-, h1⟩ := encodeEdge_spec hm (hn.syms _ _ hg e he) (hk _ _ hg e he)
    show (e.neg || !(encodeEdge m e).isEmpty) = _
    cases hneg : e.neg with
    | true => rfl
    | false =>
      simp only [Bool.false_or]
      congr 1
      rw [Bool.eq_iff_iff, List.isEmpty_iff, List.isEmpty_iff]
      constructor
      · intro h2
        by_contra h3
        obtain ⟨x, hx⟩ := List.exists_mem_of_ne_nil _ h3
        obtain ⟨c, hc⟩ := RMap.find_isSome (hk _ _ hg e he x hx)
        have := (h1 c).2 ⟨⟨x, hx, hc⟩, by simp [hneg]⟩
        rw [h2] at this; simp at this
      · intro h2
        by_contra h3
        obtain ⟨c, hc⟩ := List.exists_mem_of_ne_nil _ h3
        obtain ⟨⟨x, hx, -⟩, -⟩ := (h1 c).1 hc
        rw [h2] at hx; simp at hx
  unfold NState.hasNonEps absState
  simp only [List.any_map]
  rw [Bool.eq_iff_iff, List.any_eq_true, List.any_eq_true]
  constructor
  · rintro ⟨e, h1, h2⟩; exact ⟨e, h1, by rw [← key e h1]; exact h2⟩
  · rintro ⟨e, h1, h2⟩; exact ⟨e, h1, by have := key e h1; simp only [Function.comp_apply]; rw [this]; exact h2⟩

theorem absNfa_useful (hm : m.Inv) (hn : n.WF) (hk : Known m n) (q : Nat) : (absNfa m n).Useful q ↔ n.Useful q := by
  unfold Useful
  rw [absNfa_get, absState_hasNonEps hm hn hk]
  exact Iff.rfl

theorem absNfa_followEps (hm : m.Inv) (hn : n.WF) (hk : Known m n) (S : List Nat) :
    (absNfa m n).followEps S = n.followEps S := by
  have hscan : ∀ (es : List NEdge) acc, epsScan (es.map (absEdge m)) acc = epsScan es acc := by
    intro es acc
    unfold epsScan
    rw [List.foldl_map]
    rfl
  have hloop : ∀ k acc, epsLoop (absNfa m n) k acc = epsLoop n k acc := by
    intro k
    induction k with
    | zero => intro acc; rfl
    | succ k ih =>
      intro acc
      unfold epsLoop
      cases acc.2 with
      | nil => rfl
      | cons s ws =>
        dsimp only
        rw [ih, absNfa_get]
        congr 1
        exact hscan _ _
  unfold followEps
  rw [hloop]
  have : (absNfa m n).states.length = n.states.length := by simp [absNfa]
  rw [this]
  apply List.filter_congr
  intro q _
  rw [absNfa_get, absState_hasNonEps hm hn hk]
  rfl

theorem absNfa_emptyAccept (m : RMap Nat) (n : Nfa) : (absNfa m n).emptyAccept = n.emptyAccept := by
  unfold emptyAccept
  simp only [absNfa_get]
  rfl

theorem absNfa_wf (hm : m.Inv) (hn : n.WF) (hk : Known m n) : (absNfa m n).WF := by
  refine ⟨by rw [absNfa_ptrs]; exact hn.nodup, ?_, ?_, ?_, hn.initNodup, ?_⟩
  · intro q s h e he
    obtain ⟨s', h5, rfl⟩ := absNfa_mem.1 h
    obtain ⟨e', h6, rfl⟩ := List.mem_map.1 he
    rw [absNfa_ptrs]
    exact hn.dst q s' h5 e' h6
  · intro q s h e he
    obtain ⟨s', h5, rfl⟩ := absNfa_mem.1 h
    obtain ⟨e', h6, rfl⟩ := List.mem_map.1 he
    exact (encodeEdge_spec hm (hn.syms _ _ h5 e' h6) (hk _ _ h5 e' h6)).1
  · intro q hq; rw [absNfa_ptrs]; exact hn.init q hq
  · intro q; rw [absNfa_acc]; exact hn.acc q

theorem absNfa_labels (hm : m.Inv) (hn : n.WF) (hk : Known m n) :
    ∀ p s, (p, s) ∈ (absNfa m n).states → ∀ e ∈ s.edges, ∀ g ∈ e.syms, g < m.size := by
  intro q s h e he g hg
  obtain ⟨s', h5, rfl⟩ := absNfa_mem.1 h
  obtain ⟨e', h6, rfl⟩ := List.mem_map.1 he
  obtain ⟨⟨x, _, hx⟩, _⟩ := ((encodeEdge_spec hm (hn.syms _ _ h5 e' h6) (hk _ _ h5 e' h6)).2 g).1 hg
  exact RMap.find_lt hm hx

/-! ## The constructor -/

theorem target_congr {W : Type} (hm : m.Inv) (hn : n.WF) (hk : Known m n) (add : Aut W → Nat → Aut W) (s : ConSt W) (q : Nat) :
    ConSt.target (absNfa m n) add s q = ConSt.target n add s q := by
  unfold ConSt.target ConSt.getId
  rw [absNfa_get]
  rfl

theorem edges_congr {W : Type} (hm : m.Inv) (hn : n.WF) (hk : Known m n) (f : Bool → List Nat → Aut W → Nat → Aut W)
    (es : List NEdge) (s : ConSt W) :
    ConSt.edges (absNfa m n) (fun e => f e.neg e.syms) (es.map (absEdge m)) s =
      ConSt.edges n (fun e => f e.neg (encodeEdge m e)) es s := by
  unfold ConSt.edges
  rw [List.foldl_map]
  congr 1
  funext s e
  show ((absNfa m n).followEps [e.dst]).foldl _ s = _
  rw [absNfa_followEps hm hn hk]
  congr 1
  funext s q
  exact target_congr hm hn hk _ s q

/-- The constructor builds the P-automaton of the automaton with the abstract labels. -/
theorem absConstruct_eq (hm : m.Inv) (hn : n.WF) (hk : Known m n) (size : Nat) (states : List Nat) :
    absConstruct size m n states = ConSt.loop (absNfa m n) m.size ((absNfa m n).states.length + 1)
      (ConSt.initial (absNfa m n) m.size states { a := Aut.special size states (absNfa m n).emptyAccept }) := by
  have hinit : ∀ s : ConSt Unit, ConSt.initial (absNfa m n) m.size states s =
      ConSt.initialMap n (encodeEdge m) m.size states s := by
    intro s
    unfold ConSt.initial ConSt.initialMap
    congr 1
    funext s i
    rw [absNfa_get]
    exact edges_congr hm hn hk (fun neg syms a id => a.addEdgesFrom m.size states id neg syms) _ s
  have hloop : ∀ k (s : ConSt Unit), ConSt.loop (absNfa m n) m.size k s = ConSt.loopMap n (encodeEdge m) m.size k s := by
    intro k
    induction k with
    | zero => intro s; rfl
    | succ k ih =>
      intro s
      unfold ConSt.loop ConSt.loopMap
      cases s.waiting with
      | nil => rfl
      | cons x ws =>
        obtain ⟨top, id⟩ := x
        dsimp only
        rw [ih, absNfa_get]
        congr 1
        exact edges_congr hm hn hk (fun neg syms a q => a.addEdges m.size id q neg syms) _ _
  rw [hinit, hloop, absNfa_emptyAccept]
  unfold absConstruct
  simp [absNfa]

theorem absConstruct_a (hm : m.Inv) (hn : n.WF) (hk : Known m n) (size : Nat) (states : List Nat) :
    (absConstruct size m n states).a = Aut.ofNfa size m.size (absNfa m n) states := by
  rw [absConstruct_eq hm hn hk]; rfl

theorem absInstance_eq {k : Nfa} (hm : m.Inv) (hn : n.WF) (hk : Known m n) (hn' : k.WF) (hk' : Known m k) (size : Nat)
    (ms ks : List Nat) : absInstance size m n ms k ks = Instance.ofNfas size m.size (absNfa m n) ms (absNfa m k) ks := by
  unfold absInstance Instance.ofNfas
  rw [absConstruct_a hm hn hk, absConstruct_a hm hn' hk', absNfa_emptyAccept, absNfa_emptyAccept]

/-! ## Abstract words -/

/-- The labels of the second stack are the classes of those of the first. -/
abbrev Maps (m : RMap Nat) : List Nat → List Nat → Prop := List.Forall₂ fun x c => m.find x = some c

/-- No class has both labels of a negated edge and others. -/
def NegClear (m : RMap Nat) (n : Nfa) : Prop := ∀ q s, (q, s) ∈ n.states → ∀ e ∈ s.edges, e.neg = true →
  ∀ x y, x ∉ e.syms → y ∈ e.syms → x ∈ m.keys → m.find x ≠ m.find y

theorem reads_abs (hm : m.Inv) (hn : n.WF) (hk : Known m n) (hc : NegClear m n) {q : Nat} {s : NState} {e : NEdge}
    (hs : (q, s) ∈ n.states) (he : e ∈ s.edges) {x c : Nat} (hr : e.Reads x) (hx : m.find x = some c) :
    (absEdge m e).Reads c := by
  obtain ⟨-, h1⟩ := encodeEdge_spec hm (hn.syms _ _ hs e he) (hk _ _ hs e he)
  unfold NEdge.Reads at hr ⊢
  show if e.neg then c ∉ encodeEdge m e else c ∈ encodeEdge m e
  cases hneg : e.neg with
  | false =>
    simp only [hneg, Bool.false_eq_true, if_false] at hr ⊢
    exact (h1 c).2 ⟨⟨x, hr, hx⟩, by simp [hneg]⟩
  | true =>
    simp only [hneg, if_true] at hr ⊢
    intro hcm
    obtain ⟨⟨y, hy, hy'⟩, -⟩ := (h1 c).1 hcm
    refine hc _ _ hs e he hneg x y hr hy ?_ (by rw [hx, hy'])
    by_contra hxk
    rw [(RMap.find_none x).2 hxk] at hx; cases hx

theorem path_abs (hm : m.Inv) (hn : n.WF) (hk : Known m n) (hc : NegClear m n) {p q : Nat} {w v : List Nat}
    (h : WPath n.Eps n.Sym p w q) (hv : Maps m w v) : WPath (absNfa m n).Eps (absNfa m n).Sym p v q := by
  induction h generalizing v with
  | nil q => cases hv; exact .nil q
  | eps h _ ih => exact .eps ((absNfa_eps _ _).2 h) (ih hv)
  | sym h _ ih =>
    cases hv with
    | cons h1 h2 =>
      obtain ⟨s, e, a1, a2, a3, a4⟩ := h
      exact .sym ((absNfa_sym _ _ _).2 ⟨s, e, a1, a2, reads_abs hm hn hk hc a1 a2 a3 h1, a4⟩) (ih h2)

theorem lang_abs (hm : m.Inv) (hn : n.WF) (hk : Known m n) (hc : NegClear m n) {w v : List Nat}
    (h : n.Lang w) (hv : Maps m w v) : (absNfa m n).Lang v := by
  obtain ⟨i, h1, f, h2, h3⟩ := h
  exact ⟨i, h1, f, (absNfa_acc f).2 h2, path_abs hm hn hk hc h3 hv⟩

/-- Every negated edge reads all labels. -/
def Plain (n : Nfa) : Prop := ∀ q s, (q, s) ∈ n.states → ∀ e ∈ s.edges, e.neg = true → e.syms = []

theorem Plain.negClear (h : Plain n) (m : RMap Nat) : NegClear m n := by
  intro q s hs e he hneg x y _ hy
  rw [h q s hs e he hneg] at hy
  simp at hy

/-- Every class has a label. -/
def Full (m : RMap Nat) : Prop := ∀ c < m.size, ∃ x, m.find x = some c

theorem reads_conc (hm : m.Inv) (hn : n.WF) (hk : Known m n) (hp : Plain n) (hf : Full m) {q : Nat} {s : NState} {e : NEdge}
    (hs : (q, s) ∈ n.states) (he : e ∈ s.edges) {c : Nat} (hc : c < m.size) (hr : (absEdge m e).Reads c) :
    ∃ x, m.find x = some c ∧ e.Reads x := by
  obtain ⟨-, h1⟩ := encodeEdge_spec hm (hn.syms _ _ hs e he) (hk _ _ hs e he)
  unfold NEdge.Reads at hr ⊢
  change if e.neg then c ∉ encodeEdge m e else c ∈ encodeEdge m e at hr
  cases hneg : e.neg with
  | false =>
    simp only [hneg, Bool.false_eq_true, if_false] at hr ⊢
    obtain ⟨⟨x, h2, h3⟩, -⟩ := (h1 c).1 hr
    exact ⟨x, h3, h2⟩
  | true =>
    obtain ⟨x, hx⟩ := hf c hc
    exact ⟨x, hx, by simp [hp _ _ hs e he hneg]⟩

end

end Verif.Cegar
