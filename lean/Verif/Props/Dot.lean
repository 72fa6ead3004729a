import Verif.Proofs.Dot

/-!
# C86: GraphViz output
-/

namespace Verif.Props

open Verif DotStmt

/-! ## Statements in blocks -/

/-- A state: its name, whether it accepts, and the names of the targets with the labels of its edges. -/
structure DotBlock where
  name : List Char
  acc : Bool
  edges : List (List Char × List Char)

def DotBlock.stmts (b : DotBlock) : List DotStmt := .node b.name b.acc :: b.edges.map fun e => .edge b.name e.1 e.2

/-- The statements for an initial state. -/
def iniStmts (name : List Char) : List DotStmt := [.arrow ('I' :: name) name, .hidden ('I' :: name)]

def isEdge : DotStmt → Bool
  | .edge _ _ _ => true
  | _ => false

theorem edges_split {l l' : List (List Char × List Char)} {n : List Char} {r r' : List DotStmt} (hr : ∀ x t, r = x :: t → isEdge x = false)
    (hr' : ∀ x t, r' = x :: t → isEdge x = false)
    (h : (l.map fun e => DotStmt.edge n e.1 e.2) ++ r = (l'.map fun e => DotStmt.edge n e.1 e.2) ++ r') : l = l' ∧ r = r' := by
  induction l generalizing l' with
  | nil =>
    cases l' with
    | nil => exact ⟨rfl, h⟩
    | cons e l' =>
      have := hr _ _ h
      cases this
  | cons e l ih =>
    cases l' with
    | nil =>
      have := hr' _ _ h.symm
      cases this
    | cons e' l' =>
      simp only [List.map_cons, List.cons_append, List.cons.injEq, DotStmt.edge.injEq, true_and] at h
      obtain ⟨rfl, rfl⟩ := ih h.2
      exact ⟨by rw [Prod.ext h.1.1 h.1.2], rfl⟩

theorem blocks_head (bs : List DotBlock) {r : List DotStmt} (hr : ∀ x ∈ r, (∃ a b, x = .arrow a b) ∨ ∃ a, x = .hidden a) :
    ∀ x t, bs.flatMap DotBlock.stmts ++ r = x :: t → isEdge x = false := by
  intro x t h
  cases bs with
  | nil =>
    rw [List.flatMap_nil, List.nil_append] at h
    rcases hr x (by rw [h]; simp) with ⟨a, b, rfl⟩ | ⟨a, rfl⟩ <;> rfl
  | cons b bs =>
    rw [List.flatMap_cons] at h
    unfold DotBlock.stmts at h
    simp only [List.cons_append, List.cons.injEq] at h
    rw [← h.1]
    rfl

theorem blocks_inj {bs bs' : List DotBlock} {r r' : List DotStmt} (hr : ∀ x ∈ r, (∃ a b, x = .arrow a b) ∨ ∃ a, x = .hidden a)
    (hr' : ∀ x ∈ r', (∃ a b, x = .arrow a b) ∨ ∃ a, x = .hidden a)
    (h : bs.flatMap DotBlock.stmts ++ r = bs'.flatMap DotBlock.stmts ++ r') : bs = bs' ∧ r = r' := by
  have node : ∀ {b : DotBlock} {l r : List DotStmt} {bs : List DotBlock}, (∀ x ∈ r, (∃ a b, x = .arrow a b) ∨ ∃ a, x = .hidden a) →
      r ≠ (b :: bs).flatMap DotBlock.stmts ++ l := by
    intro b l r bs hr h
    rcases hr (.node b.name b.acc) (by rw [h, List.flatMap_cons]; unfold DotBlock.stmts; simp) with ⟨a, b, h⟩ | ⟨a, h⟩ <;> cases h
  induction bs generalizing bs' with
  | nil =>
    cases bs' with
    | nil => exact ⟨rfl, h⟩
    | cons b bs' => exact absurd h (node hr)
  | cons b bs ih =>
    cases bs' with
    | nil => exact absurd h.symm (node hr')
    | cons b' bs' =>
      rw [List.flatMap_cons, List.flatMap_cons, List.append_assoc, List.append_assoc] at h
      obtain ⟨n, c, es⟩ := b
      obtain ⟨n', c', es'⟩ := b'
      unfold DotBlock.stmts at h
      simp only [List.cons_append, List.cons.injEq, DotStmt.node.injEq] at h
      obtain ⟨⟨rfl, rfl⟩, h⟩ := h
      obtain ⟨rfl, h2⟩ := edges_split (blocks_head bs hr) (blocks_head bs' hr') h
      obtain ⟨rfl, h3⟩ := ih h2
      exact ⟨rfl, h3⟩

theorem ini_only (l : List (List Char)) : ∀ x ∈ l.flatMap iniStmts, (∃ a b, x = .arrow a b) ∨ ∃ a, x = .hidden a := by
  intro x hx
  obtain ⟨a, -, hx⟩ := List.mem_flatMap.1 hx
  rcases List.mem_cons.1 hx with rfl | hx
  · exact .inl ⟨_, _, rfl⟩
  · exact .inr ⟨_, List.mem_singleton.1 hx⟩

theorem ini_inj : ∀ {l l' : List (List Char)}, l.flatMap iniStmts = l'.flatMap iniStmts → l = l'
  | [], [], _ => rfl
  | [], _ :: _, h => by simp [iniStmts] at h
  | _ :: _, [], h => by simp [iniStmts] at h
  | a :: l, b :: l', h => by
    simp only [List.flatMap_cons, iniStmts, List.cons_append, List.nil_append, List.cons.injEq, DotStmt.arrow.injEq] at h
    obtain ⟨⟨-, rfl⟩, -, h⟩ := h
    rw [ini_inj h]

theorem quoted_cons (s : List Char) : quoted s = '"' :: (s ++ ['"']) := rfl

theorem lit_shape : "\" [shape=".toList ++ "circle];\n".toList = '"' :: " [shape=circle];\n".toList := by decide
theorem lit_shape2 : "\" [shape=".toList ++ ("double".toList ++ "circle];\n".toList) = '"' :: " [shape=doublecircle];\n".toList := by decide
theorem lit_to : "\" -> \"".toList = '"' :: (" -> ".toList ++ ['"']) := by decide
theorem lit_label : "\" [ label=\"".toList = '"' :: (" [ label=".toList ++ ['"']) := by decide
theorem lit_end : "\"];\n".toList = '"' :: "];\n".toList := by decide
theorem lit_ini : "\"I".toList = ['"', 'I'] := by decide
theorem lit_semi : "\";\n".toList = '"' :: ";\n".toList := by decide
theorem lit_style : "\" [style=invisible];\n".toList = '"' :: " [style=invisible];\n".toList := by decide

theorem ini_text (name : List Char) : dotInitial name = (iniStmts name).flatMap DotStmt.text := by
  unfold dotInitial iniStmts
  simp only [lit_ini, lit_to, lit_semi, lit_style, List.flatMap_cons, List.flatMap_nil, DotStmt.text, quoted_cons, List.cons_append, List.append_assoc,
    List.nil_append, List.append_nil]

theorem block_text (n : List Char) (d : Bool) (es : List (List Char × List Char)) :
    ['"'] ++ n ++ "\" [shape=".toList ++ (if d then "double".toList else []) ++ "circle];\n".toList ++
      (es.flatMap fun e => ['"'] ++ n ++ "\" -> \"".toList ++ e.1 ++ "\" [ label=\"".toList ++ e.2 ++ "\"];\n".toList) =
    (DotBlock.stmts ⟨n, d, es⟩).flatMap DotStmt.text := by
  have h1 : ∀ es : List (List Char × List Char), (es.flatMap fun e => ['"'] ++ n ++ "\" -> \"".toList ++ e.1 ++ "\" [ label=\"".toList ++ e.2 ++ "\"];\n".toList) =
      (es.map fun e => DotStmt.edge n e.1 e.2).flatMap DotStmt.text := by
    intro es
    induction es with
    | nil => rfl
    | cons e es ih =>
      rw [List.flatMap_cons, ih, List.map_cons, List.flatMap_cons]
      congr 1
      simp only [lit_to, lit_label, lit_end, DotStmt.text, quoted_cons, List.cons_append, List.append_assoc, List.nil_append]
  rw [h1]
  unfold DotBlock.stmts
  rw [List.flatMap_cons]
  congr 1
  cases d
  · simp only [Bool.false_eq_true, if_false, DotStmt.text, quoted_cons, List.cons_append, List.append_assoc, List.nil_append, lit_shape]
  · simp only [if_true, DotStmt.text, quoted_cons, List.cons_append, List.append_assoc, List.nil_append, lit_shape2]

/-! ## NFAs -/

section NFA
variable {ptr sym : Nat → List Char}

def nfaBlock (ptr sym : Nat → List Char) (x : Nat × NState) : DotBlock := ⟨ptr x.1, x.2.acc, x.2.edges.map fun e => (ptr e.dst, e.dotLabel sym)⟩

/-- C86: the output for an NFA is a graph with a node for each state, a double circle if it accepts, an edge for each edge, and an arrow from an
invisible node to each initial state. -/
theorem c86_nfa_graph (ptr sym : Nat → List Char) (m : Nfa) :
    DotText ((m.states.flatMap fun x => .node (ptr x.1) x.2.acc :: x.2.edges.map fun e => .edge (ptr x.1) (ptr e.dst) (e.dotLabel sym)) ++
      m.initial.flatMap fun i => [.arrow ('I' :: ptr i) (ptr i), .hidden ('I' :: ptr i)]) (m.toDot ptr sym) := by
  unfold DotText Nfa.toDot
  rw [List.flatMap_append, List.flatMap_assoc, List.flatMap_assoc]
  simp only [List.append_assoc]
  congr 1
  congr 1
  · apply List.flatMap_congr
    intro x _
    unfold Nfa.dotState
    have := block_text (ptr x.1) x.2.acc (x.2.edges.map fun e => (ptr e.dst, e.dotLabel sym))
    rw [List.flatMap_map] at this
    rw [this]
    unfold DotBlock.stmts
    rw [List.map_map]
    rfl
  · congr 1
    apply List.flatMap_congr
    intro i _
    exact ini_text (ptr i)

theorem nlabel_safe (hs : ∀ l, '"' ∉ sym l) (e : NEdge) : '"' ∉ e.dotLabel sym := by
  intro h
  have hc : ∀ l : List Nat, '"' ∉ commaList (l.map sym) := by
    intro l h
    rcases mem_commaList h with h | h | ⟨x, hx, h⟩
    · exact absurd h (by decide)
    · exact absurd h (by decide)
    · obtain ⟨y, -, rfl⟩ := List.mem_map.1 hx
      exact hs y h
  unfold NEdge.dotLabel at h
  simp only [lit_open, lit_close] at h
  rcases List.mem_append.1 h with h | h
  · rcases List.mem_append.1 h with h | h
    · rcases List.mem_append.1 h with h | h
      · split at h <;> simp at h
      · split at h
        · simp at h; exact hc _ h
        · cases h
    · split at h <;> simp at h
  · split at h
    · rcases List.mem_append.1 h with h | h
      · split at h <;> simp at h
      · simp at h
    · cases h

/-- C86: the output determines the NFA: two NFAs with the same output have the same states, edges and initial states. Symbols contain no comma, or no
symbol contains a blank. -/
theorem c86_nfa_read (hp : Function.Injective ptr) (hq : ∀ x, '"' ∉ ptr x) (hi : Function.Injective sym)
    (hs : ∀ l, '"' ∉ sym l ∧ '\\' ∉ sym l) (hc : (∀ l, ',' ∉ sym l) ∨ ∀ l, ' ' ∉ sym l) {m m' : Nfa} (h : m.toDot ptr sym = m'.toDot ptr sym) :
    m.states = m'.states ∧ m.initial = m'.initial := by
  obtain ⟨c, hc, hcs⟩ : ∃ c : Char, (c = ',' ∨ c = ' ') ∧ ∀ l, c ∉ sym l := by
    rcases hc with hc | hc
    · exact ⟨_, .inl rfl, hc⟩
    · exact ⟨_, .inr rfl, hc⟩
  have form : ∀ m : Nfa, ∃ xs, xs = (m.states.map (nfaBlock ptr sym)).flatMap DotBlock.stmts ++ (m.initial.map ptr).flatMap iniStmts ∧
      (∀ x ∈ xs, x.Safe) ∧ m.toDot ptr sym = "digraph NFA {\n".toList ++ (xs.flatMap DotStmt.text ++ "}\n".toList) := by
    intro m
    refine ⟨_, rfl, ?_, ?_⟩
    · intro x hx
      rcases List.mem_append.1 hx with hx | hx
      · obtain ⟨b, hb, hx⟩ := List.mem_flatMap.1 hx
        obtain ⟨y, -, rfl⟩ := List.mem_map.1 hb
        rcases List.mem_cons.1 hx with rfl | hx
        · exact hq _
        · obtain ⟨e, he, rfl⟩ := List.mem_map.1 hx
          obtain ⟨e, -, rfl⟩ := List.mem_map.1 he
          exact ⟨hq _, hq _, nlabel_safe (fun l => (hs l).1) e⟩
      · obtain ⟨b, hb, hx⟩ := List.mem_flatMap.1 hx
        obtain ⟨y, -, rfl⟩ := List.mem_map.1 hb
        have hI : '"' ∉ 'I' :: ptr y := by simpa using hq y
        rcases List.mem_cons.1 hx with rfl | hx
        · exact ⟨hI, hq _⟩
        · rw [List.mem_singleton.1 hx]
          exact hI
    · have := c86_nfa_graph ptr sym m
      unfold DotText at this
      rw [this, List.append_assoc]
      congr 3
      rw [List.flatMap_map, List.flatMap_map]
      congr 1
      apply List.flatMap_congr
      intro x _
      unfold nfaBlock DotBlock.stmts
      rw [List.map_map]
      rfl
  obtain ⟨xs, e1, s1, t1⟩ := form m
  obtain ⟨ys, e2, s2, t2⟩ := form m'
  rw [t1, t2] at h
  have h2 := list_inj s1 s2 (List.append_cancel_left h)
  rw [e1, e2] at h2
  obtain ⟨h3, h4⟩ := blocks_inj (ini_only _) (ini_only _) h2
  refine ⟨map_inj_on (fun x _ y _ hxy => ?_) h3, List.map_injective_iff.2 hp (ini_inj h4)⟩
  unfold nfaBlock at hxy
  simp only [DotBlock.mk.injEq] at hxy
  obtain ⟨k1, k2, k3⟩ := hxy
  obtain ⟨a, es, ac⟩ := x
  obtain ⟨b, es', ac'⟩ := y
  have k4 : es = es' := map_inj_on (fun e _ e' _ he => NEdge.dotLabel_inj hc (fun l => ⟨hcs l, (hs l).2⟩) hi (hp (congrArg Prod.fst he)) (congrArg Prod.snd he)) k3
  have k5 := hp k1
  simp only at k2 k4 k5
  rw [k2, k4, k5]

end NFA

/-! ## P-automata -/

theorem nodup_dups (l : List Nat) : l.eraseDups.Nodup := by
  induction h : l.length using Nat.strongRecOn generalizing l with
  | _ n ih =>
    cases l with
    | nil => simp
    | cons a l =>
      rw [List.eraseDups_cons, List.nodup_cons]
      refine ⟨fun hm => ?_, ih _ ?_ _ rfl⟩
      · have := List.mem_eraseDups.1 hm
        simp at this
      · rw [← h]
        exact Nat.lt_succ_of_le (List.length_filter_le _ _)

section Aut
variable {W : Type}

def autBlock (s : DotStyle W) (h : HashOrder) (a : Aut W) (q : Nat) : DotBlock :=
  ⟨s.state q, a.isAcc q, (a.outTos h q).map fun u => (s.state u, s.label (a.labelsTo q u))⟩

/-- C86: the output for a P-automaton is a graph with a node for each state, a double circle if it accepts, one edge for each two states that are
joined by transitions, and an arrow from an invisible node to each state of the PDA. -/
theorem c86_graph (s : DotStyle W) (h : HashOrder) (n : Nat) (a : Aut W) :
    ∃ tos : Nat → List Nat, (∀ q u, u ∈ tos q ↔ ∃ l, (⟨q, l, u⟩ : Tr) ∈ keys a.edges) ∧ (∀ q, (tos q).Nodup) ∧
      DotText (((List.range a.n).flatMap fun q => .node (s.state q) (a.isAcc q) :: (tos q).map fun u => .edge (s.state q) (s.state u) (s.label (a.labelsTo q u))) ++
        (List.range n).flatMap fun i => [.arrow ('I' :: s.state i) (s.state i), .hidden ('I' :: s.state i)]) (a.toDot s h n) := by
  refine ⟨a.outTos h, Aut.mem_outTos h a, fun q => by unfold Aut.outTos; exact nodup_dups _, ?_⟩
  unfold DotText Aut.toDot
  rw [List.flatMap_append, List.flatMap_assoc, List.flatMap_assoc]
  simp only [List.append_assoc]
  congr 1
  congr 1
  · apply List.flatMap_congr
    intro q _
    unfold Aut.dotState
    have := block_text (s.state q) (a.isAcc q) ((a.outTos h q).map fun u => (s.state u, s.label (a.labelsTo q u)))
    rw [List.flatMap_map] at this
    rw [this]
    unfold DotBlock.stmts
    rw [List.map_map]
    rfl
  · congr 1
    apply List.flatMap_congr
    intro i _
    exact ini_text (s.state i)

/-- A transition with its weight. -/
def HasWeighted (a : Aut W) (q l u : Nat) (w : W) : Prop := ∃ tr, ((⟨q, l, u⟩ : Tr), (tr, w)) ∈ a.edges

theorem mem_labels (a : Aut W) (q u l : Nat) (w : W) : (l, w) ∈ a.labelsTo q u ↔ HasWeighted a q l u w := by
  unfold Aut.labelsTo HasWeighted
  simp only [mem_sortBy, List.mem_map, List.mem_filter, Bool.and_eq_true, beq_iff_eq]
  constructor
  · rintro ⟨⟨⟨q', l', u'⟩, tr, w'⟩, ⟨h1, rfl, rfl⟩, h2⟩
    rw [Prod.mk.injEq] at h2
    obtain ⟨rfl, rfl⟩ := h2
    exact ⟨tr, h1⟩
  · rintro ⟨tr, h⟩
    exact ⟨_, ⟨h, rfl, rfl⟩, rfl⟩

/-- Transitions between states of the automaton, each stored once, with epsilon or one of `labels` labels. -/
structure DotAut (labels : Nat) (a : Aut W) : Prop where
  nodup : (keys a.edges).Nodup
  valid : ∀ t ∈ keys a.edges, t.src < a.n ∧ t.dst < a.n ∧ (t.label < labels ∨ t.label = epsilon)

theorem labelsOK {labels : Nat} {a : Aut W} (ha : DotAut labels a) (q u : Nat) : LabelsOK labels (a.labelsTo q u) := by
  constructor
  · have h1 := sortBy_sorted (Prod.fst : Nat × W → Nat) ((a.edges.filter fun e => e.1.src == q && e.1.dst == u).map fun e => (e.1.label, e.2.2))
    have h2 : ((a.labelsTo q u).map Prod.fst).Nodup := by
      unfold Aut.labelsTo
      rw [((sortBy_perm _ _).map Prod.fst).nodup_iff, List.map_map]
      have h3 : ((a.edges.filter fun e => e.1.src == q && e.1.dst == u).map Prod.fst).Nodup := (List.filter_sublist.map Prod.fst).nodup ha.nodup
      refine List.Nodup.map_on ?_ (List.Nodup.of_map _ h3)
      intro x hx y hy hxy
      have hx' := (List.mem_filter.1 hx).2
      have hy' := (List.mem_filter.1 hy).2
      simp only [Bool.and_eq_true, beq_iff_eq] at hx' hy'
      refine List.inj_on_of_nodup_map h3 hx hy ?_
      obtain ⟨⟨q1, l1, u1⟩, z1⟩ := x
      obtain ⟨⟨q2, l2, u2⟩, z2⟩ := y
      simp only [Function.comp_apply] at hxy hx' hy'
      simp only [Tr.mk.injEq]
      exact ⟨hx'.1.trans hy'.1.symm, hxy, hx'.2.trans hy'.2.symm⟩
    have h3 := (List.pairwise_map.1 h2)
    exact (h1.and h3).imp fun h => Nat.lt_of_le_of_ne h.1 h.2
  · intro x hx
    obtain ⟨tr, h⟩ := (mem_labels a q u x.1 x.2).1 hx
    exact (ha.valid _ (List.mem_map.2 ⟨_, h, rfl⟩)).2.2

/-- C86: the output determines the P-automaton: two P-automata with the same output have the same number of states, the same accepting states, and
the same transitions with the same weights, whatever the orders of their hash maps. -/
theorem c86_read {s : DotStyle W} {labels : Nat} (hs : s.Readable labels) {a b : Aut W} (ha : DotAut labels a) (hb : DotAut labels b)
    (hi : ∀ q < a.n, ∀ q' < a.n, s.state q = s.state q' → q = q') {h h' : HashOrder} {n n' : Nat} (ht : a.toDot s h n = b.toDot s h' n') :
    a.acc = b.acc ∧ n = n' ∧ ∀ q l u w, HasWeighted a q l u w ↔ HasWeighted b q l u w := by
  have form : ∀ (a : Aut W) (h : HashOrder) (n : Nat), ∃ xs, xs = ((List.range a.n).map (autBlock s h a)).flatMap DotBlock.stmts ++ ((List.range n).map s.state).flatMap iniStmts ∧
      (∀ x ∈ xs, x.Safe) ∧ a.toDot s h n = "digraph NFA {\n".toList ++ (xs.flatMap DotStmt.text ++ "}\n".toList) := by
    intro a h n
    refine ⟨_, rfl, ?_, ?_⟩
    · intro x hx
      rcases List.mem_append.1 hx with hx | hx
      · obtain ⟨b, hb, hx⟩ := List.mem_flatMap.1 hx
        obtain ⟨y, -, rfl⟩ := List.mem_map.1 hb
        rcases List.mem_cons.1 hx with rfl | hx
        · exact hs.state _
        · obtain ⟨e, he, rfl⟩ := List.mem_map.1 hx
          obtain ⟨e, -, rfl⟩ := List.mem_map.1 he
          exact ⟨hs.state _, hs.state _, DotStyle.label_safe hs _⟩
      · obtain ⟨b, hb, hx⟩ := List.mem_flatMap.1 hx
        obtain ⟨y, -, rfl⟩ := List.mem_map.1 hb
        have hI : '"' ∉ 'I' :: s.state y := by simpa using hs.state y
        rcases List.mem_cons.1 hx with rfl | hx
        · exact ⟨hI, hs.state _⟩
        · rw [List.mem_singleton.1 hx]
          exact hI
    · unfold Aut.toDot
      rw [List.flatMap_append, List.flatMap_assoc, List.flatMap_assoc, List.flatMap_map, List.flatMap_map, List.append_assoc, List.append_assoc, List.append_assoc]
      congr 1
      congr 1
      · apply List.flatMap_congr
        intro q _
        unfold Aut.dotState
        have := block_text (s.state q) (a.isAcc q) ((a.outTos h q).map fun u => (s.state u, s.label (a.labelsTo q u)))
        rw [List.flatMap_map] at this
        rw [this]
        rfl
      · congr 1
        apply List.flatMap_congr
        intro i _
        exact ini_text (s.state i)
  obtain ⟨xs, e1, s1, t1⟩ := form a h n
  obtain ⟨ys, e2, s2, t2⟩ := form b h' n'
  rw [t1, t2] at ht
  have h2 := list_inj s1 s2 (List.append_cancel_left ht)
  rw [e1, e2] at h2
  obtain ⟨h3, h4⟩ := blocks_inj (ini_only _) (ini_only _) h2
  have hn : a.n = b.n := by simpa using congrArg List.length h3
  have hn' : n = n' := by simpa using congrArg List.length (ini_inj h4)
  have hblock : ∀ q < a.n, autBlock s h a q = autBlock s h' b q := by
    intro q hq
    have := congrArg (fun l => l[q]?) h3
    simpa [hq, hn ▸ hq] using this
  refine ⟨?_, hn', ?_⟩
  · apply List.ext_getElem hn
    intro q h1 h2
    have h5 := congrArg DotBlock.acc (hblock q h1)
    unfold autBlock Aut.isAcc at h5
    simpa [h1, h2] using h5
  · have half : ∀ {a b : Aut W} {h h' : HashOrder}, DotAut labels a → DotAut labels b → a.n = b.n →
        (∀ q < a.n, ∀ q' < a.n, s.state q = s.state q' → q = q') → (∀ q < a.n, autBlock s h a q = autBlock s h' b q) →
        ∀ q l u w, HasWeighted a q l u w → HasWeighted b q l u w := by
      intro a b h h' ha hb hn hi hblock q l u w hw
      obtain ⟨tr, hm⟩ := hw
      have hv := ha.valid ⟨q, l, u⟩ (List.mem_map.2 ⟨_, hm, rfl⟩)
      have h5 := congrArg DotBlock.edges (hblock q hv.1)
      unfold autBlock at h5
      simp only at h5
      have h6 : (s.state u, s.label (a.labelsTo q u)) ∈ (b.outTos h' q).map fun u => (s.state u, s.label (b.labelsTo q u)) := by
        rw [← h5]
        exact List.mem_map.2 ⟨u, (Aut.mem_outTos h a q u).2 ⟨l, List.mem_map.2 ⟨_, hm, rfl⟩⟩, rfl⟩
      obtain ⟨u', hu', he⟩ := List.mem_map.1 h6
      obtain ⟨l', hl'⟩ := (Aut.mem_outTos h' b q u').1 hu'
      have huu : u' = u := hi u' (by rw [hn]; exact (hb.valid _ hl').2.1) u hv.2.1 (congrArg Prod.fst he)
      rw [huu] at he
      have := (DotStyle.label_inj hs (labelsOK hb q u) (labelsOK ha q u) (congrArg Prod.snd he) (l, w)).2 ((mem_labels a q u l w).2 ⟨tr, hm⟩)
      exact (mem_labels b q u l w).1 this
    intro q l u w
    exact ⟨half ha hb hn hi hblock q l u w, half hb ha hn.symm (by rw [← hn]; exact hi) (fun q hq => (hblock q (hn ▸ hq)).symm) q l u w⟩


/-! ## Labels -/

theorem commaList_intercalate : ∀ l : List (List Char), commaList l = [',', ' '].intercalate l
  | [] => rfl
  | [x] => by simp [commaList, List.intercalate]
  | x :: y :: l => by
    have ih := commaList_intercalate (y :: l)
    simp only [commaList, List.intercalate, List.intersperse_cons₂, List.flatten_cons, List.flatMap_cons] at ih ⊢
    rw [← ih]
    simp

/-- C86: an edge is labelled with the labels of the transitions it stands for, in order and with their weights, or with `*` in an automaton without
weights that has them all; epsilon comes last. -/
theorem c86_labels (s : DotStyle W) {labels : Nat} {a : Aut W} (ha : DotAut labels a) (q u : Nat) :
    ∃ (ls : List (Nat × W)) (e : List Char), ls.Pairwise (fun x y => x.1 < y.1) ∧ (∀ l w, (l, w) ∈ ls ↔ l ≠ epsilon ∧ HasWeighted a q l u w) ∧
      s.label (a.labelsTo q u) = (if s.all = some ls.length then ['*'] else if ls = [] then [] else
        ['\\', '['] ++ [',', ' '].intercalate (ls.map fun x => s.item x.1 x.2) ++ ['\\', ']']) ++ e ∧
      ((∀ w, ¬ HasWeighted a q epsilon u w) → e = []) ∧
      ∀ w, HasWeighted a q epsilon u w → e = (if ls = [] then [] else [' ']) ++ '𝜀' :: s.eps w := by
  have hok := labelsOK ha q u
  refine ⟨(a.labelsTo q u).filter fun x => x.1 != epsilon, s.tail ((a.labelsTo q u).filter fun x => x.1 != epsilon) ((a.labelsTo q u).find? fun x => x.1 == epsilon),
    hok.sorted.filter _, ?_, ?_, ?_, ?_⟩
  · intro l w
    rw [List.mem_filter, mem_labels]
    simp only [bne_iff_ne, ne_eq]
    exact And.comm
  · rw [s.label_eq hok.sorted]
    congr 1
    unfold DotStyle.core
    rw [commaList_intercalate, lit_open, lit_close]
    generalize (a.labelsTo q u).filter (fun x => x.1 != epsilon) = k
    cases k <;> simp
  · intro h
    have : (a.labelsTo q u).find? (fun x => x.1 == epsilon) = none := by
      rw [List.find?_eq_none]
      intro x hx he
      rw [beq_iff_eq] at he
      exact h x.2 (he ▸ (mem_labels a q u x.1 x.2).1 hx)
    rw [this]
    rfl
  · intro w h
    have hm := (mem_labels a q u epsilon w).2 h
    have : (a.labelsTo q u).find? (fun x => x.1 == epsilon) = some (epsilon, w) := by
      cases hf : (a.labelsTo q u).find? fun x => x.1 == epsilon with
      | none => exact absurd (List.find?_eq_none.1 hf _ hm) (by simp)
      | some x =>
        have h1 := List.mem_of_find?_eq_some hf
        have h2 : x.1 = epsilon := by simpa using List.find?_some hf
        have h3 : ((a.labelsTo q u).map Prod.fst).Nodup := List.pairwise_map.2 (hok.sorted.imp fun h => Nat.ne_of_lt h)
        rw [List.inj_on_of_nodup_map h3 h1 hm h2]
    rw [this]
    unfold DotStyle.tail
    generalize (a.labelsTo q u).filter (fun x => x.1 != epsilon) = k
    cases k <;> simp

end Aut

/-- C86: in an automaton without weights the label begins with `*` exactly if there is a transition for every label. -/
theorem c86_star {state label : Nat → List Char} {labels : Nat} (hl : labels ≤ epsilon) {a : Aut Unit} (ha : DotAut labels a) (q u : Nat) :
    (∃ e, (DotStyle.plain state label labels).label (a.labelsTo q u) = '*' :: e) ↔ ∀ l < labels, (⟨q, l, u⟩ : Tr) ∈ keys a.edges := by
  obtain ⟨ls, e, h1, h2, h3, h4, h5⟩ := c86_labels (DotStyle.plain state label labels) ha q u
  have h6 : (ls.map Prod.fst).Pairwise (· < ·) := List.pairwise_map.2 h1
  have h7 : ∀ l, l ∈ ls.map Prod.fst ↔ l ≠ epsilon ∧ (⟨q, l, u⟩ : Tr) ∈ keys a.edges := by
    intro l
    constructor
    · intro h
      obtain ⟨⟨l, w⟩, hm, rfl⟩ := List.mem_map.1 h
      obtain ⟨hne, tr, ht⟩ := (h2 l w).1 hm
      exact ⟨hne, List.mem_map.2 ⟨_, ht, rfl⟩⟩
    · rintro ⟨hne, h⟩
      obtain ⟨⟨t, tr, w⟩, ht, rfl⟩ := List.mem_map.1 h
      exact List.mem_map.2 ⟨(_, w), (h2 _ w).2 ⟨hne, tr, ht⟩, rfl⟩
  have h8 : ∀ l ∈ ls.map Prod.fst, l < labels := by
    intro l h
    obtain ⟨hne, h⟩ := (h7 l).1 h
    exact (ha.valid _ h).2.2.resolve_right hne
  have h9 : (DotStyle.plain state label labels).all = some ls.length ↔ ls.length = labels := by
    unfold DotStyle.plain
    simp only [Option.some.injEq]
    exact eq_comm
  have hall : ls.length = labels ↔ ∀ l < labels, (⟨q, l, u⟩ : Tr) ∈ keys a.edges := by
    constructor
    · intro h l hlt
      have := eq_range h6 h8 (by rw [List.length_map, h])
      exact ((h7 l).1 (by rw [this]; exact List.mem_range.2 hlt)).2
    · intro h
      have p : (ls.map Prod.fst).Perm (List.range labels) := by
        refine (List.perm_ext_iff_of_nodup (h6.imp fun h => Nat.ne_of_lt h) List.nodup_range).2 fun l => ?_
        rw [List.mem_range]
        exact ⟨h8 l, fun hlt => (h7 l).2 ⟨by omega, h l hlt⟩⟩
      simpa using p.length_eq
  rw [← hall, h3, if_congr h9 rfl rfl]
  constructor
  · rintro ⟨t, ht⟩
    by_cases hc : ls.length = labels
    · exact hc
    rw [if_neg hc] at ht
    by_cases hn : ls = []
    · rw [if_pos hn, List.nil_append] at ht
      by_cases he : ∃ w, HasWeighted a q epsilon u w
      · obtain ⟨w, hw⟩ := he
        rw [h5 w hw, if_pos hn] at ht
        simp at ht
      · rw [h4 fun w hw => he ⟨w, hw⟩] at ht
        cases ht
    · rw [if_neg hn] at ht
      simp at ht
  · intro hc
    exact ⟨e, by rw [if_pos hc]; rfl⟩

/-- C86: the label of an edge of an NFA. -/
theorem c86_nfa_label (sym : Nat → List Char) (e : NEdge) :
    e.dotLabel sym = (match e.syms, e.neg with
      | [], false => []
      | [], true => ['*']
      | l, false => ['\\', '['] ++ [',', ' '].intercalate (l.map sym) ++ ['\\', ']']
      | l, true => ['^', '\\', '['] ++ [',', ' '].intercalate (l.map sym) ++ ['\\', ']']) ++
      (match e.syms, e.neg, e.eps with
      | _, _, false => []
      | [], false, true => ['𝜀']
      | _, _, true => [' ', '𝜀']) := by
  obtain ⟨eps, neg, syms, dst⟩ := e
  unfold NEdge.dotLabel
  simp only [commaList_intercalate, lit_open, lit_close]
  cases syms <;> cases neg <;> cases eps <;> simp

/-! ## Printers of numbers -/

theorem repr_digit {n : Nat} {c : Char} (h : c ∈ n.repr.toList) : c.isDigit = true := by
  rw [Nat.toList_repr] at h
  exact Nat.isDigit_of_mem_toDigits (by omega) (by omega) h

theorem repr_not {n : Nat} {c : Char} (h : c.isDigit = false) : c ∉ n.repr.toList := fun hc => by
  rw [repr_digit hc] at h
  cases h

theorem repr_inj {n m : Nat} (h : n.repr.toList = m.repr.toList) : n = m := by
  rw [Nat.toList_repr, Nat.toList_repr] at h
  rw [← Nat.ofDigitChars_ten_toDigits (n := n), h, Nat.ofDigitChars_ten_toDigits]

/-- The default printers. -/
theorem plain_readable (labels : Nat) : (DotStyle.plain (fun q => q.repr.toList) (fun l => l.repr.toList) labels).Readable labels where
  state q := repr_not (by decide)
  item l w := ⟨repr_not (by decide), repr_not (by decide)⟩
  sep := ⟨_, .inl rfl, fun _ _ => repr_not (by decide)⟩
  itemInj l _ l' _ w w' h := ⟨repr_inj h, rfl⟩
  eps w := by simp [DotStyle.plain]
  epsInj w w' _ := rfl
  all := .inr ⟨rfl, fun _ _ => rfl⟩

/-- A printer of numbers, with digits and perhaps a minus, or of vectors of numbers. -/
structure NumPrinter {W : Type} (num : W → List Char) : Prop where
  inj : ∀ w w', num w = num w' → w = w'
  chars : ∀ w, ∀ c ∈ num w, c ∈ ['-', '[', ',', ']'] ∨ c.isDigit = true
  minus : ∀ w, num w ≠ ['-']

/-- The text for `bottom()`, if it has one. -/
def BottomText {W : Type} (bottom : Option (W × List Char)) : Prop := ∀ b ∈ bottom, b.2 = ['∞'] ∨ b.2 = ['-', '∞']

section Weighted
variable {W : Type} [DecidableEq W]

theorem dotWeight_form {num : W → List Char} (hn : NumPrinter num) (max : W) {bottom : Option (W × List Char)} (hb : BottomText bottom) (w : W) :
    ∃ t, dotWeight max bottom num w = '(' :: (t ++ [')']) ∧ (∀ c ∈ t, c ∈ ['-', '[', ',', ']', '∞'] ∨ c.isDigit = true) ∧
      ((w = max ∧ t = ['-']) ∨ (∃ b ∈ bottom, w = b.1 ∧ t = b.2) ∨ t = num w) := by
  have hd : ∀ c ∈ num w, c ∈ ['-', '[', ',', ']', '∞'] ∨ c.isDigit = true := by
    intro c hc
    refine (hn.chars w c hc).imp_left fun h => ?_
    simp only [List.mem_cons, List.not_mem_nil, or_false] at h ⊢
    grind
  unfold dotWeight
  by_cases h : w = max
  · rw [if_pos h]
    exact ⟨['-'], by decide, by simp, .inl ⟨h, rfl⟩⟩
  · rw [if_neg h]
    cases bottom with
    | none => exact ⟨num w, by simp, hd, .inr (.inr rfl)⟩
    | some b =>
      simp only
      by_cases h2 : w = b.1
      · rw [if_pos h2]
        refine ⟨b.2, by simp, ?_, .inr (.inl ⟨b, rfl, h2, rfl⟩)⟩
        rcases hb b rfl with h | h <;> rw [h] <;> simp
      · rw [if_neg h2]
        exact ⟨num w, by simp, hd, .inr (.inr rfl)⟩

theorem weighted_chars {num : W → List Char} (hn : NumPrinter num) (max : W) {bottom : Option (W × List Char)} (hb : BottomText bottom) {c : Char}
    (h1 : c.isDigit = false) (h2 : c ∉ ['-', '[', ',', ']', '∞', '(', ')']) (l : Nat) (w : W) :
    c ∉ (DotStyle.weighted (fun q => q.repr.toList) (fun l => l.repr.toList) max bottom num).item l w := by
  intro hc
  obtain ⟨t, ht, hd, -⟩ := dotWeight_form hn max hb w
  unfold DotStyle.weighted at hc
  simp only [ht, List.mem_append, List.mem_cons, List.not_mem_nil, or_false] at hc
  rcases hc with hc | hc | hc | hc
  · exact repr_not h1 hc
  · exact h2 (by rw [hc]; decide)
  · rcases hd c hc with h | h
    · simp only [List.mem_cons, List.not_mem_nil, or_false] at h h2
      grind
    · rw [h] at h1; cases h1
  · exact h2 (by rw [hc]; decide)

theorem weighted_readable {num : W → List Char} (hn : NumPrinter num) (max : W) {bottom : Option (W × List Char)} (hb : BottomText bottom) (labels : Nat) :
    (DotStyle.weighted (fun q => q.repr.toList) (fun l => l.repr.toList) max bottom num).Readable labels where
  state q := repr_not (by decide)
  item l w := ⟨weighted_chars hn max hb (by decide) (by decide) l w, weighted_chars hn max hb (by decide) (by decide) l w⟩
  sep := ⟨' ', .inr rfl, weighted_chars hn max hb (by decide) (by decide)⟩
  itemInj l _ l' _ w w' h := by
    unfold DotStyle.weighted at h
    simp only at h
    obtain ⟨t, ht, -, h1⟩ := dotWeight_form hn max hb w
    obtain ⟨t', ht', -, h1'⟩ := dotWeight_form hn max hb w'
    rw [ht, ht'] at h
    obtain ⟨h2, h3⟩ := split_at (repr_not (by decide)) (repr_not (by decide)) h
    have h4 := List.append_cancel_right h3
    refine ⟨repr_inj h2, ?_⟩
    have hm : ∀ w, ['-'] ≠ num w := fun w => (hn.minus w).symm
    have hbm : ∀ b ∈ bottom, ['-'] ≠ b.2 := by
      intro b hm h
      rcases hb b hm with h' | h' <;> rw [h'] at h <;> exact absurd h (by decide)
    have hbn : ∀ b ∈ bottom, ∀ w, b.2 ≠ num w := by
      intro b hm w h
      have : '∞' ∈ num w := by
        rw [← h]
        rcases hb b hm with h' | h' <;> rw [h'] <;> simp
      exact absurd (hn.chars w _ this) (by decide)
    rcases h1 with ⟨rfl, rfl⟩ | ⟨b, hbb, rfl, rfl⟩ | rfl <;> rcases h1' with ⟨rfl, rfl⟩ | ⟨b', hbb', rfl, rfl⟩ | rfl
    · rfl
    · exact absurd h4 (hbm _ hbb')
    · exact absurd h4 (hm _)
    · exact absurd h4.symm (hbm _ hbb)
    · rw [Option.mem_def] at hbb hbb'
      rw [hbb] at hbb'
      cases hbb'
      rfl
    · exact absurd h4 (hbn _ hbb _)
    · exact absurd h4.symm (hm _)
    · exact absurd h4.symm (hbn _ hbb' _)
    · exact hn.inj _ _ h4
  eps w := by
    have h1 : ('"' : Char) ∉ num w := fun h => absurd (hn.chars w _ h) (by decide)
    unfold DotStyle.weighted
    simp only [List.mem_append, List.mem_singleton, h1, or_false, false_or]
    decide
  epsInj w w' h := by
    unfold DotStyle.weighted at h
    exact hn.inj _ _ (List.append_cancel_left (List.append_cancel_right h))
  all := .inl rfl

/-- C86: with the default printers the output determines an automaton with weights, those that have their own text included. -/
theorem c86_weights {num : W → List Char} (hn : NumPrinter num) {labels : Nat} {max : W} {bottom : Option (W × List Char)} (hw : BottomText bottom)
    {a b : Aut W} (ha : DotAut labels a) (hb : DotAut labels b) {h h' : HashOrder} {n n' : Nat}
    (ht : a.toDot (DotStyle.weighted (fun q => q.repr.toList) (fun l => l.repr.toList) max bottom num) h n =
      b.toDot (DotStyle.weighted (fun q => q.repr.toList) (fun l => l.repr.toList) max bottom num) h' n') :
    a.acc = b.acc ∧ n = n' ∧ ∀ q l u w, HasWeighted a q l u w ↔ HasWeighted b q l u w :=
  c86_read (weighted_readable hn max hw labels) ha hb (fun q _ q' _ h => repr_inj h) ht

end Weighted

/-- Numbers without a sign. -/
theorem nat_printer : NumPrinter fun w : Nat => w.repr.toList where
  inj _ _ h := repr_inj h
  chars _ _ h := .inr (repr_digit h)
  minus w h := repr_not (n := w) (c := '-') (by decide) (by rw [h]; simp)

/-- Numbers with a sign. -/
def intText : Int → List Char
  | .ofNat n => n.repr.toList
  | .negSucc n => '-' :: (n + 1).repr.toList

theorem int_printer : NumPrinter intText where
  inj
    | .ofNat _, .ofNat _, h => by rw [repr_inj h]
    | .ofNat n, .negSucc m, h => absurd (show '-' ∈ n.repr.toList by unfold intText at h; simp only at h; rw [h]; simp) (repr_not (by decide))
    | .negSucc m, .ofNat n, h => absurd (show '-' ∈ n.repr.toList by unfold intText at h; simp only at h; rw [← h]; simp) (repr_not (by decide))
    | .negSucc n, .negSucc m, h => by
      unfold intText at h
      simp only [List.cons.injEq, true_and] at h
      have := repr_inj h
      rw [show n = m by omega]
  chars
    | .ofNat _, _, h => .inr (repr_digit h)
    | .negSucc n, c, h => by
      rcases List.mem_cons.1 h with h | h
      · exact .inl (by rw [h]; decide)
      · exact .inr (repr_digit h)
  minus
    | .ofNat n, h => repr_not (n := n) (c := '-') (by decide) (by unfold intText at h; simp only at h; rw [h]; simp)
    | .negSucc n, h => by
      unfold intText at h
      simp only [List.cons.injEq, true_and] at h
      rw [Nat.toList_repr] at h
      exact Nat.toDigits_ne_nil h

theorem vector_inj {W : Type} {num : W → List Char} (hi : ∀ w w', num w = num w' → w = w') (hc : ∀ w, ',' ∉ num w) :
    ∀ {l l' : List W} {x y : W}, num x ++ (l.flatMap fun y => [','] ++ num y) = num y ++ (l'.flatMap fun y => [','] ++ num y) → x = y ∧ l = l'
  | [], [], x, y, h => ⟨hi _ _ (by simpa using h), rfl⟩
  | [], b :: l', x, y, h => by
    rw [List.flatMap_nil, List.append_nil] at h
    exact absurd (by rw [h]; simp) (hc x)
  | a :: l, [], x, y, h => by
    rw [List.flatMap_nil, List.append_nil] at h
    exact absurd (by rw [← h]; simp) (hc y)
  | a :: l, b :: l', x, y, h => by
    simp only [List.flatMap_cons, List.cons_append, List.nil_append] at h
    obtain ⟨h1, h2⟩ := split_at (hc x) (hc y) h
    obtain ⟨rfl, rfl⟩ := vector_inj hi hc h2
    exact ⟨hi _ _ h1, rfl⟩

/-- Vectors of numbers. -/
theorem vector_printer {W : Type} {num : W → List Char} (hn : NumPrinter num) (hc : ∀ w, ',' ∉ num w) (he : ∀ w, num w ≠ []) : NumPrinter (vectorText num) where
  inj
    | [], [], _ => rfl
    | [], x :: l, h => by
      unfold vectorText at h
      have := congrArg List.length h
      have := List.length_pos_iff.2 (he x)
      simp at *
      omega
    | x :: l, [], h => by
      unfold vectorText at h
      have := congrArg List.length h
      have := List.length_pos_iff.2 (he x)
      simp at *
      omega
    | x :: l, y :: l', h => by
      unfold vectorText at h
      simp only [List.append_assoc ['[']] at h
      obtain ⟨rfl, rfl⟩ := vector_inj hn.inj hc (List.append_cancel_right (List.append_cancel_left h))
      rfl
  chars
    | [], c, h => .inl (by unfold vectorText at h; simp only [List.mem_cons, List.not_mem_nil, or_false] at h ⊢; grind)
    | x :: l, c, h => by
      unfold vectorText at h
      simp only [List.mem_append, List.mem_flatMap, List.mem_singleton] at h
      rcases h with ((h | h) | ⟨y, -, h | h⟩) | h
      · exact .inl (by rw [h]; decide)
      · exact hn.chars _ _ h
      · exact .inl (by rw [h]; decide)
      · exact hn.chars _ _ h
      · exact .inl (by rw [h]; decide)
  minus
    | [], h => by unfold vectorText at h; simp at h
    | x :: l, h => by unfold vectorText at h; simp at h

theorem intText_comma : ∀ w, ',' ∉ intText w
  | .ofNat _ => repr_not (by decide)
  | .negSucc n => by
    unfold intText
    simp only [List.mem_cons, not_or]
    exact ⟨by decide, repr_not (by decide)⟩

theorem intText_ne : ∀ w, intText w ≠ []
  | .ofNat n => by
    unfold intText
    simp only
    rw [Nat.toList_repr]
    exact Nat.toDigits_ne_nil
  | .negSucc n => by
    unfold intText
    simp

/-- Vectors of numbers with a sign meet the hypothesis of `c86_weights`. -/
example : NumPrinter (vectorText intText) := vector_printer int_printer intText_comma intText_ne

example : vectorText intText [3, -1, 20] = "[3,-1,20]".toList := by decide +kernel

example : BottomText (some ((-8 : Int), ['-', '∞'])) := fun _ h => by cases h; exact .inr rfl

theorem key_weighted (a : Aut Unit) (t : Tr) : t ∈ keys a.edges ↔ HasWeighted a t.src t.label t.dst () := by
  constructor
  · intro h
    obtain ⟨⟨t, tr, w⟩, ht, rfl⟩ := List.mem_map.1 h
    exact ⟨tr, ht⟩
  · rintro ⟨tr, h⟩
    exact List.mem_map.2 ⟨_, h, rfl⟩

/-- C86: with the default printers the output determines an automaton without weights. -/
theorem c86_default {labels : Nat} {a b : Aut Unit} (ha : DotAut labels a) (hb : DotAut labels b) {h h' : HashOrder} {n n' : Nat}
    (ht : a.toDot (DotStyle.plain (fun q => q.repr.toList) (fun l => l.repr.toList) labels) h n =
      b.toDot (DotStyle.plain (fun q => q.repr.toList) (fun l => l.repr.toList) labels) h' n') :
    a.acc = b.acc ∧ n = n' ∧ ∀ t, t ∈ keys a.edges ↔ t ∈ keys b.edges := by
  obtain ⟨h1, h2, h3⟩ := c86_read (plain_readable labels) ha hb (fun q _ q' _ h => repr_inj h) ht
  exact ⟨h1, h2, fun t => by rw [key_weighted, key_weighted]; exact h3 _ _ _ _⟩

/-! ## Names -/

theorem nameOrNumber_not {names : List String} {c : Char} (hc : c.isDigit = false) (hn : ∀ s ∈ names, c ∉ s.toList) (q : Nat) : c ∉ nameOrNumber names q := by
  unfold nameOrNumber
  split
  · next s h => exact hn s (List.mem_of_getElem? h)
  · exact repr_not hc

theorem nameOrNumber_inj {names : List String} (hd : names.Nodup) {n : Nat} (hn : ∀ q, names.length ≤ q → q < n → q.repr ∉ names) {q q' : Nat} (hq : q < n)
    (hq' : q' < n) (h : nameOrNumber names q = nameOrNumber names q') : q = q' := by
  unfold nameOrNumber at h
  split at h <;> split at h
  · next s h1 _ s' h2 =>
    have h3 : s = s' := String.toList_injective h
    subst h3
    exact (List.getElem?_inj (List.getElem?_eq_some_iff.1 h1).1 hd).1 (h1.trans h2.symm)
  · next s h1 _ h2 =>
    have h3 : s = q'.repr := String.toList_injective h
    exact absurd (h3 ▸ List.mem_of_getElem? h1) (hn q' (List.getElem?_eq_none_iff.1 h2) hq')
  · next h1 _ s h2 =>
    have h3 : s = q.repr := String.toList_injective h.symm
    exact absurd (h3 ▸ List.mem_of_getElem? h2) (hn q (List.getElem?_eq_none_iff.1 h1) hq)
  · exact repr_inj h

/-- C86: `automaton_to_dot` determines an automaton without weights if no state of the PDA is called like another state's number, no name contains a
quote, no label a quote or a backslash, and no label a comma or no label a blank. -/
theorem c86_named_partial {names labels : List String} (hn : names.Nodup) (hl : labels.Nodup) (hq : ∀ s ∈ names, '"' ∉ s.toList)
    (hc : ∀ s ∈ labels, '"' ∉ s.toList ∧ '\\' ∉ s.toList) (hsep : (∀ s ∈ labels, ',' ∉ s.toList) ∨ ∀ s ∈ labels, ' ' ∉ s.toList) {a b : Aut Unit} (ha : DotAut labels.length a) (hb : DotAut labels.length b)
    (hr : ∀ q, names.length ≤ q → q < a.n → q.repr ∉ names) {h h' : HashOrder} {n n' : Nat}
    (ht : a.toDot (DotStyle.plain (nameOrNumber names) (nameOrNumber labels) labels.length) h n =
      b.toDot (DotStyle.plain (nameOrNumber names) (nameOrNumber labels) labels.length) h' n') :
    a.acc = b.acc ∧ n = n' ∧ ∀ t, t ∈ keys a.edges ↔ t ∈ keys b.edges := by
  have hs : (DotStyle.plain (nameOrNumber names) (nameOrNumber labels) labels.length).Readable labels.length :=
    { state := nameOrNumber_not (by decide) hq
      item := fun l _ => ⟨nameOrNumber_not (by decide) (fun s hs => (hc s hs).1) l, nameOrNumber_not (by decide) (fun s hs => (hc s hs).2) l⟩
      sep := by
        rcases hsep with h | h
        · exact ⟨_, .inl rfl, fun l _ => nameOrNumber_not (by decide) h l⟩
        · exact ⟨_, .inr rfl, fun l _ => nameOrNumber_not (by decide) h l⟩
      itemInj := fun l hl1 l' hl2 _ _ h => ⟨nameOrNumber_inj hl (fun q h1 h2 => absurd h1 (by omega)) hl1 hl2 h, rfl⟩
      eps := fun w => by simp [DotStyle.plain]
      epsInj := fun _ _ _ => rfl
      all := .inr ⟨rfl, fun _ _ => rfl⟩ }
  obtain ⟨h1, h2, h3⟩ := c86_read hs ha hb (fun q h1 q' h2 h => nameOrNumber_inj hn hr h1 h2 h) ht
  exact ⟨h1, h2, fun t => by rw [key_weighted, key_weighted]; exact h3 _ _ _ _⟩

/-! ## Names that clash -/

/-- C86 fails for the state names `0` and `I0`: the node that marks `0` as initial is the node of the other state, which is made invisible. -/
theorem c86_hidden_wrong : ∃ names : List String, names.Nodup ∧ ∀ (a : Aut Unit) (labels : Nat) (h : HashOrder), a.n = 2 → ∃ xs d,
    DotText xs (a.toDot (DotStyle.plain (nameOrNumber names) (fun l => l.repr.toList) labels) h names.length) ∧
    .node "I0".toList d ∈ xs ∧ .hidden "I0".toList ∈ xs := by
  refine ⟨["0", "I0"], by decide, fun a labels h hn => ?_⟩
  obtain ⟨tos, -, -, ht⟩ := c86_graph (DotStyle.plain (nameOrNumber ["0", "I0"]) (fun l => l.repr.toList) labels) h 2 a
  refine ⟨_, a.isAcc 1, ht, List.mem_append_left _ (List.mem_flatMap.2 ⟨1, List.mem_range.2 (by omega), ?_⟩),
    List.mem_append_right _ (List.mem_flatMap.2 ⟨0, List.mem_range.2 (by omega), ?_⟩)⟩
  · exact List.mem_cons.2 (.inl rfl)
  · exact List.mem_cons.2 (.inr (List.mem_singleton.2 rfl))

def dotPlain (es : List Tr) : Aut Unit := ⟨[false, false, true], es.map fun t => (t, (.null, ()))⟩

/-- C86 fails for names: if a state of the PDA is called `2` and the automaton has a state 2, then a transition to the one and a transition to the
other give the same output. -/
theorem c86_names_wrong : ∃ (names : List String) (a b : Aut Unit), names.Nodup ∧ DotAut 2 a ∧ DotAut 2 b ∧ ¬ (∀ t, t ∈ keys a.edges ↔ t ∈ keys b.edges) ∧
    a.toDot (DotStyle.plain (nameOrNumber names) (fun l => l.repr.toList) 2) .id names.length =
      b.toDot (DotStyle.plain (nameOrNumber names) (fun l => l.repr.toList) 2) .id names.length := by
  refine ⟨["2", "b"], dotPlain [⟨1, 0, 0⟩], dotPlain [⟨1, 0, 2⟩], by decide, ⟨by decide, by decide⟩, ⟨by decide, by decide⟩, ?_, by decide +kernel⟩
  intro h
  exact absurd ((h ⟨1, 0, 0⟩).1 (by decide)) (by decide)

/-- C86 fails for labels with a comma and a blank: `a` and `b` together look like `a, b`. -/
theorem c86_comma_wrong : ∃ (labels : List String) (a b : Aut Unit), labels.Nodup ∧ DotAut labels.length a ∧ DotAut labels.length b ∧
    ¬ (∀ t, t ∈ keys a.edges ↔ t ∈ keys b.edges) ∧
    a.toDot (DotStyle.plain (fun q => q.repr.toList) (nameOrNumber labels) labels.length) .id 1 =
      b.toDot (DotStyle.plain (fun q => q.repr.toList) (nameOrNumber labels) labels.length) .id 1 := by
  refine ⟨["a", "a, b", "b", "c"], dotPlain [⟨0, 0, 2⟩, ⟨0, 2, 2⟩], dotPlain [⟨0, 1, 2⟩], by decide, ⟨by decide, by decide⟩, ⟨by decide, by decide⟩, ?_,
    by decide +kernel⟩
  intro h
  exact absurd ((h ⟨0, 0, 2⟩).1 (by decide)) (by decide)

/-! ## Examples -/

/-- Transitions with both labels and epsilon from 0 to 2, and with one label from 1 to 2. -/
example : DotAut 2 (dotPlain [⟨0, 0, 2⟩, ⟨0, 1, 2⟩, ⟨0, epsilon, 2⟩, ⟨1, 1, 2⟩]) := ⟨by decide, by decide⟩

example : ((dotPlain [⟨0, 0, 2⟩, ⟨0, 1, 2⟩, ⟨0, epsilon, 2⟩, ⟨1, 1, 2⟩]).toDot (DotStyle.plain (fun q => q.repr.toList) (fun l => l.repr.toList) 2) .id 1) =
    "digraph NFA {\n\"0\" [shape=circle];\n\"0\" -> \"2\" [ label=\"* 𝜀\"];\n\"1\" [shape=circle];\n\"1\" -> \"2\" [ label=\"\\[1\\]\"];\n\"2\" [shape=doublecircle];\n\"I0\" -> \"0\";\n\"I0\" [style=invisible];\n}\n".toList := by
  decide +kernel

example : ∃ e, (DotStyle.plain (fun q => q.repr.toList) (fun l => l.repr.toList) 2).label ((dotPlain [⟨0, 0, 2⟩, ⟨0, 1, 2⟩]).labelsTo 0 2) = '*' :: e :=
  (c86_star (by decide) ⟨by decide, by decide⟩ 0 2).2 (by decide)

/-- Two states of the PDA with names and a third state; two labels. -/
example : (["p", "q"] : List String).Nodup ∧ (["a", "b"] : List String).Nodup ∧ (∀ s ∈ (["p", "q"] : List String), '"' ∉ s.toList) ∧
    (∀ s ∈ (["a", "b"] : List String), '"' ∉ s.toList ∧ '\\' ∉ s.toList) ∧ (∀ s ∈ (["a", "b"] : List String), ',' ∉ s.toList) ∧ DotAut 2 (dotPlain [⟨0, 0, 2⟩]) ∧
    ∀ q, 2 ≤ q → q < (dotPlain [⟨0, 0, 2⟩]).n → q.repr ∉ (["p", "q"] : List String) := by
  refine ⟨by decide, by decide, by decide, by decide, by decide, ⟨by decide, by decide⟩, fun q h1 h2 => ?_⟩
  have : q = 2 := by
    have : q < 3 := h2
    omega
  rw [this]
  decide

def dotWeighted : Aut Nat := ⟨[false, true], [(⟨0, 1, 1⟩, (.null, 7)), (⟨0, 0, 1⟩, (.null, 9)), (⟨0, epsilon, 1⟩, (.null, 3))]⟩

example : DotAut 2 dotWeighted := ⟨by decide, by decide⟩

/-- 9 is the largest weight here. -/
example : dotWeighted.toDot (DotStyle.weighted (fun q => q.repr.toList) (fun l => l.repr.toList) 9 none (fun w => w.repr.toList)) .id 1 =
    "digraph NFA {\n\"0\" [shape=circle];\n\"0\" -> \"1\" [ label=\"\\[0(-), 1(7)\\] 𝜀(3)\"];\n\"1\" [shape=doublecircle];\n\"I0\" -> \"0\";\n\"I0\" [style=invisible];\n}\n".toList := by
  decide +kernel

/-- Shortest traces with signed weights: -8 is the least weight here. -/
example : (⟨[false, true], [(⟨0, 1, 1⟩, (.null, -8)), (⟨0, 0, 1⟩, (.null, -3))]⟩ : Aut Int).toDot
      (DotStyle.weighted (fun q => q.repr.toList) (fun l => l.repr.toList) 7 (some (-8, ['-', '∞'])) intText) .id 0 =
    "digraph NFA {\n\"0\" [shape=circle];\n\"0\" -> \"1\" [ label=\"\\[0(-3), 1(-∞)\\]\"];\n\"1\" [shape=doublecircle];\n}\n".toList := by
  decide +kernel

/-- Numbers for pointers and symbols meet the hypotheses of `c86_nfa_read`. -/
example {m m' : Nfa} (h : m.toDot (fun q => q.repr.toList) (fun l => l.repr.toList) = m'.toDot (fun q => q.repr.toList) (fun l => l.repr.toList)) :
    m.states = m'.states ∧ m.initial = m'.initial :=
  c86_nfa_read (fun _ _ h => repr_inj h) (fun _ => repr_not (by decide)) (fun _ _ h => repr_inj h)
    (fun _ => ⟨repr_not (by decide), repr_not (by decide)⟩) (.inl fun _ => repr_not (by decide)) h

example : NEdge.dotLabel (fun l => l.repr.toList) ⟨true, true, [1, 2], 0⟩ = "^\\[1, 2\\] 𝜀".toList := by decide +kernel

end Verif.Props
