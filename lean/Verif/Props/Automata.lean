import Verif.Proofs.FindPath
import Verif.Props.PreStar

/-!
# C15, C17-C20, C33: building and querying P-automata
-/

namespace Verif.Props

variable {W : Type}

/-! ## C15 -/

/-- C15: the automaton built for `⟨q0, stack⟩` accepts exactly this configuration. -/
theorem c15_single [Zero W] (h : HashOrder) (size q0 : Nat) (hq : q0 < size) (stack : List Nat)
    (q : Nat) (w : List Nat) (hq' : q < size) :
    (Aut.single (W := W) size q0 stack).accepts h q w = true ↔ (q, w) = (q0, stack) := by
  rw [accepts_iff, Aut.single_lang size q0 hq stack q w hq', Prod.mk.injEq]

/-- C15: it is a legal input for the saturations. -/
theorem c15_single_ok [Zero W] (p : Pda W) (q0 : Nat) (hq : q0 < p.size) (stack : List Nat)
    (hs : ∀ g ∈ stack, g < p.nLabels) : PAut p (Aut.single p.size q0 stack) := by
  obtain ⟨h1, _, h3⟩ := Aut.single_spec (W := W) p.size q0 stack
  have hlt : ∀ {j g}, stack[j]? = some g → j < stack.length := fun {j g} h => by
    by_contra hn
    rw [List.getElem?_eq_none (by omega)] at h
    simp at h
  constructor
  · constructor
    · rw [h3]; omega
    · intro t ht
      obtain ⟨j, g, hj, rfl⟩ := (h1 t).1 ht
      have := hlt hj
      rw [h3]
      refine ⟨?_, hs g (List.mem_of_getElem? hj), ?_⟩
      · show Aut.chain p.size q0 j < _
        unfold Aut.chain; split <;> omega
      · show Aut.chain p.size q0 (j + 1) < _
        unfold Aut.chain; split <;> omega
    · have hnd : ∀ (l : List (Nat × Nat)) (s : Aut W × Nat) (len : Nat), (keys s.1.edges).Nodup →
          (keys (l.foldl (Aut.singleRound len) s).1.edges).Nodup := by
        intro l
        induction l with
        | nil => intro s _ h; exact h
        | cons x l ih =>
          intro s len h
          rw [List.foldl_cons]
          refine ih _ len ?_
          unfold Aut.singleRound Aut.addEdge
          exact Aut.nodup_emplaceEdge (a := s.1.addState _) h _ _
      unfold Aut.single
      refine hnd _ _ _ ?_
      rw [(Aut.single_init p.size _ p.size).2]
      exact List.nodup_nil
  · intro t ht
    obtain ⟨j, g, hj, rfl⟩ := (h1 t).1 ht
    show p.size ≤ Aut.chain p.size q0 (j + 1)
    unfold Aut.chain; split <;> omega

example : (Aut.single (W := Unit) 3 1 [5, 7]).accepts HashOrder.id 1 [5, 7] = true ∧
    (Aut.single (W := Unit) 3 1 [5, 7]).accepts HashOrder.id 1 [5] = false ∧
    (Aut.single (W := Unit) 3 1 []).accepts HashOrder.id 1 [] = true := by decide

/-! ## C17 -/

/-- C17: `a.or_extend(b)` makes `a` accept exactly the configurations that `a` or `b` accepted. -/
theorem c17_or_extend (h h' : HashOrder) (size : Nat) (a b : Aut W) (hsa : size ≤ a.n) (hsb : size ≤ b.n)
    (ha : ∀ t ∈ keys a.edges, t.src < a.n ∧ t.dst < a.n ∧ size ≤ t.dst)
    (hb : ∀ t ∈ keys b.edges, t.src < b.n ∧ t.dst < b.n ∧ size ≤ t.dst)
    (q : Nat) (w : List Nat) (hq : q < size) :
    (a.orExtend h size b).accepts h' q w = true ↔
      a.accepts h' q w = true ∨ b.accepts h' q w = true := by
  rw [accepts_iff, accepts_iff, accepts_iff]
  exact Aut.orExtend_lang h size a b hsa hsb ha hb q w hq

/-- C17 in terms of the precondition of the saturations. -/
theorem c17_or_extend_paut (h h' : HashOrder) {p : Pda W} {a b : Aut W} (ha : PAut p a) (hb : PAut p b)
    (q : Nat) (w : List Nat) (hq : q < p.size) :
    (a.orExtend h p.size b).accepts h' q w = true ↔
      a.accepts h' q w = true ∨ b.accepts h' q w = true :=
  c17_or_extend h h' p.size a b ha.size_le hb.size_le
    (fun t ht => ⟨(ha.valid t ht).1, (ha.valid t ht).2.2, ha.noInto t ht⟩)
    (fun t ht => ⟨(hb.valid t ht).1, (hb.valid t ht).2.2, hb.noInto t ht⟩) q w hq

/-- C17 needs its precondition: with a transition into a control state the union accepts more. -/
theorem c17_into_control :
    let a : Aut Unit := ⟨[false, false, true], [(⟨0, 5, 1⟩, Trace.null, ())]⟩
    let b : Aut Unit := ⟨[false, false, true], [(⟨1, 6, 2⟩, Trace.null, ())]⟩
    (a.orExtend HashOrder.id 2 b).accepts HashOrder.id 0 [5, 6] = true ∧
      a.accepts HashOrder.id 0 [5, 6] = false ∧ b.accepts HashOrder.id 0 [5, 6] = false := by decide

example : (Aut.orExtend HashOrder.id 2 (Aut.single (W := Unit) 2 0 [5, 7]) (Aut.single 2 1 [6])).accepts
      HashOrder.id 1 [6] = true ∧
    (Aut.orExtend HashOrder.id 2 (Aut.single (W := Unit) 2 0 [5, 7]) (Aut.single 2 1 [6])).accepts
      HashOrder.id 0 [5, 7] = true := by decide

/-! ## C18 -/

/-- C18: the transitions after `add_edges(from, to, negated, labels)`. -/
theorem c18_add_edges [Zero W] (nl : Nat) (a : Aut W) (src dst : Nat) (negated : Bool) (labels : List Nat)
    (hs : negated = true → labels.Pairwise (· < ·) ∧ ∀ l ∈ labels, l < nl) (t : Tr) :
    (a.addEdges nl src dst negated labels).hasEdge t = true ↔ a.hasEdge t = true ∨
      (t.src = src ∧ t.dst = dst ∧
        (if negated then t.label < nl ∧ t.label ∉ labels else t.label ∈ labels)) := by
  rw [Aut.hasEdge_iff, Aut.hasEdge_iff, (Aut.addEdges_spec nl a src dst negated labels hs).1]
  grind

/-- C18 for the overload with a list of sources. -/
theorem c18_add_edges_from [Zero W] (nl : Nat) (a : Aut W) (srcs : List Nat) (dst : Nat) (negated : Bool)
    (labels : List Nat) (hs : negated = true → labels.Pairwise (· < ·) ∧ ∀ l ∈ labels, l < nl) (t : Tr) :
    (a.addEdgesFrom nl srcs dst negated labels).hasEdge t = true ↔ a.hasEdge t = true ∨
      (t.src ∈ srcs ∧ t.dst = dst ∧
        (if negated then t.label < nl ∧ t.label ∉ labels else t.label ∈ labels)) := by
  rw [Aut.hasEdge_iff, Aut.hasEdge_iff, (Aut.addEdgesFrom_spec nl a srcs dst negated labels hs).1]
  grind

/-- C18: accepting states and the number of states do not change. -/
theorem c18_add_edges_states [Zero W] (nl : Nat) (a : Aut W) (src dst : Nat) (negated : Bool)
    (labels : List Nat) (hs : negated = true → labels.Pairwise (· < ·) ∧ ∀ l ∈ labels, l < nl) :
    (a.addEdges nl src dst negated labels).acc = a.acc :=
  (Aut.addEdges_spec nl a src dst negated labels hs).2

/-- C18, the limit of the precondition: the assertion in the code allows repeated labels
(`std::is_sorted`), but with a repeated label the next one is lost. -/
theorem c18_repeated_label :
    (Aut.addEdges 5 (⟨[false, true], []⟩ : Aut Unit) 0 1 true [2, 2]).hasEdge ⟨0, 3, 1⟩ = false := by decide

/-- C18: unsorted labels are added although they are listed. -/
theorem c18_unsorted_labels :
    (Aut.addEdges 6 (⟨[false, true], []⟩ : Aut Unit) 0 1 true [5, 2]).hasEdge ⟨0, 2, 1⟩ = true := by decide

example : keys (Aut.addEdges 4 (⟨[false, true], []⟩ : Aut Unit) 0 1 true [1, 3]).edges =
    [⟨0, 2, 1⟩, ⟨0, 0, 1⟩] := by decide

/-! ## C19 -/

/-- C19: `accepts` decides whether a path spelling the stack leads to an accepting state. -/
theorem c19_accepts (h : HashOrder) (a : Aut W) (q : Nat) (w : List Nat) :
    a.accepts h q w = true ↔
      ∃ f, Path (fun t => a.hasEdge t = true) q w f ∧ a.isAcc f = true := by
  rw [accepts_iff]
  simp only [Aut.hasEdge_iff]
  rfl

/-- C19: `accept_path` returns the states of such a path if there is one, and nothing otherwise. -/
theorem c19_accept_path (h : HashOrder) (a : Aut W) (q : Nat) (w : List Nat) :
    if a.accepts h q w then
      ∃ qs, a.acceptPath h q w = q :: qs ∧ qs.length = w.length ∧
        (∀ i g, w[i]? = some g → ∃ x y, (q :: qs)[i]? = some x ∧ (q :: qs)[i + 1]? = some y ∧
          a.hasEdge ⟨x, g, y⟩ = true) ∧
        ∃ f, (q :: qs).getLast? = some f ∧ a.isAcc f = true
    else a.acceptPath h q w = [] := by
  obtain ⟨h1, h2⟩ := acceptPath_spec h a q w
  by_cases hacc : a.accepts h q w = true
  · rw [if_pos hacc]
    obtain ⟨h3, h4, h5⟩ := h2 hacc
    cases hp : a.acceptPath h q w with
    | nil => rw [hp] at h4; simp at h4
    | cons x qs =>
      rw [hp] at h3 h4 h5
      simp only [List.head?_cons, Option.some.injEq] at h4
      subst h4
      refine ⟨qs, rfl, by simpa using h3.length, ?_, h5⟩
      clear hp h1 h2 h5 hacc
      intro i g hg
      induction i generalizing x qs w with
      | zero =>
        cases w with
        | nil => simp at hg
        | cons g' w =>
          simp only [List.getElem?_cons_zero, Option.some.injEq] at hg
          subst hg
          cases qs with
          | nil => simp [Spells] at h3
          | cons y qs => exact ⟨x, y, rfl, rfl, by rw [Aut.hasEdge_iff]; exact h3.1⟩
      | succ i ih =>
        cases w with
        | nil => simp at hg
        | cons g' w =>
          cases qs with
          | nil => simp [Spells] at h3
          | cons y qs =>
            obtain ⟨x', y', g1, g2, g3⟩ := ih w y qs h3.2 (by simpa using hg)
            exact ⟨x', y', by simpa using g1, by simpa using g2, g3⟩
  · rw [if_neg hacc]
    exact h1 (by simpa using hacc)

/-- C19 and epsilon: without epsilon transitions the answer is the language with epsilon moves. -/
theorem c19_no_epsilon (h : HashOrder) (a : Aut W) (hne : ∀ t ∈ keys a.edges, t.label ≠ epsilon)
    (q : Nat) (w : List Nat) :
    a.accepts h q w = true ↔ EAccepted (fun t => a.hasEdge t = true) (fun f => a.isAcc f = true) (q, w) := by
  rw [c19_accepts]
  constructor
  · rintro ⟨f, hp, hf⟩
    refine ⟨f, ?_, hf⟩
    dsimp only
    clear hf
    induction hp with
    | nil q => exact .nil q
    | cons he _ ih => exact .cons (hne _ ((Aut.hasEdge_iff _ _).1 he)) he ih
  · rintro ⟨f, hp, hf⟩
    refine ⟨f, ?_, hf⟩
    dsimp only at hp
    clear hf
    induction hp with
    | nil q => exact .nil q
    | cons _ he _ ih => exact .cons he ih
    | eps he _ _ => exact absurd rfl (hne _ ((Aut.hasEdge_iff _ _).1 he))

/-- C19, the disagreement found: with an epsilon transition, as post* creates them, `accepts` misses
the empty stack. -/
theorem c19_misses_epsilon :
    let a : Aut Unit := ⟨[false, true], [(⟨0, epsilon, 1⟩, Trace.null, ())]⟩
    EAccepted (fun t => a.hasEdge t = true) (fun f => a.isAcc f = true) (0, []) ∧
      a.accepts HashOrder.id 0 [] = false := by
  refine ⟨⟨1, .eps (q := 1) (by decide) (.nil 1), by decide⟩, by decide⟩

example : (Aut.single (W := Unit) 3 1 [5, 7]).acceptPath HashOrder.id 1 [5, 7] = [1, 3, 4] := by decide

/-! ## C20 -/

/-- C20: `find_path` returns an accepting path from a control state if the automaton accepts any
configuration, and the null path otherwise. -/
theorem c20_find_path (h : HashOrder) (a : Aut W) (size : Nat) (hsize : size ≤ a.n) (hn : a.n ≤ sizeMax)
    (hE : ∀ t ∈ keys a.edges, t.dst < a.n) :
    ((a.findPath h size).isNull = false ↔ ∃ q w, q < size ∧ a.accepts h q w = true) ∧
    ((a.findPath h size).isNull = false →
      (a.findPath h size).frontState < size ∧ a.isAcc (a.findPath h size).fin = true ∧
      Spells (fun t => a.hasEdge t = true) (a.findPath h size).states (a.findPath h size).stack) := by
  have hE' : (fun t => a.hasEdge t = true) = (· ∈ keys a.edges) := by
    funext t; exact propext (Aut.hasEdge_iff a t)
  rw [hE']
  rcases Aut.findPath_spec h a size hsize hE with hp | ⟨hnull, hno⟩
  · have hnn : (a.findPath h size).isNull = false := by
      have := Aut.isAcc_lt hp.2.2
      unfold APath.isNull
      rw [beq_eq_false_iff_ne]
      omega
    refine ⟨⟨fun _ => ?_, fun _ => hnn⟩, fun _ => ⟨hp.2.1, hp.2.2, hp.1⟩⟩
    refine ⟨_, (a.findPath h size).stack, hp.2.1, ?_⟩
    rw [accepts_iff]
    exact ⟨_, hp.1.path (APath.head_states _) (APath.last_states _), hp.2.2⟩
  · have hnn : (a.findPath h size).isNull = true := by rw [hnull]; rfl
    refine ⟨⟨fun h1 => by simp [hnn] at h1, ?_⟩, fun h1 => by simp [hnn] at h1⟩
    rintro ⟨q, w, hq, hacc⟩
    rw [accepts_iff] at hacc
    obtain ⟨f, hpath, hf⟩ := hacc
    simp [hno q w f hq hpath] at hf

example : (Aut.single (W := Unit) 3 1 [5, 7]).findPath HashOrder.id 3 = ⟨4, [(5, 1), (7, 3)]⟩ := by decide

/-! ## C33 -/

section C33

variable {S : Type}

/-- C33: a path built from states and labels gives them back. -/
theorem c33_round_trip (path : List S) (stack : List Nat) (h : path.length = stack.length + 1) :
    ∃ p, APath.mk? path stack = some p ∧ p.stack = stack ∧ path.head? = some p.frontState ∧
      path.getLast? = some p.fin ∧ p.edgesSize = stack.length ∧ p.isEmpty = stack.isEmpty ∧
      (epsilon ∉ stack → p.pathAndStack = (path, stack)) := by
  obtain ⟨p, h1, h2, h3⟩ := APath.mk?_spec path stack h
  refine ⟨p, h1, by rw [APath.stack_eq, h3], ?_, ?_, ?_, ?_, ?_⟩
  · rw [← h2]; exact p.head_states
  · rw [← h2]; exact p.last_states
  · rw [← h3]; simp [APath.edgesSize]
  · rw [← h3]; cases hp : p.edges <;> simp [APath.isEmpty, hp]
  · intro hne
    rw [APath.pathAndStack_eq]
    have : p.edges.filter (fun x => decide (x.1 ≠ epsilon)) = p.edges := by
      rw [List.filter_eq_self]
      intro x hx
      simp only [ne_eq, decide_not, Bool.not_eq_true', decide_eq_false_iff_not]
      intro h4
      exact hne (h3 ▸ h4 ▸ List.mem_map_of_mem hx)
    rw [this, h2, h3]

/-- C33: with epsilon labels, `get_path_and_stack` drops exactly these edges. -/
theorem c33_skip_epsilon (p : APath S) :
    p.pathAndStack = ((p.edges.filter fun x => decide (x.1 ≠ epsilon)).map Prod.snd ++ [p.fin],
      p.stack.filter fun x => decide (x ≠ epsilon)) := by
  rw [APath.pathAndStack_eq, APath.stack_eq]
  congr 1
  induction p.edges with
  | nil => rfl
  | cons x l ih => by_cases hx : x.1 = epsilon <;> simp_all

/-- C33: `pop` undoes `emplace`, and after `emplace` the front edge is the new one. -/
theorem c33_emplace_pop (p : APath S) (src : S) (l : Nat) :
    (p.emplace src l).pop = p ∧ (p.emplace src l).frontState = src ∧
      (p.emplace src l).frontEdge = some (src, l, p.frontState) ∧
      (p.emplace src l).edgesSize = p.edgesSize + 1 ∧ (p.emplace src l).fin = p.fin ∧
      (p.emplace src l).stack = l :: p.stack := by
  rcases p with ⟨f, _ | ⟨x, es⟩⟩ <;> simp [APath.emplace, APath.pop, APath.frontState, APath.frontEdge,
    APath.edgesSize, APath.stack_eq]

/-- C33: conversely, a path with an edge is its tail with the front edge put back. -/
theorem c33_pop_emplace (p : APath S) (hne : p.isEmpty = false) :
    ∃ src l dst, p.frontEdge = some (src, l, dst) ∧ dst = p.pop.frontState ∧ p.pop.emplace src l = p := by
  rcases p with ⟨f, _ | ⟨x, _ | ⟨y, es⟩⟩⟩
  · simp [APath.isEmpty] at hne
  · exact ⟨_, _, _, rfl, rfl, rfl⟩
  · exact ⟨_, _, _, rfl, rfl, rfl⟩

/-- C33: `split` gives the two projections of a path of pairs. -/
theorem c33_split (p : APath (Nat × Nat)) :
    p.split.1.states = p.states.map Prod.fst ∧ p.split.2.states = p.states.map Prod.snd ∧
      p.split.1.stack = p.stack ∧ p.split.2.stack = p.stack := by
  rw [APath.split_eq]
  simp [APath.states, APath.stack_eq, Function.comp_def]

/-- C33: `remove_epsilon` drops a leading epsilon edge and nothing else. -/
theorem c33_remove_epsilon (p : APath S) :
    p.removeEpsilon.stack = (if p.stack.head? = some epsilon then p.stack.tail else p.stack) ∧
      p.removeEpsilon.states = (if p.stack.head? = some epsilon then p.states.tail else p.states) := by
  rw [APath.stack_eq, APath.stack_eq]
  rcases p with ⟨f, _ | ⟨x, _ | ⟨y, es⟩⟩⟩
  · simp [APath.removeEpsilon, APath.frontEdge]
  · by_cases hx : x.1 = epsilon <;>
      simp [APath.removeEpsilon, APath.frontEdge, APath.pop, APath.states, hx]
  · by_cases hx : x.1 = epsilon <;>
      simp [APath.removeEpsilon, APath.frontEdge, APath.pop, APath.states, hx]

example : APath.mk? [1, 3, 4] [5, 7] = some ⟨4, [(5, 1), (7, 3)]⟩ := by decide
example : (⟨(4, 8), [(5, (1, 1)), (7, (3, 6))]⟩ : APath (Nat × Nat)).split =
    (⟨4, [(5, 1), (7, 3)]⟩, ⟨8, [(5, 1), (7, 6)]⟩) := by decide

end C33

end Verif.Props
