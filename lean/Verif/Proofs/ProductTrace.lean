import Verif.Model.ProductTrace
import Verif.Proofs.TraceBack
import Verif.Proofs.SolverProduct

/-! # Paths of the product and of its two automata -/

namespace Verif

variable {W : Type}

namespace APath

variable {S S' : Type}

theorem frontState_map (f : S → S') (p : APath S) : (p.map f).frontState = f p.frontState := by
  rcases p with ⟨e, _ | ⟨x, es⟩⟩ <;> rfl

theorem stack_map (f : S → S') (p : APath S) : (p.map f).stack = p.stack := by
  rw [stack_eq, stack_eq]
  simp [map]

theorem split_map (f : Nat → Nat × Nat) (p : APath Nat) :
    (p.map f).split = (p.map fun q => (f q).1, p.map fun q => (f q).2) := by
  rw [split_eq]
  simp [map]

theorem removeEpsilon_eq {p : APath S} (h : ∀ x ∈ p.edges.tail, x.1 ≠ epsilon) :
    p.removeEpsilon = ⟨p.fin, p.edges.filter fun x => decide (x.1 ≠ epsilon)⟩ := by
  rcases p with ⟨f, _ | ⟨x, es⟩⟩
  · rfl
  · have he : es.filter (fun x => decide (x.1 ≠ epsilon)) = es := by
      rw [List.filter_eq_self]
      intro y hy
      simpa using h y hy
    unfold removeEpsilon
    have h1 : frontEdge ⟨f, x :: es⟩ = some (x.2, x.1, frontState ⟨f, es⟩) := by cases es <;> rfl
    rw [h1]
    simp only [List.filter_cons, he]
    by_cases hx : x.1 = epsilon <;> simp [hx, pop]

theorem states_filter (p : APath S) :
    (states ⟨p.fin, p.edges.filter fun x => decide (x.1 ≠ epsilon)⟩,
      stack ⟨p.fin, p.edges.filter fun x => decide (x.1 ≠ epsilon)⟩) = p.pathAndStack := by
  rw [pathAndStack_eq, stack_eq]
  rfl

end APath

theorem trs_map (f : Nat → Nat) (fin : Nat) (es : List (Nat × Nat)) :
    trs (f fin) (es.map fun x => (x.1, f x.2)) = (trs fin es).map fun t => ⟨f t.src, t.label, f t.dst⟩ := by
  induction es with
  | nil => rfl
  | cons x es ih =>
    simp only [List.map_cons, trs, ih]
    congr 2
    exact APath.frontState_map f ⟨fin, es⟩

namespace Product

variable {dual : Bool} {A B : Aut W} {s : Product W}

theorem AcceptingPath.trs_mem {a : Aut W} {size : Nat} {P : APath Nat} (h : AcceptingPath a size P) :
    ∀ t ∈ P.trs, t ∈ keys a.edges := (trs_spells _ P.fin P.edges).1 h.1

/-- A path of the product, seen in the first automaton. -/
theorem PInv.first (h : PInv dual A B s) (hB : ∀ t ∈ keys B.edges, t.label ≠ epsilon) {P : APath Nat}
    (hP : AcceptingPath s.aut s.size P) : AcceptingPath A s.size (P.map fun q => (s.orig q).1) := by
  refine ⟨?_, ?_, ((h.acc _ (Aut.isAcc_lt hP.2.2)).1 hP.2.2).1⟩
  · refine (trs_spells _ _ _).2 ?_
    rw [trs_map (fun q => (s.orig q).1)]
    intro t ht
    rw [List.mem_map] at ht
    obtain ⟨u, hu, rfl⟩ := ht
    obtain ⟨_, _, h1 | h1⟩ := h.edges u (AcceptingPath.trs_mem hP u hu)
    · rcases h1 with ⟨h1, h2 | h2⟩
      · rw [h1]; exact h2.1
      · exact absurd rfl (hB _ h2.1)
    · exact h1.2.1
  · rw [APath.frontState_map, orig_lt hP.2.1]
    exact hP.2.1

/-- A path of the product, seen in the second automaton, where the epsilon edges do not exist. -/
theorem PInv.second_aux (h : PInv dual A B s) (hB : ∀ t ∈ keys B.edges, t.label ≠ epsilon) (fin : Nat)
    (es : List (Nat × Nat)) (hE : ∀ t ∈ trs fin es, t ∈ keys s.aut.edges) :
    let Q : APath Nat := (APath.map (fun q => (s.orig q).2) ⟨fin, es⟩)
    Spells (· ∈ keys B.edges) Q.pathAndStack.1 Q.pathAndStack.2 ∧
      Q.pathAndStack.1.head? = some (s.orig (APath.frontState ⟨fin, es⟩)).2 := by
  intro Q
  have hQ : Q = (APath.map (fun q => (s.orig q).2) ⟨fin, es⟩) := rfl
  rw [hQ, APath.pathAndStack_eq]
  clear hQ Q
  induction es with
  | nil => simp [APath.map, Spells, APath.frontState]
  | cons x es ih =>
    simp only [trs, List.forall_mem_cons] at hE
    obtain ⟨i1, i2⟩ := ih hE.2
    obtain ⟨_, _, hm⟩ := h.edges _ hE.1
    simp only [APath.map, List.map_cons, List.filter_cons] at i1 i2 ⊢
    rcases hm with ⟨h1, h2 | h2⟩ | ⟨h1, _, h2⟩
    · dsimp only at h1 h2
      simp only [h1, ne_eq, not_true_eq_false, decide_false, Bool.false_eq_true, if_false]
      refine ⟨i1, ?_⟩
      rw [i2, h2.2]
      rfl
    · exact absurd rfl (hB _ h2.1)
    · dsimp only at h1 h2
      simp only [ne_eq, h1, not_false_eq_true, decide_true, if_true, List.map_cons, List.cons_append, List.head?_cons]
      refine ⟨?_, rfl⟩
      generalize ((es.map fun x => (x.1, (s.orig x.2).2)).filter fun x => decide (x.1 ≠ epsilon)).map Prod.snd ++
        [(s.orig fin).2] = qs at *
      cases qs with
      | nil => simp at i2
      | cons q qs =>
        simp only [List.head?_cons, Option.some.injEq] at i2
        rw [← i2] at h2
        exact ⟨h2, i1⟩

theorem PInv.second (h : PInv dual A B s) (hB : ∀ t ∈ keys B.edges, t.label ≠ epsilon) {P : APath Nat}
    (hP : AcceptingPath s.aut s.size P) :
    let Q : APath Nat := P.map fun q => (s.orig q).2
    Spells (· ∈ keys B.edges) Q.pathAndStack.1 Q.pathAndStack.2 ∧ Q.pathAndStack.1.head? = some P.frontState ∧
      Q.pathAndStack.2 = P.stack.filter (fun g => decide (g ≠ epsilon)) ∧
      Q.pathAndStack.1.getLast? = some Q.fin ∧ B.isAcc Q.fin = true := by
  intro Q
  obtain ⟨h1, h2⟩ := h.second_aux hB P.fin P.edges (AcceptingPath.trs_mem hP)
  refine ⟨h1, ?_, ?_, ?_, ((h.acc _ (Aut.isAcc_lt hP.2.2)).1 hP.2.2).2⟩
  · rw [orig_lt hP.2.1] at h2
    exact h2
  · rw [APath.pathAndStack_eq, APath.stack_eq]
    simp only [Q, APath.map, List.filter_map, List.map_map]
    rfl
  · rw [APath.pathAndStack_eq]
    simp

/-- If the first automaton has epsilon edges from control states only, to other states only, then only the first
edge of a path can be one. -/
theorem PInv.tail_aux (h : PInv dual A B s) (hB : ∀ t ∈ keys B.edges, t.label ≠ epsilon) {size : Nat}
    (hA : ∀ t ∈ keys A.edges, size ≤ t.dst ∧ (t.label = epsilon → t.src < size)) (fin : Nat) (es : List (Nat × Nat))
    (hE : ∀ t ∈ trs fin es, t ∈ keys s.aut.edges) (hf : size ≤ (s.orig (APath.frontState ⟨fin, es⟩)).1) :
    ∀ x ∈ es, x.1 ≠ epsilon := by
  induction es with
  | nil => simp
  | cons x es ih =>
    simp only [trs, List.forall_mem_cons] at hE
    obtain ⟨_, _, hm⟩ := h.edges _ hE.1
    have hs : (s.orig (APath.frontState ⟨fin, x :: es⟩)) = s.orig x.2 := rfl
    rw [hs] at hf
    rcases hm with ⟨h1, h2 | h2⟩ | ⟨h1, h2, _⟩
    · have := (hA _ h2.1).2 rfl
      dsimp only at this
      omega
    · exact absurd rfl (hB _ h2.1)
    · simp only [List.forall_mem_cons]
      exact ⟨h1, ih hE.2 (hA _ h2).1⟩

theorem PInv.tail (h : PInv dual A B s) (hB : ∀ t ∈ keys B.edges, t.label ≠ epsilon) {size : Nat}
    (hA : ∀ t ∈ keys A.edges, size ≤ t.dst ∧ (t.label = epsilon → t.src < size)) {P : APath Nat}
    (hP : AcceptingPath s.aut s.size P) : ∀ x ∈ P.edges.tail, x.1 ≠ epsilon := by
  rcases P with ⟨fin, _ | ⟨x, es⟩⟩
  · simp
  · have hE := AcceptingPath.trs_mem hP
    simp only [APath.trs, trs, List.forall_mem_cons] at hE
    obtain ⟨_, _, hm⟩ := h.edges _ hE.1
    refine h.tail_aux hB hA fin es hE.2 ?_
    rcases hm with ⟨h1, h2 | h2⟩ | ⟨h1, h2, _⟩
    · exact (hA _ h2.1).1
    · exact absurd rfl (hB _ h2.1)
    · exact (hA _ h2).1

/-- The path in the second automaton after `remove_epsilon`. -/
theorem PInv.second_path (h : PInv dual A B s) (hB : ∀ t ∈ keys B.edges, t.label ≠ epsilon) {size : Nat}
    (hA : ∀ t ∈ keys A.edges, size ≤ t.dst ∧ (t.label = epsilon → t.src < size)) {P : APath Nat}
    (hP : AcceptingPath s.aut s.size P) :
    AcceptingPath B s.size (P.map fun q => (s.orig q).2).removeEpsilon ∧
      (P.map fun q => (s.orig q).2).removeEpsilon.stack = P.stack.filter (fun g => decide (g ≠ epsilon)) ∧
      (P.map fun q => (s.orig q).2).removeEpsilon.frontState = P.frontState := by
  have ht : ∀ x ∈ (P.map fun q => (s.orig q).2).edges.tail, x.1 ≠ epsilon := by
    intro x hx
    simp only [APath.map, ← List.map_tail, List.mem_map] at hx
    obtain ⟨y, hy, rfl⟩ := hx
    exact h.tail hB hA hP y hy
  obtain ⟨h1, h2, h3, _, h5⟩ := h.second hB hP
  rw [APath.removeEpsilon_eq ht]
  have hs := APath.states_filter (P.map fun q => (s.orig q).2)
  rw [Prod.ext_iff] at hs
  obtain ⟨s1, s2⟩ := hs
  dsimp only at s1 s2
  rw [← s1, ← s2] at h1
  rw [← s1] at h2
  rw [← s2] at h3
  rw [APath.head_states, Option.some.injEq] at h2
  exact ⟨⟨h1, by rw [h2]; exact hP.2.1, h5⟩, h3, h2⟩

theorem PInv.dst_lt (h : PInv dual A B s) : ∀ t ∈ keys s.aut.edges, t.dst < s.aut.n := fun t ht => (h.edges t ht).2.1

/-- If the product has an accepting state, `find_path` finds a path. -/
theorem PInv.find (ho : HashOrder) (h : PInv dual A B s) (ha : s.hasAcc = true) :
    AcceptingPath s.aut s.size (s.aut.findPath ho s.size) := by
  rcases Aut.findPath_spec ho s.aut s.size (by rw [h.n]; omega) h.dst_lt with h1 | ⟨_, h1⟩
  · exact h1
  · obtain ⟨u, h2, h3⟩ := h.hasAcc.1 ha
    obtain ⟨p, h4, w, h5⟩ := h.reach u h2
    have := h1 p w u h4 h5
    rw [(h.acc u h2).2 h3] at this
    simp at this

/-- If the product has no accepting state, `find_path` returns the null path. -/
theorem PInv.find_null (ho : HashOrder) (h : PInv dual A B s) (ha : s.hasAcc = false) :
    s.aut.findPath ho s.size = APath.null := by
  rcases Aut.findPath_spec ho s.aut s.size (by rw [h.n]; omega) h.dst_lt with h1 | ⟨h1, _⟩
  · have h2 := h1.2.2
    have h3 := Aut.isAcc_lt h2
    rw [h.hasAcc.2 ⟨_, h3, (h.acc _ h3).1 h2⟩] at ha
    simp at ha
  · exact h1

theorem AcceptingPath.notNull {a : Aut W} {size : Nat} {P : APath Nat} (h : AcceptingPath a size P)
    (hn : a.n ≤ sizeMax) : P.isNull = false := by
  have := Aut.isAcc_lt h.2.2
  unfold APath.isNull
  rw [beq_eq_false_iff_ne]
  omega

end Product

/-! ## Automata without traces -/

theorem tbNext_untraced {T : Type} {p : Pda W} {a : Aut T} (h0 : ∀ e ∈ a.edges, e.2.1 = Trace.null) {path : APath Nat}
    (hE : ∀ t ∈ path.trs, t ∈ keys a.edges) (k : Nat) : tbNext p a (k + 1) { path := path } = some (none, { path := path }) := by
  unfold tbNext tbRound
  rcases path with ⟨f, _ | ⟨x, es⟩⟩
  · rfl
  · have h1 : APath.frontEdge ⟨f, x :: es⟩ = some (x.2, x.1, APath.frontState ⟨f, es⟩) := by cases es <;> rfl
    simp only [APath.trs, trs, List.forall_mem_cons] at hE
    dsimp only
    rw [h1]
    have h2 : a.traceLabel ⟨x.2, x.1, APath.frontState ⟨f, es⟩⟩ = some Trace.null := by
      unfold Aut.traceLabel
      cases hg : a.getEdge ⟨x.2, x.1, APath.frontState ⟨f, es⟩⟩ with
      | none =>
        obtain ⟨e, he, h3⟩ := List.mem_map.1 hE.1
        unfold Aut.getEdge at hg
        rw [Option.map_eq_none_iff, List.find?_eq_none] at hg
        exact absurd (by simpa using h3) (hg e he)
      | some an =>
        unfold Aut.getEdge at hg
        rw [Option.map_eq_some_iff] at hg
        obtain ⟨e, he, rfl⟩ := hg
        simp [h0 e (List.mem_of_find?_eq_some he)]
    simp only [h2]
    rfl

end Verif
