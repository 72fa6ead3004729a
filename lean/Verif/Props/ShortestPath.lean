import Verif.Proofs.ShortestFind
import Verif.Props.ShortestPost

/-!
# C53 and C54: lightest paths of a weighted automaton

The weights are a linearly ordered commutative monoid, in which addition is exact. `hp` is the priority queue, `h` the
order in which hash maps are visited; both are arbitrary.
-/

namespace Verif.Props

variable {W T : Type} [LinearOrder W] [LinearOrder T] [AddCommMonoid T]

/-! ## C53 -/

/-- C53: `accept_path<Shortest>` ends, for every automaton without negative weights. -/
theorem c53_terminates [IsOrderedAddMonoid T] (hp : Heap (Aut.SpElem T) T DElem.weight) (h : HashOrder) (a : Aut T)
    (hn : ∀ t x, autWeights a t x → 0 ≤ x) (q : Nat) (w : List Nat) :
    ∃ fuel path m, a.acceptPathShortest hp h q w fuel = some (path, m) := by
  rw [autWeights_iff] at hn
  obtain ⟨fuel, res, hres⟩ := Aut.acceptPathShortest_terminates hp h a hn q w
  exact ⟨fuel, res.1, res.2, hres⟩

/-- C53, with epsilon transitions: if no weight is negative, `accept_path<Shortest>` returns the least weight of an
accepting path and the states of such a path in which the symbols are read, and the empty path with `max()` if there is
none. Epsilon transitions are followed before a symbol, but not after the last one. -/
theorem c53_shortest_partial [IsOrderedAddMonoid T] (hp : Heap (Aut.SpElem T) T DElem.weight) (h : HashOrder) (a : Aut T)
    (hn : ∀ t x, autWeights a t x → 0 ≤ x) (q : Nat) (w : List Nat) (fuel : Nat) (path : List Nat) (m : WithTop T)
    (hres : a.acceptPathShortest hp h q w fuel = some (path, m)) :
    (m = ⊤ ∧ path = [] ∧ ReadWeights (autWeights a) (fun f => a.isAcc f = true) (q, w) = {}) ∨
    ∃ x : T, m = x ∧ CostReads (autWeights a) q path w x ∧ (∃ f, path.getLast? = some f ∧ a.isAcc f = true) ∧
      IsLeast (ReadWeights (autWeights a) (fun f => a.isAcc f = true) (q, w)) x := by
  rw [autWeights_iff] at hn ⊢
  exact Aut.acceptPathShortest_spec hp h a hn q w fuel path m hres

omit [LinearOrder T] in
theorem costReads_noeps {E : Tr → T → Prop} (hE : ∀ t x, E t x → t.label ≠ epsilon) {q : Nat} {qs w : List Nat} {x : T}
    (hr : CostReads E q qs w x) : qs.head? = some q ∧ CostSpells E qs w x ∧ ∀ f, qs.getLast? = some f → CostPath E q w x f := by
  induction hr with
  | nil q =>
    refine ⟨rfl, rfl, fun f hf => ?_⟩
    simp only [List.getLast?_singleton, Option.some.injEq] at hf
    rw [hf]
    exact .nil f
  | @cons p g q qs w x y ht hr ih =>
    obtain ⟨h1, h2, h3⟩ := ih
    cases qs with
    | nil => cases h1
    | cons q' qs =>
      rw [List.head?_cons, Option.some.injEq] at h1
      subst h1
      exact ⟨rfl, ⟨x, y, ht, h2, rfl⟩, fun f hf => .cons ht (h3 f (by simpa [List.getLast?_cons_cons] using hf))⟩
  | eps ht => exact absurd rfl (hE _ _ ht)

omit [LinearOrder T] in
theorem costReads_of_path {E : Tr → T → Prop} {q f : Nat} {w : List Nat} {x : T} (hp : CostPath E q w x f) :
    ∃ qs, CostReads E q qs w x ∧ qs.getLast? = some f := by
  induction hp with
  | nil q => exact ⟨[q], .nil q, rfl⟩
  | cons ht _ ih =>
    obtain ⟨qs, h1, h2⟩ := ih
    refine ⟨_, .cons ht h1, ?_⟩
    cases qs with
    | nil => cases h2
    | cons q' qs => simpa [List.getLast?_cons_cons] using h2

/-- C53: in an automaton without epsilon transitions and without negative weights, `accept_path<Shortest>` returns the
states of a path from the given state that spells the stack and ends in an accepting state, with its weight, which is
the least of all such paths; if there is none, it returns the empty path and `max()`. -/
theorem c53_shortest_no_epsilon [IsOrderedAddMonoid T] (hp : Heap (Aut.SpElem T) T DElem.weight) (h : HashOrder) (a : Aut T)
    (hn : ∀ t x, autWeights a t x → 0 ≤ x) (hE : ∀ t ∈ keys a.edges, t.label ≠ epsilon) (q : Nat) (w : List Nat) (fuel : Nat)
    (path : List Nat) (m : WithTop T) (hres : a.acceptPathShortest hp h q w fuel = some (path, m)) :
    (m = ⊤ ∧ path = [] ∧ PathWeights (autWeights a) (fun f => a.isAcc f = true) (q, w) = {}) ∨
    ∃ x : T, m = x ∧ path.head? = some q ∧ CostSpells (autWeights a) path w x ∧
      (∃ f, path.getLast? = some f ∧ a.isAcc f = true) ∧
      IsLeast (PathWeights (autWeights a) (fun f => a.isAcc f = true) (q, w)) x := by
  have hE' : ∀ t x, autWeights a t x → t.label ≠ epsilon := by
    intro t x ht
    obtain ⟨e, h1, h2⟩ := List.mem_map.1 (autWeights_list a t x ht)
    rw [Prod.mk.injEq] at h2
    exact hE t (List.mem_map.2 ⟨e, h1, h2.1⟩)
  have hset : PathWeights (autWeights a) (fun f => a.isAcc f = true) (q, w) =
      ReadWeights (autWeights a) (fun f => a.isAcc f = true) (q, w) := by
    refine Set.ext fun x => ⟨?_, ?_⟩
    · rintro ⟨f, hp, hf⟩
      obtain ⟨qs, h1, h2⟩ := costReads_of_path hp
      exact ⟨qs, f, h1, h2, hf⟩
    · rintro ⟨qs, f, h1, h2, hf⟩
      exact ⟨f, (costReads_noeps hE' h1).2.2 f h2, hf⟩
  rw [hset]
  rcases c53_shortest_partial hp h a hn q w fuel path m hres with h1 | ⟨x, h1, h2, h3, h4⟩
  · exact .inl h1
  · obtain ⟨h5, h6, _⟩ := costReads_noeps hE' h2
    exact .inr ⟨x, h1, h5, h6, h3, h4⟩

/-- A weighted automaton with two paths for the same stack. -/
def spAut : Aut ℤ :=
  { acc := [false, false, false, true]
    edges := [(⟨0, 5, 1⟩, {}, 4), (⟨1, 7, 3⟩, {}, 0), (⟨0, 5, 2⟩, {}, 1), (⟨2, 7, 3⟩, {}, 2), (⟨2, 5, 3⟩, {}, 0)] }

/-- Non-vacuity of C53: of two paths for the stack the lighter one is returned. -/
example : (∀ t x, autWeights spAut t x → 0 ≤ x) ∧ (∀ t ∈ keys spAut.edges, t.label ≠ epsilon) ∧
    spAut.acceptPathShortest (Heap.first _) HashOrder.id 0 [5, 7] 10 = some ([0, 2, 3], ((3 : ℤ) : WithTop ℤ)) := by
  refine ⟨fun t x ht => ?_, by decide, by decide +kernel⟩
  have := autWeights_list _ t x ht
  simp only [spAut, List.map_cons, List.map_nil, List.mem_cons, Prod.mk.injEq, List.not_mem_nil, or_false] at this
  omega

section PostStar
variable [IsOrderedCancelAddMonoid T]

/-- The weights after the shortest post* are not negative. -/
theorem post_nonneg {val : W → T} {hp : Heap (ShElem T) (WithTop T) ShElem.key} {h : HashOrder} {p : Pda W} (hw : p.WF)
    (hl : p.nLabels ≤ epsilon) {a : Aut T} (ha : ShAut p a) {fuel : Nat} {s : ShSt T}
    (hs : postStarShortest val hp h p a fuel = .ok (some s)) : ∀ t x, autWeights s.aut t x → 0 ≤ x := by
  obtain ⟨_, ⟨⟨κ, hi⟩, _⟩, _⟩ := shResult hw hl ha hs
  rw [autWeights_iff]
  intro t x hx
  obtain ⟨k, hk⟩ := hi.autw t x hx
  exact hi.pos t x k hk

omit [LinearOrder T] [IsOrderedCancelAddMonoid T] in
theorem costEPath_of_reads {E : Tr → T → Prop} {q f : Nat} {qs w : List Nat} {x : T} (hr : CostReads E q qs w x)
    (hw : ∀ g ∈ w, g ≠ epsilon) (hl : qs.getLast? = some f) : CostEPath E q w x f := by
  induction hr with
  | nil q =>
    simp only [List.getLast?_singleton, Option.some.injEq] at hl
    rw [hl]
    exact .nil f
  | @cons p g q qs w x y ht hr ih =>
    refine .cons (hw _ (List.mem_cons_self ..)) ht (ih (fun g hg => hw g (List.mem_cons_of_mem _ hg)) ?_)
    have := hr.ne_nil
    cases qs with
    | nil => exact absurd rfl this
    | cons q' qs => simpa [List.getLast?_cons_cons] using hl
  | eps ht _ ih => exact .eps ht (ih hw hl)

/-- C53 after C32: after `post_star<Shortest>`, `accept_path<Shortest>` on a configuration with a nonempty stack ends and
returns the least weight of a run from the input language to the configuration, and `max()` exactly if there is no run,
however the priority queues order equal keys. -/
theorem c53_after_post_star (val : W → T) (hp : Heap (ShElem T) (WithTop T) ShElem.key)
    (hp' : Heap (Aut.SpElem T) T DElem.weight) (h h' : HashOrder) {p : Pda W} (hw : p.WF) (hl : p.nLabels ≤ epsilon) {a : Aut T}
    (ha : ShAut p a) (fuel : Nat) (s : ShSt T) (hs : postStarShortest val hp h p a fuel = .ok (some s)) (q g : Nat)
    (w : List Nat) (hq : q < p.size) (hg : ∀ g' ∈ g :: w, g' < p.nLabels) :
    (∃ fuel path m, s.aut.acceptPathShortest hp' h' q (g :: w) fuel = some (path, m)) ∧
    ∀ fuel path m, s.aut.acceptPathShortest hp' h' q (g :: w) fuel = some (path, m) →
      (m = ⊤ ∧ RunWeightsFrom p.Has val p.size (· ∈ keys a.edges) (fun q => a.isAcc q = true) (q, g :: w) = {}) ∨
      ∃ x : T, m = x ∧
        IsLeast (RunWeightsFrom p.Has val p.size (· ∈ keys a.edges) (fun q => a.isAcc q = true) (q, g :: w)) x := by
  have hn := post_nonneg hw hl ha hs
  refine ⟨c53_terminates hp' h' s.aut hn q (g :: w), fun fuel' path m hres => ?_⟩
  have sub : ∀ x ∈ ReadWeights (autWeights s.aut) (fun f => s.aut.isAcc f = true) (q, g :: w),
      x ∈ RunWeightsFrom p.Has val p.size (· ∈ keys a.edges) (fun q => a.isAcc q = true) (q, g :: w) := by
    rintro x ⟨qs, f, h1, h2, h3⟩
    exact (c32_sound val hp h hw hl ha fuel s hs q (g :: w) hq).2 x
      ⟨f, costEPath_of_reads h1 (fun g' hg' => by have := hg g' hg'; omega) h2, h3⟩
  have least : ∀ x ∈ RunWeightsFrom p.Has val p.size (· ∈ keys a.edges) (fun q => a.isAcc q = true) (q, g :: w),
      ∃ y ∈ ReadWeights (autWeights s.aut) (fun f => s.aut.isAcc f = true) (q, g :: w), y ≤ x := by
    intro x hx
    obtain ⟨y, hy⟩ := (c32_minimum val hp h hw hl ha fuel s hs q (g :: w) hq).2 ⟨x, hx⟩
    have hy := ((c32_minimum val hp h hw hl ha fuel s hs q (g :: w) hq).1 y).1 hy
    have hy2 := (c32_minimum_literal val hp h hw hl ha fuel s hs q g w hq hg y).2 hy
    obtain ⟨f, h1, h2⟩ := hy2.1
    obtain ⟨qs, h3, h4⟩ := costReads_of_path h1
    exact ⟨y, ⟨qs, f, h3, h4, h2⟩, hy.2 hx⟩
  rcases c53_shortest_partial hp' h' s.aut hn q (g :: w) fuel' path m hres with ⟨h1, _, h2⟩ | ⟨x, h1, _, _, h2⟩
  · refine .inl ⟨h1, Set.ext fun x => ⟨fun hx => ?_, fun hx => hx.elim⟩⟩
    obtain ⟨y, hy, _⟩ := least x hx
    rw [h2] at hy
    exact hy.elim
  · refine .inr ⟨x, h1, sub x h2.1, fun y hy => ?_⟩
    obtain ⟨z, hz, hle⟩ := least y hy
    exact le_trans (h2.2 hz) hle

end PostStar

/-- A priority queue that takes the last of the elements with the least key. -/
def lastHeap {A K : Type} [LinearOrder K] (key : A → K) : Heap A K key where
  pop l := popMin key l.reverse |>.map fun x => (x.1, x.2.reverse)
  none_iff l := by
    rw [Option.map_eq_none_iff, popMin_none]
    simp
  spec l e r hl := by
    rw [Option.map_eq_some_iff] at hl
    obtain ⟨⟨e', r'⟩, h1, h2⟩ := hl
    rw [Prod.mk.injEq] at h2
    obtain ⟨rfl, rfl⟩ := h2
    obtain ⟨h3, h4⟩ := popMin_spec key _ _ _ h1
    exact ⟨((List.reverse_perm r').cons e').trans (h3.trans (List.reverse_perm l)), fun u hu => h4 u (List.mem_reverse.1 hu)⟩

/-- C53, a disagreement found: after `post_star<Shortest>` there are epsilon transitions, and the path returned for the
configuration ⟨1, [1]⟩ may begin in state 2, which is not a state of the PDA, instead of state 1. An element that is
queued for an epsilon transition has the same back pointer as the current element, so that the state before the epsilon
transition is lost; this is harmless only as long as the priority queue prefers the path without epsilon transitions,
which has the same weight. The order of elements of equal weight is not specified for `std::priority_queue`. -/
theorem c53_path_starts_elsewhere :
    ∃ s, postStarShortest id (Heap.first ShElem.key) HashOrder.id (Pda.build 2 shCalls) shInput 100 = .ok (some s) ∧
      s.aut.acceptPathShortest (Heap.first _) HashOrder.id 1 [1] 100 = some ([1, 3], ((2 : ℤ) : WithTop ℤ)) ∧
      s.aut.acceptPathShortest (lastHeap _) HashOrder.id 1 [1] 100 = some ([2, 3], ((2 : ℤ) : WithTop ℤ)) := by
  have hn : shNegative id (Pda.build 2 shCalls) shInput = false := by decide +kernel
  have h : (shLoop id (Heap.first ShElem.key) (Pda.build 2 shCalls) 100 (shInit HashOrder.id (Pda.build 2 shCalls) shInput)).map
      (fun s => (s.aut.acceptPathShortest (Heap.first _) HashOrder.id 1 [1] 100,
        s.aut.acceptPathShortest (lastHeap _) HashOrder.id 1 [1] 100)) =
      some (some ([1, 3], ((2 : ℤ) : WithTop ℤ)), some ([2, 3], ((2 : ℤ) : WithTop ℤ))) := by decide +kernel
  rw [Option.map_eq_some_iff] at h
  obtain ⟨s, h1, h2⟩ := h
  simp only [Prod.mk.injEq] at h2
  refine ⟨s, ?_, h2⟩
  unfold postStarShortest
  rw [hn]
  simp [h1]

/-- C53: the condition on the weights is needed. With a transition of negative weight the weight returned is not the
least. -/
theorem c53_negative_weight :
    let a : Aut ℤ := { acc := [false, false, true], edges := [(⟨0, 5, 2⟩, {}, 1), (⟨0, epsilon, 1⟩, {}, 3), (⟨1, 5, 2⟩, {}, -3)] }
    a.acceptPathShortest (Heap.first _) HashOrder.id 0 [5] 100 = some ([0, 2], ((1 : ℤ) : WithTop ℤ)) ∧
      (0 : ℤ) ∈ ReadWeights (autWeights a) (fun f => a.isAcc f = true) (0, [5]) := by
  intro a
  have h1 : autWeights a ⟨0, epsilon, 1⟩ 3 := ⟨{}, by decide⟩
  have h2 : autWeights a ⟨1, 5, 2⟩ (-3) := ⟨{}, by decide⟩
  exact ⟨by decide +kernel, [1, 2], 2, .eps h1 (.cons h2 (.nil 2)), rfl, rfl⟩

/-! ## C54 -/

/-- C54: `find_path_shortest` ends, for every automaton without negative weights. -/
theorem c54_terminates [IsOrderedAddMonoid T] (hp : Heap (Aut.FpElem T) T DElem.weight) (h : HashOrder) (size : Nat)
    {a : Aut T} (hd : (keys a.edges).Nodup) (hn : ∀ t x, autWeights a t x → 0 ≤ x) :
    ∃ fuel p m, a.findPathShortest hp h size fuel = some (p, m) := by
  rw [autWeights_iff] at hn
  obtain ⟨fuel, res, hres⟩ := Aut.findPathShortest_terminates hp h size hd hn
  exact ⟨fuel, res.1, res.2, hres⟩

/-- C54: if no weight is negative, `find_path_shortest` returns a path from a state of the PDA to an accepting state, with
the sum of the weights of its transitions, which is the least of all such paths, whatever they spell; if there is none,
it returns the null path and `max()`. -/
theorem c54_shortest [IsOrderedAddMonoid T] (hp : Heap (Aut.FpElem T) T DElem.weight) (h : HashOrder) (size : Nat)
    {a : Aut T} (hd : (keys a.edges).Nodup) (hn : ∀ t x, autWeights a t x → 0 ≤ x) (fuel : Nat) (p : APath Nat) (m : WithTop T)
    (hres : a.findPathShortest hp h size fuel = some (p, m)) :
    (m = ⊤ ∧ p = APath.null ∧ ∀ q w, q < size → PathWeights (autWeights a) (fun f => a.isAcc f = true) (q, w) = {}) ∨
    ∃ x : T, m = x ∧ p.frontState < size ∧ a.isAcc p.fin = true ∧ CostSpells (autWeights a) p.states p.stack x ∧
      ∀ q w, q < size → ∀ y ∈ PathWeights (autWeights a) (fun f => a.isAcc f = true) (q, w), x ≤ y := by
  rw [autWeights_iff] at hn ⊢
  exact Aut.findPathShortest_spec hp h size hd hn fuel p m hres

/-- Non-vacuity of C54: the lightest path goes through state 2. -/
example : (keys spAut.edges).Nodup ∧ (∀ t x, autWeights spAut t x → 0 ≤ x) ∧
    spAut.findPathShortest (Heap.first _) HashOrder.id 1 10 = some (⟨3, [(5, 0), (5, 2)]⟩, ((1 : ℤ) : WithTop ℤ)) := by
  refine ⟨by decide, fun t x ht => ?_, by decide +kernel⟩
  have := autWeights_list _ t x ht
  simp only [spAut, List.map_cons, List.map_nil, List.mem_cons, Prod.mk.injEq, List.not_mem_nil, or_false] at this
  omega

end Verif.Props
